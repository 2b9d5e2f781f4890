import Verif.Model.Basic
import Mathlib.Algebra.Order.Field.Basic
import Mathlib.Algebra.Order.Group.Abs

/-!
# Model: writing matrices and vectors to files
-/

set_option autoImplicit false

namespace Mfmg

/-- The rows of a sparse matrix: column numbers and values.
Of `dealii::SparseMatrix` and `dealii::TrilinosWrappers::SparseMatrix`, /repo/source/dealii/dealii_utils.cc:63-77.
On several processes: the rows of all of them. -/
abbrev SparseRows (K : Type) : Type := List (List (ℕ × K))

/-- `EpetraExt::RowMatrixToMatrixMarketFile` or `MultiVectorToMatrixMarketFile`: the return value, and what a reader of the
file finds afterwards (`none`: no readable file).  Called in /repo/source/dealii/dealii_utils.cc:67-68, 87-88. -/
abbrev MarketWriter (α : Type) : Type := α → ℤ × Option α

/-- `matrix_market_output_file` for `dealii::TrilinosWrappers::SparseMatrix`, /repo/source/dealii/dealii_utils.cc:63-71.
The result is the content of the file afterwards. -/
def marketMatrix {K : Type} (debug : Bool) (write : MarketWriter (SparseRows K)) (a : SparseRows K) :
    Outcome (Option (SparseRows K)) := do
  let r := write a
  Outcome.assert debug (r.1 == 0)
  pure r.2

/-- `matrix_market_output_file` for `dealii::TrilinosWrappers::MPI::Vector`, /repo/source/dealii/dealii_utils.cc:83-91. -/
def marketVector {K : Type} (debug : Bool) (write : MarketWriter (List K)) (v : List K) : Outcome (Option (List K)) := do
  let r := write v
  Outcome.assert debug (r.1 == 0)
  pure r.2

variable {K : Type} [Field K] [LinearOrder K]

/-- The default argument `drop_tolerance` of `TrilinosWrappers::SparseMatrix::reinit`, used in
/repo/source/dealii/dealii_utils.cc:77. -/
def dropTolerance : K := 1 / 10 ^ 13

/-- `SparseMatrix::set` of one entry of a row: the entry must be in the pattern.
Part of `reinit`, called in /repo/source/dealii/dealii_utils.cc:77. -/
def setEntry (row : List (ℕ × K)) (e : ℕ × K) : List (ℕ × K) :=
  row.map fun f => if f.1 = e.1 then e else f

/-- One row of `TrilinosWrappers::SparseMatrix::reinit(dealii::SparseMatrix)`: the pattern is taken over with zeros, the
entries whose absolute value exceeds the tolerance are collected and set.  Called in
/repo/source/dealii/dealii_utils.cc:77. -/
def trilinosRowOf (row : List (ℕ × K)) : List (ℕ × K) :=
  (row.filter fun e => decide (dropTolerance < |e.2|)).foldl setEntry (row.map fun e => (e.1, 0))

/-- `matrix_market_output_file` for `dealii::SparseMatrix`, /repo/source/dealii/dealii_utils.cc:73-80. -/
def marketDealii (debug : Bool) (write : MarketWriter (SparseRows K)) (a : SparseRows K) :
    Outcome (Option (SparseRows K)) :=
  marketMatrix debug write (a.map trilinosRowOf)

end Mfmg
