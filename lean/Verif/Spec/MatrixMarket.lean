import Verif.Model.MatrixMarket

/-!
# Specification: writing matrices and vectors to files
-/

set_option autoImplicit false

namespace Mfmg

/-- The library that writes the file reports failure: if it returns zero, the file can be read back. -/
def ReportsFailure {α : Type} (write : MarketWriter α) : Prop :=
  ∀ a, (write a).1 = 0 → (write a).2 = some a

/-- Every row has at most one entry in each column. -/
def DistinctColumns {K : Type} (a : SparseRows K) : Prop := ∀ row ∈ a, (row.map Prod.fst).Nodup

/-- The matrix multiplied by a number: the same matrix in other units. -/
def scaledRows {K : Type} [Mul K] (c : K) (a : SparseRows K) : SparseRows K :=
  a.map fun row => row.map fun e => (e.1, c * e.2)

end Mfmg
