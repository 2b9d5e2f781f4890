import Verif.Spec.Store
import Verif.Spec.SetupAll
import Verif.Spec.CoarseSpd
import Mathlib.Algebra.BigOperators.Intervals
import Mathlib.Data.Rat.Defs

/-!
# Specification: work and memory of a hierarchy
-/

set_option autoImplicit false

namespace Mfmg

/-- Costs, in floating-point operations or entries moved: `product l m` of an operator from level `l` to level `m` (or of the
preconditioner of a smoother, `l = m`), `vector l` of going once through a vector of level `l`, `coarse l` of the coarse
solver. -/
structure Costs where
  product : ℕ → ℕ → ℕ
  vector : ℕ → ℕ
  coarse : ℕ → ℕ

/-- The cost of a statement. -/
def Costs.ofStmt {V : ℕ → Type} (c : Costs) : VStmt V → ℕ
  | .operate l m _ _ _ => c.product l m
  | .solve l _ _ _ _ => c.coarse l
  | .zero l _ => c.vector l
  | .build l _ _ => c.vector l
  | .copy l _ _ => c.vector l
  | .subtract l _ _ => c.vector l
  | .drop l _ => c.vector l

/-- The cost of a program. -/
def Costs.ofProgram {V : ℕ → Type} (c : Costs) (p : List (VStmt V)) : ℕ := (p.map c.ofStmt).sum

/-- What a V-cycle with `nu` smoothing steps costs on level `j`, without the levels below: `4 nu` products in the
smoothers, one for the residual, one restriction, one prolongation. -/
def Costs.level (c : Costs) (nu j : ℕ) : ℕ :=
  (4 * nu + 1) * c.product j j + c.product j (j + 1) + c.product (j + 1) j + (12 * nu + 6) * c.vector j +
    4 * c.vector (j + 1)

/-- The number of nonzero entries. -/
def nonzeros {K : Type} [Zero K] [DecidableEq K] {m n : ℕ} (A : Matrix (Fin m) (Fin n) K) : ℕ :=
  (Finset.univ.filter fun p : Fin m × Fin n => A p.1 p.2 ≠ 0).card

/-- The number of cells, of all processes, that a dof belongs to. -/
def cellsAt {K : Type} (procs : List (ProcFem K)) (x : ℕ) : ℕ :=
  (procs.map fun q => (q.ownCells.filter fun c => x ∈ q.cellDofs c).card).sum

/-- The number of cells of all processes. -/
def totalCells {K : Type} (procs : List (ProcFem K)) : ℕ := (procs.map fun q => q.ownCells.card).sum

/-- Complexity: the sum over the levels relative to the finest one. -/
def relativeSum (size : ℕ → ℕ) (levels : ℕ) : ℚ := (∑ j ∈ Finset.range levels, (size j : ℚ)) / size 0

end Mfmg
