import Verif.Model.FastAP
import Verif.Spec.Agglomerate
import Verif.Spec.Restriction
import Verif.Spec.WorkStream
import Mathlib.Algebra.BigOperators.Group.Finset.Basic
import Mathlib.Data.Finset.Range

/-!
# What the `fast_ap` identity assumes

A finite element discretisation as one process sees it: cells (owned and ghost), their dofs and
cell matrices, the agglomerates given by the user index, and the global matrix.
-/

set_option autoImplicit false

namespace Mfmg

open Finset

variable {K : Type} [Field K]

/-- A discretisation: `A` is the global matrix, `nDofs` the global number of dofs. -/
structure Disc (K : Type) where
  nCells : ℕ
  owned : ℕ → Bool
  u : UserIndex
  nAgg : ℕ
  conn : ℕ → List ℕ
  nDofs : ℕ
  cellDofs : ℕ → List ℕ
  cellMat : ℕ → ℕ → ℕ → K
  A : ℕ → ℕ → K

/-- Is `c` a cell of agglomerate number `a` (identifier `a + 1`)? -/
def Disc.inAgg (D : Disc K) (a c : ℕ) : Bool := D.owned c && D.u c == a + 1

/-- Sum of the cell matrices of agglomerate `a`. -/
def Disc.aggMat (D : Disc K) (a x y : ℕ) : K :=
  ∑ c ∈ (range D.nCells).filter (fun c => D.inAgg a c = true), D.cellMat c x y

/-- Agglomerate `a` has a vertex neighbour outside. -/
def Disc.HasOutside (D : Disc K) (a : ℕ) : Prop :=
  ∃ c, c < D.nCells ∧ D.inAgg a c = true ∧ ∃ d ∈ D.conn c, D.inAgg a d = false

/-- The assumptions on mesh and matrix: agglomerate numbers are valid; the connectivity lists cells
of the mesh and contains every cell that shares a dof; cell matrices couple dofs of the cell only;
a column of `A` that belongs to a dof of an owned cell is the sum of the cell matrices seen by the
process. -/
structure Disc.Sound (D : Disc K) : Prop where
  flags : ∀ c, c < D.nCells → D.owned c = true → 1 ≤ D.u c ∧ D.u c ≤ D.nAgg
  conn_lt : ∀ c d, d ∈ D.conn c → d < D.nCells
  conn_complete : ∀ c d x, c < D.nCells → d < D.nCells → c ≠ d → x ∈ D.cellDofs c →
    x ∈ D.cellDofs d → d ∈ D.conn c
  dofs_lt : ∀ c x, x ∈ D.cellDofs c → x < D.nDofs
  support : ∀ c x y, D.cellMat c x y ≠ 0 → x ∈ D.cellDofs c ∧ y ∈ D.cellDofs c
  assembled : ∀ c x y, c < D.nCells → D.owned c = true → y ∈ D.cellDofs c →
    D.A x y = ∑ d ∈ range D.nCells, D.cellMat d x y

/-- The user's patch evaluation agrees with the cell matrices on patches given by increasing cell
lists. -/
def PatchEval.Faithful (pe : PatchEval K) (D : Disc K) : Prop :=
  ∀ cells : List ℕ, cells.Pairwise (· < ·) → (∀ c ∈ cells, c < D.nCells) →
    (pe.dofMap cells).Nodup ∧ (∀ x, x ∈ pe.dofMap cells ↔ ∃ c ∈ cells, x ∈ D.cellDofs c) ∧
    ∀ (k l x y : ℕ), (pe.dofMap cells)[k]? = some x → (pe.dofMap cells)[l]? = some y →
      pe.matrix cells k l = (cells.map (fun c => D.cellMat c x y)).sum

/-- The local data of agglomerate `a`: its dofs and diagonal, and as many eigenvalues as eigenvectors. -/
structure LocalData (D : Disc K) (a : ℕ) (c : CopyData K) : Prop where
  wf : c.WellFormed
  dofs : ∀ x, x ∈ c.dofMap ↔ ∃ d, d < D.nCells ∧ D.inAgg a d = true ∧ x ∈ D.cellDofs d
  diag : ∀ x ∈ c.dofMap, extend c.dofMap c.diag x = D.aggMat a x x
  count : c.eigenvalues.length = c.eigenvectors.length

/-- The residual of the pair `lam`, `v` in the eigenproblem of agglomerate `a`. -/
def Disc.residual (D : Disc K) (a : ℕ) (c : CopyData K) (lam : K) (v : List K) (x : ℕ) : K :=
  lam * extend c.dofMap v x - ∑ y ∈ range D.nDofs, D.aggMat a x y * extend c.dofMap v y

/-- The local data of agglomerate `a`, with exact eigenpairs of its matrix. -/
structure ExactLocal (D : Disc K) (a : ℕ) (c : CopyData K) : Prop extends LocalData D a c where
  eigen : ∀ (k : ℕ) (lam : K) (v : List K), c.eigenvalues[k]? = some lam →
    c.eigenvectors[k]? = some v → ∀ x,
      ∑ y ∈ range D.nDofs, D.aggMat a x y * extend c.dofMap v y = lam * extend c.dofMap v x

end Mfmg
