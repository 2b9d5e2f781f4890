import Verif.Model.SetupAll
import Verif.Spec.WorkStream
import Verif.Spec.Agglomerate
import Verif.Spec.TwoLevel

/-!
# Specification of the whole set-up
-/

set_option autoImplicit false

namespace Mfmg

open Finset

variable {K : Type}

/-- A process together with the discretisation it works on: the global dofs and the matrix (in global dof
numbers) of each cell. -/
structure ProcFem (K : Type) where
  share : Share K
  cellDofs : ℕ → List ℕ
  cellMat : ℕ → ℕ → ℕ → K

/-- The cells of the process. -/
def ProcFem.ownCells (q : ProcFem K) : Finset ℕ :=
  (range q.share.mesh.nCells).filter fun c => q.share.mesh.owned c = true

/-- The cells of agglomerate `k` (identifier `k + 1`). -/
def ProcFem.aggCells (q : ProcFem K) (u : UserIndex) (k : ℕ) : Finset ℕ :=
  (range q.share.mesh.nCells).filter fun c => u c = k + 1

/-- The global matrix: the sum of the matrices of all cells, each of which belongs to one process. -/
def globalEntry [AddCommMonoid K] (procs : List (ProcFem K)) (x y : ℕ) : K :=
  (procs.map fun q => ∑ c ∈ q.ownCells, q.cellMat c x y).sum

/-- What deal.II, the graph partitioner and the scheduler guarantee: both views of the mesh have the same cells,
owned `+` neighbours come later, debug builds are given meshes that are not locally refined, the partitioner
returns one part per cell, schedules are legal. -/
structure Share.Sound (debug : Bool) (sh : Share K) : Prop where
  nCells : sh.graph.nCells = sh.mesh.nCells
  owned : sh.graph.owned = sh.mesh.owned
  graph : sh.graph.Sound
  forward : sh.mesh.Forward
  uniform : debug = true → sh.mesh.Uniform
  partition : ∀ name g n, (sh.partition name g n).length = sh.mesh.nCells
  schedule : ∀ n, LegalSchedule n (sh.schedule n)

/-- The eigensolver `name` is selected by the parameters, and is available; its start vectors do not depend on
the agglomerates treated before (see C25). -/
structure Selects (matrixFree : Bool) (ep : EigParams) (name : String) : Prop where
  type : ep.type.getD (if matrixFree then "lanczos" else "arpack") = name
  known : name = "lanczos" ∨ name = "anasazi" ∨ (matrixFree = false ∧ (name = "arpack" ∨ name = "lapack"))
  noGuess : ¬ (ep.type = some "anasazi" ∧ ep.useInitialGuess = true)

/-- The user's evaluator is faithful: cell matrices couple dofs of the cell only, and on every patch the dofs and
the diagonal are those of the sum of the cell matrices; the eigensolver returns some vectors of the right size. -/
structure ProcFem.Faithful [AddCommMonoid K] (q : ProcFem K) (name : String) : Prop where
  support : ∀ c x y, q.cellMat c x y ≠ 0 → x ∈ q.cellDofs c ∧ y ∈ q.cellDofs c
  solves : ∀ cells : List ℕ, cells.Pairwise (· < ·) → cells ≠ [] → (∀ c ∈ cells, c < q.share.mesh.nCells) →
    ∃ c, q.share.solver cells name [] = .ok c ∧ c.WellFormed ∧
      (∀ x, x ∈ c.dofMap ↔ ∃ d ∈ cells, x ∈ q.cellDofs d) ∧
      ∀ x ∈ c.dofMap, extend c.dofMap c.diag x = (cells.map fun d => q.cellMat d x x).sum

/-- The agglomerates of a process after the set-up: its cells are divided among the agglomerates, none of which is
empty, the other cells are in none; agglomerate `k` has the dofs of its cells and the diagonal of the sum of their
matrices, and its vectors are what the eigensolver returned for these cells. -/
structure ProcFem.Result [AddCommMonoid K] (q : ProcFem K) (name : String) (u : UserIndex)
    (cs : List (CopyData K)) : Prop where
  owned : ∀ c ∈ q.ownCells, 1 ≤ u c ∧ u c ≤ cs.length
  other : ∀ c, c < q.share.mesh.nCells → q.share.mesh.owned c = false → u c = 0
  nonempty : ∀ k, k < cs.length → (q.aggCells u k).Nonempty
  wf : ∀ c ∈ cs, c.WellFormed
  dofs : ∀ k c, cs[k]? = some c → ∀ x, x ∈ c.dofMap ↔ ∃ d ∈ q.aggCells u k, x ∈ q.cellDofs d
  diag : ∀ k c, cs[k]? = some c → ∀ x, extend c.dofMap c.diag x = ∑ d ∈ q.aggCells u k, q.cellMat d x x
  solved : ∀ k c, cs[k]? = some c → q.share.solver ((q.aggCells u k).sort (· ≤ ·)) name [] = .ok c

/-- The matrix of a patch, with the `n` global dof numbers. -/
def ProcFem.patchMatrix [AddCommMonoid K] (q : ProcFem K) (n : ℕ) (cells : Finset ℕ) :
    Matrix (Fin n) (Fin n) K := Matrix.of fun i j => ∑ c ∈ cells, q.cellMat c i.val j.val

/-- The eigenproblems are solved correctly: on every agglomerate that the partitioner makes of an unmarked mesh the
vectors are pairwise orthogonal eigenvectors of the (symmetric, positive semidefinite) matrix of the patch, and
the eigenvalues left out are at least `omitted`, a positive number. -/
def ProcFem.SolvedExactly [Field K] [LinearOrder K] (q : ProcFem K) (debug : Bool) (dim : ℕ) (s : Strategy)
    (n : ℕ) (name : String) (omitted : Finset ℕ → K) : Prop :=
  ∀ u count, q.share.agglomerate debug dim s (fun _ => 0) = .ok (u, count) → ∀ k, k < count → ∀ c,
    q.share.solver ((q.aggCells u k).sort (· ≤ ·)) name [] = .ok c →
    0 < omitted (q.aggCells u k) ∧
      AggData.Solved (⟨c, q.patchMatrix n (q.aggCells u k), omitted (q.aggCells u k)⟩ : AggData n K)

/-- The agglomerates of all processes with their matrices. -/
def allAggs [AddCommMonoid K] (n : ℕ) (omitted : ProcFem K → Finset ℕ → K)
    (rs : List (ProcFem K × UserIndex × List (CopyData K))) : List (AggData n K) :=
  rs.flatMap fun r => r.2.2.mapIdx fun k c =>
    ⟨c, r.1.patchMatrix n (r.1.aggCells r.2.1 k), omitted r.1 (r.1.aggCells r.2.1 k)⟩

end Mfmg
