import Verif.Spec.SetupAll
import Verif.Spec.CoarseSpd

/-!
# Specification of locality: a change of the problem in part of the mesh
-/

set_option autoImplicit false

namespace Mfmg

variable {K : Type}

/-- One process before and after a change of the problem, and the cells on which the problem has changed. -/
structure Changed (K : Type) where
  before : ProcFem K
  after : ProcFem K
  cells : Set ℕ

/-- The mesh, the partitioner and the dofs are the same, and so are the matrices of the cells that have not
changed; the eigensolver `name` returns the same for a patch without changed cells (the patch is all it is given)
and the same number of vectors for all patches.  The threads may work in another order. -/
structure Changed.Local (ch : Changed K) (name : String) : Prop where
  mesh : ch.after.share.mesh = ch.before.share.mesh
  graph : ch.after.share.graph = ch.before.share.graph
  partition : ch.after.share.partition = ch.before.share.partition
  dofs : ch.after.cellDofs = ch.before.cellDofs
  same : ∀ c, c ∉ ch.cells → ch.after.cellMat c = ch.before.cellMat c
  solver : ∀ cells : List ℕ, (∀ c ∈ cells, c ∉ ch.cells) →
    ch.after.share.solver cells name [] = ch.before.share.solver cells name []
  number : ∀ cells r r', ch.before.share.solver cells name [] = .ok r →
    ch.after.share.solver cells name [] = .ok r' → r'.eigenvectors.length = r.eigenvectors.length

/-- The dof `x` belongs to a cell, on any process, that has changed. -/
def TouchedDof (chs : List (Changed K)) (x : ℕ) : Prop :=
  ∃ ch ∈ chs, ∃ c ∈ ch.before.ownCells, c ∈ ch.cells ∧ x ∈ ch.before.cellDofs c

/-- For every row of the restriction matrix its process and the cells of its agglomerate, given the agglomerates
of the processes. -/
def rowAgglomerates {P : Type} (fem : P → ProcFem K) (rs : List (P × UserIndex × List (CopyData K))) :
    List (P × Finset ℕ) :=
  rs.flatMap fun r => (r.2.2.mapIdx fun k c =>
    List.replicate c.eigenvectors.length (r.1, (fem r.1).aggCells r.2.1 k)).flatten

/-- The agglomerate with the given cells has no changed cell and no dof in common with one. -/
def FarFrom (chs : List (Changed K)) (agg : Changed K × Finset ℕ) : Prop :=
  ∀ c ∈ agg.2, c ∉ agg.1.cells ∧ ∀ x ∈ agg.1.before.cellDofs c, ¬ TouchedDof chs x

/-- The matrix of the whole problem. -/
def wholeMatrix [AddCommMonoid K] (procs : List (ProcFem K)) (n : ℕ) : Matrix (Fin n) (Fin n) K :=
  Matrix.of fun i j => globalEntry procs i.val j.val

end Mfmg
