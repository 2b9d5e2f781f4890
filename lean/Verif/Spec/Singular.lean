import Verif.Spec.SetupAll
import Verif.Spec.TwoLevel
import Verif.Spec.CoarseSpd

/-!
# Specification: problems with a singular matrix
-/

set_option autoImplicit false

namespace Mfmg

/-- Symmetric and positive semidefinite, with positive diagonal: what problems without boundary conditions give. -/
structure IsSemidefinite {K : Type} [Field K] [LinearOrder K] {n : ℕ} (A : Matrix (Fin n) (Fin n) K) : Prop where
  symm : A.transpose = A
  nonneg : ∀ v : Fin n → K, 0 ≤ v ⬝ᵥ A.mulVec v
  diag : ∀ i, 0 < A i i

/-- Every cell matrix annihilates `w`: constants for a Laplacian, rigid body motions for elasticity, without boundary
conditions anywhere. -/
def CellsAnnihilate {K : Type} [Field K] (procs : List (ProcFem K)) (n : ℕ) (w : Fin n → K) : Prop :=
  ∀ q ∈ procs, ∀ c, c < q.share.mesh.nCells → ∀ x : Fin n, ∑ y : Fin n, q.cellMat c x.val y.val * w y = 0

/-- The global matrix. -/
def globalMatrix {K : Type} [Field K] (procs : List (ProcFem K)) (n : ℕ) : Matrix (Fin n) (Fin n) K :=
  Matrix.of fun i j => globalEntry procs i.val j.val

/-- `G` is a generalised inverse of `M`: it gives a solution of every system with matrix `M` that has one. -/
def IsGeneralisedInverse {K : Type} [Field K] {m : ℕ} (M G : Matrix (Fin m) (Fin m) K) : Prop := M * G * M = M

end Mfmg
