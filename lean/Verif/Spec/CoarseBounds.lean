import Verif.Spec.Relaxation
import Verif.Spec.Restriction

/-!
# Specification: bounds of the coarse matrices
-/

set_option autoImplicit false

namespace Mfmg

variable {K : Type} [Field K]

/-- The scalar product of two local vectors. -/
def localDot (v w : List K) : K := (List.zipWith (fun a b => a * b) v w).sum

/-- The local vectors are orthonormal. -/
def LocalOrthonormal (vs : List (List K)) : Prop :=
  (∀ v ∈ vs, localDot v v = 1) ∧ vs.Pairwise fun v w => localDot v w = 0

/-- The quadratic form of the matrix is at most `bound` times the square of the length. -/
def BoundedBy [LinearOrder K] {n : ℕ} (A : Matrix (Fin n) (Fin n) K) (bound : K) : Prop :=
  ∀ v, v ⬝ᵥ A.mulVec v ≤ bound * (v ⬝ᵥ v)

/-- Prolongation, the product with the transpose, makes no vector longer. -/
def NonExpanding [LinearOrder K] {m n : ℕ} (R : Matrix (Fin m) (Fin n) K) : Prop :=
  ∀ y, R.transpose.mulVec y ⬝ᵥ R.transpose.mulVec y ≤ y ⬝ᵥ y

/-- The quadratic form of the matrix is at least `bound` times the square of the length. -/
def BoundedBelow [LinearOrder K] {n : ℕ} (A : Matrix (Fin n) (Fin n) K) (bound : K) : Prop :=
  ∀ v, bound * (v ⬝ᵥ v) ≤ v ⬝ᵥ A.mulVec v

/-- Prolongation keeps at least the share `share` of the square of the length. -/
def KeepsShare [LinearOrder K] {m n : ℕ} (R : Matrix (Fin m) (Fin n) K) (share : K) : Prop :=
  ∀ y, share * (y ⬝ᵥ y) ≤ R.transpose.mulVec y ⬝ᵥ R.transpose.mulVec y

/-- Dof `x` belongs to exactly one of the agglomerates. -/
def InOneOnly (cs : List (CopyData K)) (x : ℕ) : Prop := cs.countP (fun c => decide (x ∈ c.dofMap)) = 1

instance (cs : List (CopyData K)) (x : ℕ) : Decidable (InOneOnly cs x) := by
  unfold InOneOnly
  infer_instance

/-- Every combination of the eigenvectors of an agglomerate has at least the share `share` of the square of the length
of its coefficients on the dofs that belong to no other agglomerate. -/
def OwnShare [LinearOrder K] (n : ℕ) (cs : List (CopyData K)) (share : K) : Prop :=
  ∀ c ∈ cs, ∀ ys : List K, ys.length = c.eigenvectors.length →
    share * (ys.map (· ^ 2)).sum ≤ ∑ x ∈ Finset.range n, if x ∈ c.dofMap ∧ InOneOnly cs x then
      (List.zipWith (fun y v => y * extend c.dofMap v x) ys c.eigenvectors).sum ^ 2 else 0

end Mfmg
