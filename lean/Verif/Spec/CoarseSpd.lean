import Verif.Spec.Restriction
import Mathlib.LinearAlgebra.Matrix.ToLinearEquiv
import Mathlib.Algebra.Order.Ring.Defs

/-!
# Specification: solvability of the coarse problem
-/

set_option autoImplicit false

namespace Mfmg

variable {K : Type} [Field K]

/-- The first `m` rows and `n` columns of a matrix given by its entries. -/
def Entries.block (M : Entries K) (m n : ℕ) : Matrix (Fin m) (Fin n) K :=
  Matrix.of fun r c => M r.val c.val

/-- The coarse operator `R A Rᵀ`. -/
def galerkin {m n : ℕ} (R : Matrix (Fin m) (Fin n) K) (A : Matrix (Fin n) (Fin n) K) :
    Matrix (Fin m) (Fin m) K := R * A * R.transpose

/-- Symmetric and positive definite. -/
def IsSpd [LinearOrder K] {n : ℕ} (A : Matrix (Fin n) (Fin n) K) : Prop :=
  A.transpose = A ∧ ∀ v : Fin n → K, v ≠ 0 → 0 < v ⬝ᵥ A.mulVec v

/-- On the dofs that belong to no other agglomerate, the eigenvectors of every agglomerate are linearly
independent. -/
def OwnIndependent (cs : List (CopyData K)) : Prop :=
  ∀ pre c post, cs = pre ++ c :: post → ∀ y : ℕ → K,
    (∀ x ∈ c.dofMap, (∀ d ∈ pre ++ post, x ∉ d.dofMap) →
      ((List.range c.eigenvectors.length).map fun k =>
        y k * extend c.dofMap (c.eigenvectors.getD k []) x).sum = 0) →
    ∀ k, k < c.eigenvectors.length → y k = 0

end Mfmg
