import Mathlib.Analysis.InnerProductSpace.Basic
import Verif.Spec.StartVector

/-!
# Specification for the eigenvalues counted with and without multiplicity
-/

set_option autoImplicit false

namespace Mfmg

variable {E : Type} [NormedAddCommGroup E] [InnerProductSpace ℝ E]

/-- `lam` is an eigenvalue of `A` with an eigenvector in `F`. -/
def EigenvalueIn (A : E →ₗ[ℝ] E) (F : Submodule ℝ E) (lam : ℝ) : Prop := ∃ x ∈ F, x ≠ 0 ∧ A x = lam • x

/-- The finite set `L` contains every eigenvalue on `F` that is smaller than `μ`.  In a set an eigenvalue counts
once, whatever its multiplicity. -/
def ContainsBelow (A : E →ₗ[ℝ] E) (F : Submodule ℝ E) (μ : ℝ) (L : Finset ℝ) : Prop :=
  ∀ lam, lam < μ → EigenvalueIn A F lam → lam ∈ L

/-- The claim for the matrix of an agglomerate: if there are `k + 1` independent eigenvectors with eigenvalues of at
most `μ`, then value number `k` of the list (counted from 0) is at most `μ + tol`.  These are the smallest eigenvalues
counted with multiplicity, up to `tol`. -/
def AtMostSmallest (size : ℕ) (M : ℕ → ℕ → ℝ) (constrained : ℕ → Bool) (tol : ℝ) (es : List ℝ) : Prop :=
  ∀ (k : ℕ) (θ μ : ℝ) (x : Fin (k + 1) → ℕ → ℝ) (lam : Fin (k + 1) → ℝ), es[k]? = some θ →
    (∀ i, FreeEigenvector size M constrained (lam i) (x i) ∧ lam i ≤ μ) →
    LinearIndependent ℝ (fun i (j : Fin size) => x i j) → θ ≤ μ + tol

end Mfmg
