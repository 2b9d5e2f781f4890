import Verif.Spec.ConjugateGradient
import Verif.Spec.CoarseBounds

/-!
# Specification: what a tolerance guarantees
-/

set_option autoImplicit false

namespace Mfmg

variable {K : Type} [Field K] [LinearOrder K] {n : ℕ}

/-- `solver tol2 b x₀` (square of the tolerance, right-hand side, start) returns a vector whose error is at most the
tolerance: the energy of the error, times `bound`, and the square of its length, times `bound²`, are at most `tol2`. -/
def ErrorWithin (A : Matrix (Fin n) (Fin n) K)
    (solver : K → (Fin n → K) → (Fin n → K) → Outcome ((Fin n → K) × ℕ)) (bound : K) : Prop :=
  ∀ tol2 b x₀ xs, 0 ≤ tol2 → A.mulVec xs = b → ∃ x steps, solver tol2 b x₀ = .ok (x, steps) ∧
    bound * energyOf A (xs - x) ≤ tol2 ∧ bound ^ 2 * ((xs - x) ⬝ᵥ (xs - x)) ≤ tol2

end Mfmg
