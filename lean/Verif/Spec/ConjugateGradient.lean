import Verif.Model.Basic
import Verif.Spec.Relaxation

/-!
# Specification: solving systems with a preconditioned method
-/

set_option autoImplicit false

namespace Mfmg

variable {K : Type} [Field K] [LinearOrder K] {n : ℕ}

/-- `solver tol2 b x₀` (right hand side `b`, start `x₀`) returns, for every system with the matrix `A`, after at
most `n` steps a vector with a residual of length at most `√tol2`; with `tol2 = 0` that is the solution. -/
def SolvesEverySystem (A : Matrix (Fin n) (Fin n) K)
    (solver : K → (Fin n → K) → (Fin n → K) → Outcome ((Fin n → K) × ℕ)) : Prop :=
  ∀ tol2 b x₀, 0 ≤ tol2 → ∃ x steps, solver tol2 b x₀ = .ok (x, steps) ∧ steps ≤ n ∧
    (A.mulVec x - b) ⬝ᵥ (A.mulVec x - b) ≤ tol2

/-- What `solver` returns after some number of steps is at least as good, in the energy norm, as what that many
steps of the iteration `step b` lead to from the same start. -/
def NotSlower (A : Matrix (Fin n) (Fin n) K)
    (solver : K → (Fin n → K) → (Fin n → K) → Outcome ((Fin n → K) × ℕ))
    (step : (Fin n → K) → (Fin n → K) → (Fin n → K) → Prop) : Prop :=
  ∀ tol2 b x₀ x steps, 0 ≤ tol2 → solver tol2 b x₀ = .ok (x, steps) →
    ∀ y : ℕ → Fin n → K, y 0 = x₀ → (∀ m, step b (y m) (y (m + 1))) →
      ∀ xs, A.mulVec xs = b → energyOf A (xs - x) ≤ energyOf A (xs - y steps)

/-- What `solver` returns after some number of steps has an error with an energy of at most `C * q ^ steps` times
that at the start. -/
def ReducesEnergy (A : Matrix (Fin n) (Fin n) K)
    (solver : K → (Fin n → K) → (Fin n → K) → Outcome ((Fin n → K) × ℕ)) (C q : K) : Prop :=
  ∀ tol2 b x₀ x steps, 0 ≤ tol2 → solver tol2 b x₀ = .ok (x, steps) →
    ∀ xs, A.mulVec xs = b → energyOf A (xs - x) ≤ C * q ^ steps * energyOf A (xs - x₀)

/-- `solver` makes a further step only as long as `scale * C * q ^ (steps before)` times the energy of the error at
the start is above the square of the tolerance: a bound for the number of steps. -/
def FewSteps (A : Matrix (Fin n) (Fin n) K)
    (solver : K → (Fin n → K) → (Fin n → K) → Outcome ((Fin n → K) × ℕ)) (scale C q : K) : Prop :=
  ∀ tol2 b x₀ x steps, 0 ≤ tol2 → solver tol2 b x₀ = .ok (x, steps + 1) →
    ∀ xs, A.mulVec xs = b → tol2 < scale * (C * q ^ steps * energyOf A (xs - x₀))

end Mfmg
