import Verif.Model.ProblemChange
import Verif.Spec.Chebyshev

/-!
# Specification for hierarchies held while the problem changes
-/

set_option autoImplicit false

namespace Mfmg

variable {K : Type} {dims : ℕ → ℕ}

/-- The problems that the program changes to. -/
def changedTo : List (UserStep dims K) → List (UserProblem dims K)
  | [] => []
  | .change q :: steps => q :: changedTo steps
  | _ :: steps => changedTo steps

/-- The problem at the end. -/
def lastProblem (q : UserProblem dims K) : List (UserStep dims K) → UserProblem dims K
  | [] => q
  | .change q' :: steps => lastProblem q' steps
  | _ :: steps => lastProblem q steps

/-- For the vectors of the coarse space of `R` the energy of `A'` is at most twice that of `A`. -/
def AtMostTwice {m n : ℕ} (R : Matrix (Fin m) (Fin n) ℝ) (A' A : Matrix (Fin n) (Fin n) ℝ) : Prop :=
  ∀ w, energyOf A' (R.transpose.mulVec w) ≤ 2 * energyOf A (R.transpose.mulVec w)

end Mfmg
