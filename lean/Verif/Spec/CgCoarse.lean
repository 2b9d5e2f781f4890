import Verif.Spec.InexactCoarse

/-!
# Specification: coarse solvers inside the conjugate gradient method
-/

set_option autoImplicit false

namespace Mfmg

variable {K : Type} [Field K] [LinearOrder K] {n : ℕ}

/-- Started from zero, the coarse solver is a linear map that is symmetric and never points away from the right-hand
side.  It need not solve anything: doing nothing is allowed, and so is a symmetric sweep. -/
def ActsSymmetrically (s : (Fin n → K) → Fin n → K) : Prop :=
  (∀ b c, s (b + c) = s b + s c) ∧ (∀ (a : K) b, s (a • b) = a • s b) ∧
    (∀ b c, s b ⬝ᵥ c = b ⬝ᵥ s c) ∧ ∀ b, 0 ≤ b ⬝ᵥ s b

/-- Compared with solving the system with the matrix `M`, the correction is at most as long and at least the part
`1 / c` of it, measured along the right-hand side. -/
def WithinFactor (c : K) (M : Matrix (Fin n) (Fin n) K) (s : (Fin n → K) → Fin n → K) : Prop :=
  ∀ e, energyOf M e ≤ c * (M.mulVec e ⬝ᵥ s (M.mulVec e)) ∧ M.mulVec e ⬝ᵥ s (M.mulVec e) ≤ energyOf M e

end Mfmg
