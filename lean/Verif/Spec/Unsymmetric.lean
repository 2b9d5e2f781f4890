import Verif.Spec.Relaxation

/-!
# Specification: matrices that need not be symmetric
-/

set_option autoImplicit false

namespace Mfmg

namespace Spec

variable {K : Type} [Field K] [LinearOrder K] {n : ℕ}

/-- Positive definite, not necessarily symmetric: `vᵀ A v > 0`.  This is a condition on the symmetric part alone. -/
def IsPositive (A : Matrix (Fin n) (Fin n) K) : Prop := ∀ v, v ≠ 0 → 0 < v ⬝ᵥ A.mulVec v

/-- How far the matrix is from a symmetric one: `(uᵀ A v)² ≤ κ (uᵀ A u) (vᵀ A v)`.  Symmetric positive definite
matrices have `κ = 1` (the inequality of Cauchy and Schwarz). -/
def SkewnessAtMost (A : Matrix (Fin n) (Fin n) K) (κ : K) : Prop :=
  ∀ u v, (u ⬝ᵥ A.mulVec v) * (u ⬝ᵥ A.mulVec v) ≤ κ * (energyOf A u * energyOf A v)

end Spec

end Mfmg
