import Verif.Spec.TwoLevel

/-!
# Specification: the rate of convergence with any number of levels
-/

set_option autoImplicit false

namespace Mfmg

variable {K : Type} [Field K]

/-- Every error is approximated by coarse vectors in the energy: the energy of the distance is at most `kappa`
times the square of the residual, weighted by the inverse of the diagonal. -/
def StronglyApproximates [LinearOrder K] {m n : ℕ} (R : Matrix (Fin m) (Fin n) K)
    (A : Matrix (Fin n) (Fin n) K) (kappa : K) : Prop :=
  ∀ e : Fin n → K, ∃ y : Fin m → K,
    energyOf A (e - R.transpose.mulVec y) ≤ kappa * ∑ i, A.mulVec e i * A.mulVec e i / A i i

end Mfmg
