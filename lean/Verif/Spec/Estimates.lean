import Verif.Spec.Relaxation

/-!
# Specification: estimates of the error
-/

set_option autoImplicit false

namespace Mfmg

variable {K : Type} [Field K] {n : ℕ}

/-- The correction times the sum of the residuals before and after it.  It can be computed without knowing the solution. -/
def gainOf (A : Matrix (Fin n) (Fin n) K) (b x y : Fin n → K) : K :=
  (y - x) ⬝ᵥ ((b - A.mulVec x) + (b - A.mulVec y))

/-- What the corrections of `k` cycles from the `m`-th iterate on have gained. -/
def gainsOf (A : Matrix (Fin n) (Fin n) K) (b : Fin n → K) (x : ℕ → Fin n → K) (m k : ℕ) : K :=
  ((List.range k).map fun i => gainOf A b (x (m + i)) (x (m + i + 1))).sum

/-- The energy of the error is at least `energy(d)² / energy(d - d')`, where `d` and `d'` are the next two corrections. -/
def CorrectionsBound [LinearOrder K] (A : Matrix (Fin n) (Fin n) K) (xs : Fin n → K) (x : ℕ → Fin n → K) : Prop :=
  ∀ m, energyOf A (x (m + 1) - x m) ^ 2
    ≤ energyOf A (xs - x m) * energyOf A ((x (m + 1) - x m) - (x (m + 2) - x (m + 1)))

end Mfmg
