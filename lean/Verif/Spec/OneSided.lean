import Verif.Spec.Relaxation

/-!
# Specification: how the iterates of repeated cycles approach the solution
-/

set_option autoImplicit false

namespace Mfmg

variable {K : Type} [Field K] [LinearOrder K] {n : ℕ}

/-- The reduction factors of the energies of a sequence of vectors never decrease: the square root of
`energy (e (m + 1)) / energy (e m)` is at most that of `energy (e (m + 2)) / energy (e (m + 1))`. -/
def RatesNeverImprove (A : Matrix (Fin n) (Fin n) K) (e : ℕ → Fin n → K) : Prop :=
  ∀ m, energyOf A (e (m + 1)) ^ 2 ≤ energyOf A (e m) * energyOf A (e (m + 2))

/-- Any two vectors of the sequence point in the same direction, measured by the energy product. -/
def NeverOvershoots (A : Matrix (Fin n) (Fin n) K) (e : ℕ → Fin n → K) : Prop :=
  ∀ m k, 0 ≤ e m ⬝ᵥ A.mulVec (e k)

end Mfmg
