import Verif.Spec.Richer

/-!
# Specification: coarse solvers that are not exact
-/

set_option autoImplicit false

namespace Mfmg

variable {K : Type} [Field K]

/-- Started from zero, the coarse solver leaves at most the part `δ` of the error, measured in the energy, for every
symmetric positive definite matrix.  It may be nonlinear, like an iteration that stops by itself. -/
def AccurateTo [LinearOrder K] (δ : K) {n : ℕ} (solve : Matrix (Fin n) (Fin n) K → (Fin n → K) → Fin n → K) : Prop :=
  ∀ M, IsSpd M → ∀ e, energyOf M (solve M (M.mulVec e) - e) ≤ δ * δ * energyOf M e

/-- The usual criterion of iterative solvers: the norm of the residual is at most `δ` times that of the right-hand
side. -/
def ResidualAccurateTo [LinearOrder K] (δ : K) {n : ℕ}
    (solve : Matrix (Fin n) (Fin n) K → (Fin n → K) → Fin n → K) : Prop :=
  ∀ M, IsSpd M → ∀ b, (b - M.mulVec (solve M b)) ⬝ᵥ (b - M.mulVec (solve M b)) ≤ δ * δ * (b ⬝ᵥ b)

/-- A hierarchy with the coarse solver `solve` is built and one application to `x` and `b` gives `y`, whatever is in new
vectors. -/
def CycleGives (debug timer : Bool) (p : Params) (type : Option (List Char)) (dims : ℕ → ℕ)
    (procs : ∀ l, List (List (Fin (dims l)))) (A : Matrix (Fin (dims 0)) (Fin (dims 0)) K)
    (R : ∀ l, Matrix (Fin (dims (l + 1))) (Fin (dims l)) K)
    (solve : ∀ l, Matrix (Fin (dims l)) (Fin (dims l)) K → (Fin (dims l) → K) → Fin (dims l) → K)
    (x b y : Fin (dims 0) → K) : Prop :=
  ∃ H, (buildHierarchy debug timer (some p) (.ok (matrixHelpers debug type dims procs A R solve))).result = .ok H ∧
    ∀ fresh, (H.vmult fresh x b).result = .ok y

end Mfmg
