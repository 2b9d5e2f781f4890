import Mathlib.Analysis.SpecialFunctions.Sqrt
import Mathlib.LinearAlgebra.Matrix.DotProduct
import Verif.Model.Hierarchy

/-!
# Specification for the rate printed by the program hierarchy_driver
-/

set_option autoImplicit false

namespace Mfmg

open Matrix

/-- The Euclidean norm. -/
noncomputable def norm2 {n : ℕ} (v : Fin n → ℝ) : ℝ := √(∑ i, v i ^ 2)

/-- `x 0, …, x n` are the approximations made by `n` cycles. -/
def AreIterates {dims : ℕ → ℕ} (H : Hierarchy fun l => Fin (dims l) → ℝ) (fresh : ℕ → ∀ l, Fin (dims l) → ℝ)
    (b : Fin (dims 0) → ℝ) (n : ℕ) (x : ℕ → Fin (dims 0) → ℝ) : Prop :=
  ∀ m < n, (H.vmult (fresh m) (x m) b).result = .ok (x (m + 1))

/-- The eigenvalues of a symmetric matrix are between `lo` and `hi`. -/
def SpectrumBetween {n : ℕ} (A : Matrix (Fin n) (Fin n) ℝ) (lo hi : ℝ) : Prop :=
  ∀ v : Fin n → ℝ, lo * (v ⬝ᵥ v) ≤ v ⬝ᵥ A.mulVec v ∧ v ⬝ᵥ A.mulVec v ≤ hi * (v ⬝ᵥ v)

end Mfmg
