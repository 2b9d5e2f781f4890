import Mathlib.LinearAlgebra.LinearIndependent.Defs
import Mathlib.Data.Real.Basic

/-!
# Specification for the end of the Lanczos iteration
-/

set_option autoImplicit false

namespace Mfmg

/-- The vectors `g, A g, …, A^(d-1) g` are linearly independent, and `A^d g` is a combination of them: the
iteration started from `g` cannot make more than `d` vectors. -/
structure KrylovDim {E : Type} [AddCommGroup E] [Module ℝ E] (A : E →ₗ[ℝ] E) (g : E) (d : ℕ) : Prop where
  indep : LinearIndependent ℝ (fun i : Fin d => (A ^ (i : ℕ)) g)
  last : (A ^ d) g ∈ Submodule.span ℝ (Set.range (fun i : Fin d => (A ^ (i : ℕ)) g))

/-- The steps at which convergence is tested: the first one, and after `t` the first step that is more than
`pct` per cent of `t` later (the last step allowed is also tested, whatever it is). -/
inductive Tested (pct : ℤ) : ℕ → Prop
  | first : Tested pct 1
  | next {t t' : ℕ} : Tested pct t → t < t' → 100 * ((t' : ℤ) - t) > pct * t →
      (∀ c : ℕ, t < c → c < t' → 100 * ((c : ℤ) - t) ≤ pct * t) → Tested pct t'

end Mfmg
