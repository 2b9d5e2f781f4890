import Verif.Spec.TwoLevel
import Mathlib.Data.Real.Basic
import Mathlib.LinearAlgebra.Span.Basic

/-!
# Specification: convergence with Chebyshev smoothing
-/

set_option autoImplicit false

namespace Mfmg

variable {n : ℕ}

/-- `lam` is an eigenvalue of the matrix scaled by `dinv`. -/
def ScaledEigenvalue (A : Matrix (Fin n) (Fin n) ℝ) (dinv : Fin n → ℝ) (lam : ℝ) : Prop :=
  ∃ v : Fin n → ℝ, v ≠ 0 ∧ ∀ i, dinv i * A.mulVec v i = lam * v i

/-- The vectors that the conjugate gradient method with right-hand side `s` can reach. -/
def krylov (A : Matrix (Fin n) (Fin n) ℝ) (dinv s : Fin n → ℝ) : Submodule ℝ (Fin n → ℝ) :=
  Submodule.span ℝ (Set.range fun k : ℕ =>
    (fun v : Fin n → ℝ => fun i => dinv i * A.mulVec v i)^[k] fun i => dinv i * s i)

/-- The estimates are Ritz values: quotients of the energy and the norm of vectors that the conjugate gradient
method with right-hand side `s` can reach. -/
def RitzContract (s : Fin n → ℝ) (A : Matrix (Fin n) (Fin n) ℝ) (dinv : Fin n → ℝ) (ritz : List ℝ) : Prop :=
  ∀ m ∈ ritz, ∃ w ∈ krylov A dinv s, w ≠ 0 ∧ w ⬝ᵥ A.mulVec w = m * ∑ i, w i * w i / dinv i

/-- The upper end of the interval of the Chebyshev polynomial: the largest estimate and 20 per cent. -/
noncomputable def upperEnd (ritz : List ℝ) : ℝ :=
  match ritz.getLast? with
  | some m => 6 / 5 * m
  | none => 1

/-- The lower end of the interval: the upper end divided by the smoothing range if that is larger than one,
otherwise the smallest estimate (but at most 90 per cent of the upper end). -/
noncomputable def lowerEnd (range : Option ℝ) (ritz : List ℝ) : ℝ :=
  if 1 < range.getD 0 then upperEnd ritz / range.getD 0
  else min (9 / 10 * upperEnd ritz) (ritz.head?.getD 1)

/-- Ones on the diagonal, `a u i u j` elsewhere. -/
def signMatrix (u : Fin n → ℝ) (a : ℝ) : Matrix (Fin n) (Fin n) ℝ :=
  Matrix.of fun i j => if i = j then 1 else a * u i * u j

end Mfmg
