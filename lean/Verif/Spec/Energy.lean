import Verif.Spec.Multigrid
import Mathlib.Algebra.Order.Field.Basic

/-!
# Specification: symmetry, positivity and energy of a multigrid hierarchy

`φ l` is the inner product of level `l` (for mfmg the Euclidean one; only bilinearity and
symmetry are used).
-/

set_option autoImplicit false

namespace Mfmg.Spec

variable {K : Type} [Field K] {V : ℕ → Type} [∀ l, AddCommGroup (V l)] [∀ l, Module K (V l)]

/-- A bilinear form on every level. -/
abbrev Forms (K : Type) [Field K] (V : ℕ → Type) [∀ l, AddCommGroup (V l)]
    [∀ l, Module K (V l)] := ∀ l, V l →ₗ[K] V l →ₗ[K] K

/-- The ingredients of an `L`-level hierarchy are symmetric: operators, smoothers and coarse
solver are self-adjoint and prolongation is the transpose of restriction. -/
structure Symmetric (D : Data K V) (φ : Forms K V) (L : ℕ) : Prop where
  form : ∀ l x y, φ l x y = φ l y x
  A : ∀ l < L, ∀ x y, φ l (D.A l x) y = φ l x (D.A l y)
  B : ∀ l, l + 1 < L → ∀ x y, φ l (D.B l x) y = φ l x (D.B l y)
  RP : ∀ l, l + 1 < L → ∀ x y, φ (l + 1) (D.R l x) y = φ l x (D.P l y)
  C : ∀ l, l + 1 = L → ∀ x y, φ l (D.C l x) y = φ l x (D.C l y)

variable [LinearOrder K] [IsStrictOrderedRing K]

/-- The smoother is convergent: `2B - BAB` is positive semi-definite. -/
def SmootherConvergent (D : Data K V) (φ : Forms K V) (l : ℕ) : Prop :=
  ∀ x, 0 ≤ φ l (2 • D.B l x - D.B l (D.A l (D.B l x))) x

/-- The smoother is strictly convergent: `2B - BAB` is positive definite. -/
def SmootherStrictlyConvergent (D : Data K V) (φ : Forms K V) (l : ℕ) : Prop :=
  ∀ x, x ≠ 0 → 0 < φ l (2 • D.B l x - D.B l (D.A l (D.B l x))) x

/-- The energy `⟨A x, x⟩`. -/
def energy (D : Data K V) (φ : Forms K V) (l : ℕ) (x : V l) : K := φ l (D.A l x) x

/-- The operators are Galerkin products, the fine operator is positive semi-definite, the coarse
residual equations are solvable and the coarsest solver does not over-correct
(`⟨C A x, A x⟩ ≤ ⟨A x, x⟩`; an exact solver satisfies it with equality). -/
structure Variational (D : Data K V) (φ : Forms K V) (L : ℕ) : Prop where
  galerkin : ∀ l, l + 1 < L → ∀ x, D.A (l + 1) x = D.R l (D.A l (D.P l x))
  psd : ∀ x, 0 ≤ energy D φ 0 x
  solvable : ∀ l, l + 1 < L → ∀ y, ∃ z, D.A (l + 1) z = D.R l (D.A l y)
  coarse : ∀ l, l + 1 = L → ∀ x, φ l (D.C l (D.A l x)) (D.A l x) ≤ energy D φ l x

end Mfmg.Spec
