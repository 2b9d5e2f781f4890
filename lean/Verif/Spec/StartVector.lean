import Mathlib.Analysis.InnerProductSpace.PiL2

/-!
# Specification for the start vector of the local eigenproblems
-/

set_option autoImplicit false

namespace Mfmg

/-- The matrix is symmetric, and the constrained dofs are not coupled to the others (as deal.II leaves them). -/
structure SymmetricUncoupled (size : ℕ) (M : ℕ → ℕ → ℝ) (constrained : ℕ → Bool) : Prop where
  symm : ∀ i j, i < size → j < size → M i j = M j i
  uncoupled : ∀ i j, i < size → j < size → i ≠ j → constrained i = true → M i j = 0

/-- In addition the entries off the diagonal are not positive. -/
structure NonpositiveOffDiagonal (size : ℕ) (M : ℕ → ℕ → ℝ) (constrained : ℕ → Bool) : Prop extends
    SymmetricUncoupled size M constrained where
  nonpos : ∀ i j, i < size → j < size → i ≠ j → M i j ≤ 0

/-- `x` is an eigenvector of the matrix for `lam` that vanishes on the constrained dofs. -/
structure FreeEigenvector (size : ℕ) (M : ℕ → ℕ → ℝ) (constrained : ℕ → Bool) (lam : ℝ) (x : ℕ → ℝ) : Prop where
  ne : ∃ i, i < size ∧ x i ≠ 0
  free : ∀ i, i < size → constrained i = true → x i = 0
  eig : ∀ i, i < size → ∑ j ∈ Finset.range size, M i j * x j = lam * x i

/-- `lam` is an eigenvalue of the matrix, with an eigenvector that vanishes on the constrained dofs. -/
def FreeEigenvalue (size : ℕ) (M : ℕ → ℕ → ℝ) (constrained : ℕ → Bool) (lam : ℝ) : Prop :=
  ∃ x, FreeEigenvector size M constrained lam x

/-- The smallest of these eigenvalues. -/
def SmallestFree (size : ℕ) (M : ℕ → ℕ → ℝ) (constrained : ℕ → Bool) (lam : ℝ) : Prop :=
  FreeEigenvalue size M constrained lam ∧ ∀ μ, FreeEigenvalue size M constrained μ → lam ≤ μ

end Mfmg
