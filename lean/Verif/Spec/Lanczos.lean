import Verif.Model.Lanczos
import Mathlib.Algebra.BigOperators.Group.Finset.Basic
import Mathlib.Algebra.Order.Group.Abs
import Mathlib.Algebra.Order.Ring.Defs

/-!
# Specification for the Lanczos eigensolver
-/

set_option autoImplicit false

namespace Mfmg

open Finset
open scoped InnerProductSpace

/-- Entry `(j, k)` of the symmetric tridiagonal matrix with the given diagonal and sub-diagonal. -/
def tridiagEntry (diag sub : List ℝ) (j k : ℕ) : ℝ :=
  if j = k then diag.getD k 0
  else if j = k + 1 then sub.getD k 0
  else if k = j + 1 then sub.getD j 0
  else 0

section

variable {E : Type} [NormedAddCommGroup E] [InnerProductSpace ℝ E]

/-- `v₀, …, v_{m-1}` are orthonormal and `A V = V T + w eᵀ`, `e` being the last unit vector, with `w`
orthogonal to them. -/
structure LanczosRelation (A : E → E) (m : ℕ) (v : ℕ → E) (T : ℕ → ℕ → ℝ) (w : E) : Prop where
  orthonormal : ∀ i j, i < m → j < m → ⟪v i, v j⟫_ℝ = if i = j then 1 else 0
  relation : ∀ k, k < m →
    A (v k) = ∑ j ∈ range m, T j k • v j + (if k + 1 = m then w else 0)
  rest : ∀ i, i < m → ⟪v i, w⟫_ℝ = 0

/-- `s` is an eigenvector of the `m × m` matrix `T` for `θ`. -/
def IsEigen (m : ℕ) (T : ℕ → ℕ → ℝ) (θ : ℝ) (s : ℕ → ℝ) : Prop :=
  ∀ j, j < m → ∑ k ∈ range m, T j k * s k = θ * s j

end

section

variable {K : Type} [Field K] [LinearOrder K]

/-- Value number `i` is within `tol` of another value of the list. -/
def Repeated (tol : K) (ev : List K) (i : ℕ) : Prop :=
  ∃ j, j < ev.length ∧ j ≠ i ∧ |ev.getD j 0 - ev.getD i 0| ≤ tol

/-- Value number `i` is farther than `tol` from every earlier one: it stands alone or is the first of
a group of repeated values. -/
def FirstOfGroup (tol : K) (ev : List K) (i : ℕ) : Prop :=
  ∀ j, j < i → tol < |ev.getD j 0 - ev.getD i 0|

/-- Value number `i` is not repeated and within `tol` of a value of the second list. -/
def Spurious (tol : K) (ev ev2 : List K) (i : ℕ) : Prop :=
  ¬ Repeated tol ev i ∧ ∃ x ∈ ev2, |x - ev.getD i 0| ≤ tol

/-- Column `k` of a flat array of columns of length `n`. -/
def column (n : ℕ) (v : List K) (k : ℕ) : List K := (v.drop (n * k)).take n

end

/-- Contract of LAPACK's `dstev`: ascending eigenvalues, and unit eigenvectors stored column by
column. -/
structure DstevContract (dstev : List ℝ → List ℝ → List ℝ × List ℝ) : Prop where
  len : ∀ d s, s.length + 1 = d.length → (dstev d s).1.length = d.length
  flat : ∀ d s, s.length + 1 = d.length → (dstev d s).2.length = d.length * d.length
  sorted : ∀ d s, s.length + 1 = d.length → (dstev d s).1.Pairwise (· ≤ ·)
  eigen : ∀ d s, s.length + 1 = d.length → ∀ k, k < d.length →
    IsEigen d.length (tridiagEntry d s) ((dstev d s).1.getD k 0)
      (fun j => (column d.length (dstev d s).2 k).getD j 0)
  orthonormal : ∀ d s, s.length + 1 = d.length → ∀ k l, k < d.length → l < d.length →
    ∑ j ∈ range d.length, (column d.length (dstev d s).2 k).getD j 0 *
      (column d.length (dstev d s).2 l).getD j 0 = if k = l then 1 else 0

/-- Result of the convergence tests made by a run of `n` iterations at the steps `tests`: the first
step and the last one are tested, and after a test at step `a` the next one is the first step `b > a`
by which the number of steps has grown by more than `pct` percent (or the last step allowed). -/
structure TestSchedule (pct : ℤ) (maxit n : ℕ) (tests : List ℕ) : Prop where
  first : tests.head? = some 1
  last : tests.getLast? = some n
  next : ∀ (i a b : ℕ), tests[i]? = some a → tests[i + 1]? = some b →
    a < b ∧ (b = maxit ∨ 100 * ((b : ℤ) - a) > pct * a) ∧
      ∀ c : ℕ, a < c → c < b → 100 * ((c : ℤ) - a) ≤ pct * a

end Mfmg
