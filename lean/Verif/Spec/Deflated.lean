import Mathlib.Analysis.InnerProductSpace.Basic
import Verif.Model.Lanczos
import Verif.Spec.Deflation
import Verif.Spec.StartVector

/-!
# Specification for the eigenvalues found by the Lanczos solver with deflation
-/

set_option autoImplicit false

namespace Mfmg

open scoped InnerProductSpace

variable {E : Type} [NormedAddCommGroup E] [InnerProductSpace ℝ E]

/-- One cycle of a solve with deflation and `per` eigenvectors per cycle: the Lanczos iteration for the operator deflated
by the vectors `found`, from a start vector orthogonal to them, returned `r` and the vectors `ys`. -/
structure IsCycle (debug : Bool) (A : E → E) (F : Submodule ℝ E) (tridiag : List ℝ → List ℝ → ℕ → List ℝ × List ℝ)
    (per : ℕ) (p : LanczosParams) (found : List E) (start : E) (r : LanczosResult E) (ys : List E) : Prop where
  orth : OrthonormalList found
  mem : ∀ d ∈ found, d ∈ F
  startMem : start ∈ F
  startOrth : OrthogonalTo found start
  run : solveLanczos debug (deflatedVmult A found) tridiag per p start = .ok (r, ys)

/-- The value `θ` number `j` (from 0) of a cycle is too large by more than `δ`: there are `j + 1` vectors, orthogonal to
the vectors found before, such that all their combinations have Rayleigh quotients below `θ - δ`.  (So eigenvalue number
`j` on the complement, counted with multiplicity, is below `θ - δ`.) -/
def Misses (A : E → E) (F : Submodule ℝ E) (found : List E) (j : ℕ) (δ θ : ℝ) : Prop :=
  ∃ x : Fin (j + 1) → E, (∀ i, x i ∈ F ∧ OrthogonalTo found (x i)) ∧
    ∀ c : Fin (j + 1) → ℝ, c ≠ 0 →
      ⟪A (∑ i, c i • x i), ∑ i, c i • x i⟫_ℝ < (θ - δ) * ⟪∑ i, c i • x i, ∑ i, c i • x i⟫_ℝ

/-- A nonzero eigenvector of the operator deflated by the vectors `found`, on their complement. -/
def DeflatedEigenvector (A : E → E) (F : Submodule ℝ E) (found : List E) (lam : ℝ) (u : E) : Prop :=
  u ∈ F ∧ OrthogonalTo found u ∧ u ≠ 0 ∧ deflatedVmult A found u = lam • u

/-- The claim for the matrix of an agglomerate from the other side: if there are no `k + 1` independent eigenvectors with
eigenvalues below `μ`, then value number `k` (from 0) is at least `μ - tol`. -/
def AtLeastSmallest (size : ℕ) (M : ℕ → ℕ → ℝ) (constrained : ℕ → Bool) (tol : ℝ) (es : List ℝ) : Prop :=
  ∀ (k : ℕ) (θ μ : ℝ), es[k]? = some θ →
    (¬ ∃ (x : Fin (k + 1) → ℕ → ℝ) (lam : Fin (k + 1) → ℝ),
      (∀ i, FreeEigenvector size M constrained (lam i) (x i) ∧ lam i < μ) ∧
      LinearIndependent ℝ (fun i (j : Fin size) => x i j)) → μ - tol ≤ θ

end Mfmg
