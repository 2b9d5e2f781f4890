import Verif.Spec.Lanczos
import Mathlib.Analysis.InnerProductSpace.Projection.Basic
import Mathlib.Analysis.SpecialFunctions.Pow.Real

/-!
# Specification for the convergence of the Lanczos eigensolver
-/

set_option autoImplicit false

namespace Mfmg

open scoped InnerProductSpace

section

variable {E : Type} [NormedAddCommGroup E] [InnerProductSpace ℝ E]

/-- `u` is an eigenvector for the smallest eigenvalue `l1`.  The operator maps the subspace `S`, orthogonal
to `u`, to itself; on `S` it is symmetric and its eigenvalues lie between `l2 > l1` and `ln`.  If the smallest
eigenvalue is multiple, `u` is the part of the start vector in its eigenspace, and `S` the orthogonal
complement of the eigenspace. -/
structure SmallestSplit (A : E →ₗ[ℝ] E) (S : Submodule ℝ E) (u : E) (l1 l2 ln : ℝ) : Prop where
  eig : A u = l1 • u
  ne : u ≠ 0
  maps : ∀ x ∈ S, A x ∈ S
  symm : ∀ x ∈ S, ∀ y ∈ S, ⟪A x, y⟫_ℝ = ⟪x, A y⟫_ℝ
  orth : ∀ x ∈ S, ⟪u, x⟫_ℝ = 0
  lower : ∀ x ∈ S, l2 * ⟪x, x⟫_ℝ ≤ ⟪A x, x⟫_ℝ
  upper : ∀ x ∈ S, ⟪A x, x⟫_ℝ ≤ ln * ⟪x, x⟫_ℝ
  gap : l1 < l2
  spread : l2 < ln

/-- The relative gap between the smallest eigenvalue and the others. -/
noncomputable def relativeGap (l1 l2 ln : ℝ) : ℝ := (l2 - l1) / (ln - l1)

/-- What is left of the unwanted part of the start vector, relative to the wanted one, after `m + 1`
iterations: twice the `m`-th power of `(1 - √gap) / (1 + √gap)`, times the tangent of the angle at the
start.  The dimension of the space does not occur. -/
noncomputable def startLeft (l1 l2 ln : ℝ) (u g : E) (m : ℕ) : ℝ :=
  2 * ((1 - Real.sqrt (relativeGap l1 l2 ln)) / (1 + Real.sqrt (relativeGap l1 l2 ln))) ^ m *
    (‖g‖ / ‖u‖)

/-- The square of the cosine of the angle between the start vector `u + g` and `u`. -/
noncomputable def cosSq (u g : E) : ℝ := ‖u‖ ^ 2 / (‖u‖ ^ 2 + ‖g‖ ^ 2)

end

end Mfmg
