import Verif.Spec.FastAP
import Verif.Spec.CoarseSpd
import Verif.Spec.TwoLevel

/-!
# Specification: `fast_ap` with eigenpairs computed up to a tolerance
-/

set_option autoImplicit false

namespace Mfmg

open Finset

variable {K : Type} [Field K]

/-- The global matrix. -/
def Disc.matrix (D : Disc K) : Matrix (Fin D.nDofs) (Fin D.nDofs) K := Matrix.of fun x y => D.A x y

/-- The squares of the residuals of the eigenpairs of agglomerate `a` are at most `tol2`. -/
def Disc.Within [LinearOrder K] (D : Disc K) (a : ℕ) (c : CopyData K) (tol2 : K) : Prop :=
  ∀ (k : ℕ) (lam : K) (v : List K), c.eigenvalues[k]? = some lam → c.eigenvectors[k]? = some v →
    ∑ x ∈ range D.nDofs, D.residual a c lam v x ^ 2 ≤ tol2

/-- The eigenvalues of agglomerate `a` are the Rayleigh quotients of its eigenvectors: residuals are orthogonal to
the vectors.  Rayleigh-Ritz methods (Lanczos, ARPACK) return such pairs. -/
def Disc.Ritz (D : Disc K) (a : ℕ) (c : CopyData K) : Prop :=
  ∀ (k : ℕ) (lam : K) (v : List K), c.eigenvalues[k]? = some lam → c.eigenvectors[k]? = some v →
    ∑ x ∈ range D.nDofs, extend c.dofMap v x * D.residual a c lam v x = 0

/-- No dof belongs to more than `s` agglomerates. -/
def Disc.Overlap (D : Disc K) (s : ℕ) : Prop :=
  ∀ x, ((range D.nAgg).filter fun a => ∃ d, d < D.nCells ∧ D.inAgg a d = true ∧ x ∈ D.cellDofs d).card ≤ s

end Mfmg
