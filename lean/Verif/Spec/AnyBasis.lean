import Verif.Spec.Richer
import Verif.Spec.Restriction

/-!
# Specification: another basis of the same coarse space
-/

set_option autoImplicit false

namespace Mfmg

variable {K : Type} [Field K] {m n : ℕ}

/-- The rows of the two matrices span the same space. -/
def SameCoarseSpace {m m' : ℕ} (R : Matrix (Fin m) (Fin n) K) (R' : Matrix (Fin m') (Fin n) K) : Prop :=
  ContainsRows R' R ∧ ContainsRows R R'

/-- The vector is a combination of the vectors in the list. -/
def IsCombination (vs : List (List K)) (v : List K) : Prop :=
  ∃ w : Fin vs.length → K, ∀ i, v.getD i 0 = ∑ j, w j * vs[j].getD i 0

/-- The two agglomerates are the same and so is the space that is spanned by their vectors.  Signs, lengths, order and
number of the vectors may differ. -/
structure SameSpace (c c' : CopyData K) : Prop where
  dofMap : c'.dofMap = c.dofMap
  diag : c'.diag = c.diag
  forth : ∀ v ∈ c.eigenvectors, IsCombination c'.eigenvectors v
  back : ∀ v ∈ c'.eigenvectors, IsCombination c.eigenvectors v

/-- The same finite element problem on the same mesh; on every agglomerate the vectors of `q'` span the same space as
those of `q`. -/
structure SameSpaces (name : String) (q q' : ProcFem K) : Prop where
  mesh : q'.share.mesh = q.share.mesh
  agglomerate : ∀ debug dim s u, q'.share.agglomerate debug dim s u = q.share.agglomerate debug dim s u
  same : ∀ cells c, q.share.solver cells name [] = .ok c → ∃ c', q'.share.solver cells name [] = .ok c' ∧ SameSpace c c'

/-- A right-hand side or residual after the basis function `i` was multiplied with `s i`. -/
def weighVec (s : Fin n → K) (b : Fin n → K) : Fin n → K := fun i => s i * b i

/-- The coefficients of a function after the basis function `i` was multiplied with `s i`. -/
def unscaleVec (s : Fin n → K) (x : Fin n → K) : Fin n → K := fun i => x i / s i

/-- The matrix of a bilinear form after the basis function `i` was multiplied with `s i`. -/
def scaleMatrix (s : Fin n → K) (A : Matrix (Fin n) (Fin n) K) : Matrix (Fin n) (Fin n) K :=
  Matrix.of fun i j => s i * A i j * s j

/-- The restriction matrix after the coarse basis function `i` was multiplied with `t i` and the fine one `j` with
`s j`. -/
def scaleRestriction (t : Fin m → K) (s : Fin n → K) (R : Matrix (Fin m) (Fin n) K) : Matrix (Fin m) (Fin n) K :=
  Matrix.of fun i j => t i * R i j / s j

end Mfmg
