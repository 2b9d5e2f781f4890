import Verif.Model.HostOperator

/-!
# Specification: operator expressions as compositions
-/

set_option autoImplicit false

namespace Mfmg

section

variable {K : Type} [Field K]

mutual

/-- What applying the expression to `x` means: compositions of products with the matrices at the
leaves.  `none` if the dimensions do not fit or a leaf is not a complete matrix. -/
def OpExpr.meaning : OpExpr K → List K → Option (List K)
  | .leaf (.assembled A true), x => A.mulVec x
  | .leaf _, _ => none
  | .transpose e, x => e.adjoint x
  | .multiply e f, x => (f.meaning x).bind e.meaning
  | .multiplyTranspose e f, x => (f.adjoint x).bind e.meaning

/-- What applying the transpose of the expression to `x` means. -/
def OpExpr.adjoint : OpExpr K → List K → Option (List K)
  | .leaf (.assembled A true), x => A.transpose.mulVec x
  | .leaf _, _ => none
  | .transpose e, x => e.meaning x
  | .multiply e f, x => (e.adjoint x).bind f.adjoint
  | .multiplyTranspose e f, x => (e.adjoint x).bind f.meaning

end

/-- The expression consists of complete matrices and its dimensions fit: it has `m` rows and `n`
columns. -/
inductive OpExpr.Fits : OpExpr K → ℕ → ℕ → Prop where
  | leaf (A : GMat K) : Fits (.leaf (.assembled A true)) A.rows A.cols
  | transpose {e : OpExpr K} {m n : ℕ} : e.Fits m n → Fits (.transpose e) n m
  | multiply {e f : OpExpr K} {m k n : ℕ} : e.Fits m k → f.Fits k n → Fits (.multiply e f) m n
  | multiplyTranspose {e f : OpExpr K} {m k n : ℕ} : e.Fits m k → f.Fits n k →
      Fits (.multiplyTranspose e f) m n

end

end Mfmg
