import Verif.Model.Factory
import Mathlib.Data.List.Forall2

/-!
# Specification: documented names
-/

set_option autoImplicit false

namespace Mfmg

/-- The same letter, perhaps in another case. -/
def CharNoCase (c d : Char) : Prop :=
  c = d ∨ ∃ k, k < 26 ∧ ((c = Char.ofNat (65 + k) ∧ d = Char.ofNat (97 + k)) ∨
    (c = Char.ofNat (97 + k) ∧ d = Char.ofNat (65 + k)))

/-- Equal up to letter case. -/
def EqNoCase (s t : List Char) : Prop := List.Forall₂ CharNoCase s t

/-- Documented names of the smoothers for matrices. -/
def SmootherKind.doc : SmootherKind → List Char
  | .symmetricGaussSeidel => chars! "symmetric gauss-seidel"
  | .gaussSeidel => chars! "gauss-seidel"
  | .jacobi => chars! "jacobi"
  | .ilu => chars! "ilu"

/-- Documented names of the coarse solvers. -/
def CoarseKind.doc : CoarseKind → List Char
  | .direct => chars! "direct"
  | .ml => chars! "ml"

/-- Documented names of the device solvers. -/
def CudaSolverKind.doc : CudaSolverKind → List Char
  | .cholesky => chars! "cholesky"
  | .luDense => chars! "lu_dense"
  | .luSparseHost => chars! "lu_sparse_host"
  | .amgx => chars! "amgx"

/-- The solvers a build offers. -/
def CudaSolverKind.available (withAmgx : Bool) : CudaSolverKind → Prop
  | .amgx => withAmgx = true
  | _ => True

/-- The evaluator types. -/
def HelpersKind.doc : HelpersKind → List Char
  | .dealii => chars! "DealIIMeshEvaluator"
  | .matrixFree => chars! "DealIIMatrixFreeMeshEvaluator"
  | .cuda => chars! "CudaMeshEvaluator"

end Mfmg
