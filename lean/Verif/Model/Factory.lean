import Verif.Model.Basic
import Verif.Model.Text
import Mathlib.Data.Nat.Notation
import Mathlib.Data.Int.Notation

/-!
# Model of the component factories

Names are lists of characters; `type` is the value of the parameter, `none` if it is absent.
-/

set_option autoImplicit false

namespace Mfmg

/-- `std::transform(.., ::tolower)` in the "C" locale.
/repo/source/cuda/cuda_smoother.cu:107-108, /repo/source/cuda/cuda_solver.cu:216 and
/repo/source/dealii/dealii_smoother.cc:37-38. -/
def lowerCase (s : List Char) : List Char := s.map Char.toLower

/-- The preconditioners among which `DealIISmoother` chooses. /repo/source/dealii/dealii_smoother.cc:39-66. -/
inductive SmootherKind where
  | symmetricGaussSeidel | gaussSeidel | jacobi | ilu
  deriving DecidableEq, Repr

/-- Constructor of `DealIISmoother`, /repo/source/dealii/dealii_smoother.cc:19-67.  `isTrilinos`: the
operator is a `DealIITrilinosMatrixOperator`. -/
def dealiiSmoother (debug isTrilinos : Bool) (type : Option (List Char)) : Outcome SmootherKind := do
  let name := type.getD (chars! "Symmetric Gauss-Seidel")
  Outcome.assert debug isTrilinos
  if isTrilinos then
    let name := lowerCase name
    if name = chars! "symmetric gauss-seidel" then .ok .symmetricGaussSeidel
    else if name = chars! "gauss-seidel" then .ok .gaussSeidel
    else if name = chars! "jacobi" then .ok .jacobi
    else if name = chars! "ilu" then .ok .ilu
    else .throws ("Unknown smoother name: \"" ++ String.ofList name ++ "\"")
  else .ub "trilinos_operator is null"

/-- What the Chebyshev smoother is initialised with; `none`: the default of deal.II.  `R` stands for
`double`. /repo/source/dealii/dealii_matrix_free_smoother.cc:37-53. -/
structure ChebyshevData (R : Type) where
  degree : Option ℤ
  smoothingRange : Option R
  maxEigenvalue : Option R

/-- Constructor of `DealIIMatrixFreeSmoother`,
/repo/source/dealii/dealii_matrix_free_smoother.cc:18-61. -/
def matrixFreeSmoother {R : Type} (debug isMatrixFree : Bool) (type : Option (List Char))
    (degree : Option ℤ) (range maxEigenvalue : Option R) : Outcome (ChebyshevData R) := do
  let name := type.getD (chars! "Chebyshev")
  Outcome.assert debug isMatrixFree
  let name := lowerCase name
  if name = chars! "chebyshev" then
    let data : ChebyshevData R := ⟨degree, range, maxEigenvalue⟩
    if isMatrixFree then .ok data else .ub "matrix_free_operator is null"
  else .throws ("Unknown smoother name: \"" ++ String.ofList name ++ "\"")

/-- The solvers among which `DealIISolver` chooses. /repo/source/dealii/dealii_solver.cc:43-73. -/
inductive CoarseKind where
  | direct | ml
  deriving DecidableEq, Repr

/-- Constructor of `DealIISolver`, /repo/source/dealii/dealii_solver.cc:25-74. -/
def dealiiSolver (isTrilinos : Bool) (type : Option (List Char)) : Outcome CoarseKind :=
  let name := type.getD (chars! "direct")
  if isTrilinos then
    let lower := lowerCase name
    if lower = chars! "direct" then .ok .direct
    else if lower = chars! "ml" then .ok .ml
    else .throws ("Unknown coarse solver name: \"" ++ String.ofList lower ++ "\"")
  else .ub "trilinos_operator is null"

/-- Constructor of `CudaSmoother` up to the extraction of the diagonal,
/repo/source/cuda/cuda_smoother.cu:99-121. -/
def cudaSmoother (debug isCuda square : Bool) (type : Option (List Char)) : Outcome SmootherKind := do
  let name := lowerCase (type.getD (chars! "Jacobi"))
  Outcome.assertThrow (name = chars! "jacobi") "Only Jacobi smoother is implemented."
  if isCuda then
    Outcome.assert debug square
    .ok .jacobi
  else .ub "cuda_matrix_operator is null"

/-- The solvers among which `CudaSolver` chooses. /repo/source/cuda/cuda_solver.cu:61-71 and 506. -/
inductive CudaSolverKind where
  | cholesky | luDense | luSparseHost | amgx
  deriving DecidableEq, Repr

/-- Constructor of `CudaSolver`, /repo/source/cuda/cuda_solver.cu:204-222 and the end at 445: the name
it stores.  `withAmgx`: `MFMG_WITH_AMGX`; the AMGX setup is not modelled here, only that it needs the
parameter `solver.config_file` (line 222, `ptree::get` throws if it is missing). -/
def cudaSolver (withAmgx hasConfig : Bool) (type : Option (List Char)) : Outcome (List Char) :=
  let name := lowerCase (type.getD (chars! "lu_dense"))
  if withAmgx ∧ name = chars! "amgx" ∧ hasConfig = false then .throws "No such node (solver.config_file)"
  else .ok name

/-- `CudaSolver::apply`, /repo/source/cuda/cuda_solver.cu:496-515, with `DirectSolver::apply` for the
device vectors, 51-72: which solver it runs. -/
def cudaSolverApply (withAmgx : Bool) (name : List Char) : Outcome CudaSolverKind :=
  if withAmgx ∧ name = chars! "amgx" then .ok .amgx
  else if name = chars! "cholesky" then .ok .cholesky
  else if name = chars! "lu_dense" then .ok .luDense
  else if name = chars! "lu_sparse_host" then .ok .luSparseHost
  else .throws ("The provided solver name " ++ String.ofList name ++ " is invalid.")

/-- The helpers among which `create_hierarchy_helpers` chooses.
/repo/include/mfmg/common/hierarchy.hpp:49-152. -/
inductive HelpersKind where
  | dealii | matrixFree | cuda
  deriving DecidableEq, Repr

/-- The message of `NotImplementedExc`, /repo/include/mfmg/common/exceptions.hpp:65-75. -/
def notImplemented : String := "The function is not implemented"

/-- `create_hierarchy_helpers` for host vectors, /repo/include/mfmg/common/hierarchy.hpp:49-107.
`withCuda`: `MFMG_WITH_CUDA`; an evaluator that names itself `CudaMeshEvaluator` is taken to be one. -/
def createHelpers (withCuda : Bool) (type : List Char) (dim : ℤ) : Outcome (HelpersKind × ℤ) :=
  if type = chars! "DealIIMeshEvaluator" then
    if dim = 2 then .ok (.dealii, 2) else if dim = 3 then .ok (.dealii, 3)
    else .throws notImplemented
  else if type = chars! "DealIIMatrixFreeMeshEvaluator" then
    if dim = 2 then .ok (.matrixFree, 2) else if dim = 3 then .ok (.matrixFree, 3)
    else .throws notImplemented
  else if withCuda ∧ type = chars! "CudaMeshEvaluator" then
    if dim = 2 then .ok (.cuda, 2) else if dim = 3 then .ok (.cuda, 3)
    else .throws notImplemented
  else .throws notImplemented

/-- `create_hierarchy_helpers` for device vectors, /repo/include/mfmg/common/hierarchy.hpp:110-152. -/
def createHelpersDevice (type : List Char) (dim : ℤ) : Outcome (HelpersKind × ℤ) :=
  if type = chars! "CudaMeshEvaluator" then
    if dim = 2 then .ok (.cuda, 2) else if dim = 3 then .ok (.cuda, 3)
    else .throws notImplemented
  else .throws notImplemented

end Mfmg
