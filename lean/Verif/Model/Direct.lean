import Verif.Model.Relaxation
import Mathlib.LinearAlgebra.Matrix.Determinant.Basic

/-!
# The direct coarse solver
-/

set_option autoImplicit false

namespace Mfmg

variable {K : Type} [Field K] [DecidableEq K]

/-- Constructor of the direct solver, /repo/source/dealii/dealii_solver.cc:42-46: `initialize` of deal.II's
`SolverDirect` factorises the matrix with Amesos and throws if the factorisation reports a zero pivot.  In the model
it does so exactly if the matrix is singular; a factorisation in floating-point arithmetic may overlook that. -/
def directSolver {n : ℕ} (solve : Matrix (Fin n) (Fin n) K → (Fin n → K) → Fin n → K) (M : Matrix (Fin n) (Fin n) K) :
    Outcome ((Fin n → K) → (Fin n → K) → Fin n → K) :=
  if M.det = 0 then .throws "ExcTrilinosError" else .ok fun b _ => solve M b

/-- The helpers of `DealIIHierarchyHelpers` with the direct coarse solver,
/repo/source/dealii/dealii_hierarchy_helpers.cc:291-321 (build_coarse_solver on lines 314-321) and /repo/source/dealii/dealii_solver.cc:26-73. -/
def directHelpers (debug : Bool) (type : Option (List Char)) (dims : ℕ → ℕ)
    (procs : ∀ l, List (List (Fin (dims l)))) (A : Matrix (Fin (dims 0)) (Fin (dims 0)) K)
    (R : ∀ l, Matrix (Fin (dims (l + 1))) (Fin (dims l)) K)
    (solve : ∀ l, Matrix (Fin (dims l)) (Fin (dims l)) K → (Fin (dims l) → K) → Fin (dims l) → K) :
    Helpers (fun l => Fin (dims l) → K) :=
  { matrixHelpers debug type dims procs A R solve with
    buildCoarseSolver := fun l a _ => directSolver (solve l) (entriesOf a) }

end Mfmg
