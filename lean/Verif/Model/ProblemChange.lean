import Verif.Model.Chebyshev

/-!
# Model of a program that changes its problem while it holds hierarchies

The user's evaluator (a class derived from `DealIIMeshEvaluator` or `DealIIMatrixFreeMeshEvaluator`) belongs to the user,
who can change what it evaluates (coefficients of a nonlinear or time-dependent problem) at any time.  A matrix-based
hierarchy calls it during construction only, /repo/source/dealii/dealii_hierarchy_helpers.cc:36-54.  A matrix-free
hierarchy keeps it, /repo/source/dealii/dealii_matrix_free_operator.cc:22-35.
-/

set_option autoImplicit false

namespace Mfmg

variable {K : Type} [Field K] [LinearOrder K] {dims : ℕ → ℕ}

/-- What the user's evaluator evaluates: the matrix (`evaluate_global`, `matrix_free_evaluate_global`), the inverse of its
diagonal (`matrix_free_get_diagonal_inverse`, only level 0 is used), and the restriction matrices that `AMGe_host` computes
from it.  /repo/include/mfmg/dealii/dealii_matrix_free_mesh_evaluator.hpp:111-137,
/repo/include/mfmg/dealii/dealii_mesh_evaluator.hpp:30-77.  Mesh and numbering stay the same. -/
structure UserProblem (dims : ℕ → ℕ) (K : Type) where
  matrix : Matrix (Fin (dims 0)) (Fin (dims 0)) K
  dinv : ∀ l, Fin (dims l) → K
  restriction : ∀ l, Matrix (Fin (dims (l + 1))) (Fin (dims l)) K

/-- What does not change: the build, the settings of the smoother, the distribution of the rows, the libraries.  Arguments of
`matrixHelpers` and `matrixFreeHelpers`, /repo/source/dealii/dealii_hierarchy_helpers.cc and
/repo/source/dealii/dealii_matrix_free_hierarchy_helpers.cc. -/
structure Surroundings (dims : ℕ → ℕ) (K : Type) where
  debug : Bool
  timer : Bool
  type : Option (List Char)
  degree : Option ℤ
  range : Option K
  maxEigenvalue : Option K
  auto : ℕ
  procs : ∀ l, List (List (Fin (dims l)))
  estimate : ∀ l, ((Fin (dims l) → K) → Fin (dims l) → K) → (Fin (dims l) → K) → List K
  solve : ∀ l, Matrix (Fin (dims l)) (Fin (dims l)) K → (Fin (dims l) → K) → Fin (dims l) → K

/-- A hierarchy held by the user: what was built; for a matrix-free one the inverse diagonal that was given to the smoother
(/repo/source/dealii/dealii_matrix_free_smoother.cc:53) and the eigenvalue estimates, which deal.II's
`PreconditionChebyshev` makes in the first `vmult` (line 74) and keeps. -/
structure HeldHierarchy (dims : ℕ → ℕ) (K : Type) where
  hierarchy : Hierarchy (fun l => Fin (dims l) → K)
  matrixFree : Option (Fin (dims 0) → K)
  ritz : Option (List K)

/-- The estimates used by an application while the evaluator evaluates `q`,
/repo/source/dealii/dealii_matrix_free_smoother.cc:74: those of the first application. -/
def HeldHierarchy.estimates (s : Surroundings dims K) (h : HeldHierarchy dims K) (q : UserProblem dims K)
    (dinv : Fin (dims 0) → K) : List K :=
  h.ritz.getD (s.estimate 0 q.matrix.mulVec dinv)

/-- The levels with another operator and smoother on level 0 (no smoother if there was none).  Not in the code: the objects
of /repo/include/mfmg/common/level.hpp:24-76 stay, but what the operator and the smoother do depends on the evaluator. -/
def replaceFinest (L : ∀ l, Level (fun l => Fin (dims l) → K) l) (a : Op (Fin (dims 0) → K) (Fin (dims 0) → K))
    (sm : (Fin (dims 0) → K) → (Fin (dims 0) → K) → Fin (dims 0) → K) : ∀ l, Level (fun l => Fin (dims l) → K) l
  | 0 => { L 0 with operator := some a, smoother := (L 0).smoother.map fun _ => sm }
  | l + 1 => L (l + 1)

/-- The hierarchy while the evaluator evaluates `q`.  The operator of level 0 of a matrix-free hierarchy calls the evaluator
in every application, /repo/source/dealii/dealii_matrix_free_operator.cc:31-35, and so does its smoother
(/repo/source/dealii/dealii_matrix_free_smoother.cc:55, 68, 74); everything else is as it was built. -/
def HeldHierarchy.now (s : Surroundings dims K) (h : HeldHierarchy dims K) (q : UserProblem dims K) :
    Hierarchy (fun l => Fin (dims l) → K) :=
  match h.matrixFree with
  | none => h.hierarchy
  | some dinv =>
    { h.hierarchy with
      level := replaceFinest h.hierarchy.level (matrixOp q.matrix)
        (matrixFreeSmootherApply (chebyshevVmult (ChebyshevData.settings ⟨s.degree, s.range, s.maxEigenvalue⟩) s.auto
          (h.estimates s q dinv) q.matrix.mulVec dinv) (matrixOp q.matrix)) }

/-- The program: what its evaluator evaluates, and the hierarchies it holds (in a vector).  Not in the code; the objects of
/repo/include/mfmg/common/hierarchy.hpp:155-372. -/
structure UserWorld (dims : ℕ → ℕ) (K : Type) where
  problem : UserProblem dims K
  held : List (HeldHierarchy dims K)

/-- What the program does: change what the evaluator evaluates, build a hierarchy (matrix-based or matrix-free), apply the
`i`th hierarchy.  Not in the code: calls of /repo/include/mfmg/common/hierarchy.hpp:159-244 in any order. -/
inductive UserStep (dims : ℕ → ℕ) (K : Type) where
  | change (q : UserProblem dims K)
  | build (matrixFree : Bool) (p : Params)
  | vmult (i : ℕ) (fresh : ∀ l, Fin (dims l) → K) (x b : Fin (dims 0) → K)

/-- The constructor for the current problem, /repo/include/mfmg/common/hierarchy.hpp:159-236 with the helpers chosen at
/repo/include/mfmg/common/hierarchy.hpp:60-152. -/
def buildFor (s : Surroundings dims K) (q : UserProblem dims K) (matrixFree : Bool) (p : Params) :
    Outcome (Hierarchy fun l => Fin (dims l) → K) :=
  (buildHierarchy s.debug s.timer (some p) (.ok (if matrixFree then
      matrixFreeHelpers s.debug s.type s.degree s.range s.maxEigenvalue s.auto dims q.dinv s.estimate q.matrix q.restriction
        s.solve
    else matrixHelpers s.debug s.type dims s.procs q.matrix q.restriction s.solve))).result

/-- The result of `hierarchies[i]->vmult(x, b)`, /repo/include/mfmg/common/hierarchy.hpp:238-244. -/
def UserWorld.answer (s : Surroundings dims K) (w : UserWorld dims K) (i : ℕ) (fresh : ∀ l, Fin (dims l) → K)
    (x b : Fin (dims 0) → K) : Outcome (Fin (dims 0) → K) :=
  match w.held[i]? with
  | none => .ub "no such hierarchy"
  | some h => ((h.now s w.problem).vmult fresh x b).result

/-- What an application leaves in a hierarchy: the eigenvalue estimates, if the smoother was applied,
/repo/source/dealii/dealii_matrix_free_smoother.cc:74 and /repo/include/mfmg/common/hierarchy.hpp:278-279. -/
def HeldHierarchy.applied (s : Surroundings dims K) (h : HeldHierarchy dims K) (q : UserProblem dims K) :
    HeldHierarchy dims K :=
  match h.matrixFree with
  | none => h
  | some dinv =>
    if h.hierarchy.nSmoothingSteps = 0 then h else { h with ritz := some (h.estimates s q dinv) }

/-- One step of the program. A hierarchy whose constructor throws is not kept. Not in the code; calls of
/repo/include/mfmg/common/hierarchy.hpp:159-244. -/
def UserWorld.step (s : Surroundings dims K) (w : UserWorld dims K) : UserStep dims K → UserWorld dims K
  | .change q => { w with problem := q }
  | .build matrixFree p =>
    match buildFor s w.problem matrixFree p with
    | .ok H => { w with held := w.held ++ [⟨H, if matrixFree then some (w.problem.dinv 0) else none, none⟩] }
    | _ => w
  | .vmult i _ _ _ =>
    { w with held := w.held.modify i fun h => h.applied s w.problem }

/-- A history of the program. Not in the code; see `UserWorld.step`, /repo/include/mfmg/common/hierarchy.hpp:159-244. -/
def UserWorld.run (s : Surroundings dims K) (w : UserWorld dims K) (steps : List (UserStep dims K)) : UserWorld dims K :=
  steps.foldl (fun w a => w.step s a) w

end Mfmg
