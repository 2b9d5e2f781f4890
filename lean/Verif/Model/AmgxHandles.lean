import Verif.Model.Basic
import Mathlib.Data.Nat.Notation

/-!
# Model: the AMGX handles of the coarse solver

/repo/source/cuda/cuda_solver.cu:204-264, 447-494.
-/

set_option autoImplicit false

namespace Mfmg

/-- The kinds of AMGX objects that the solver creates (/repo/source/cuda/cuda_solver.cu:237-263). -/
inductive HandleKind where
  | config | resources | matrix | rhs | solution | solver
  deriving DecidableEq, Repr

/-- An AMGX object: its kind and an identity that is never used again.  Simplification: AMGX's objects are
known only through creation and destruction. /repo/include/mfmg/cuda/cuda_solver.cuh:50-55. -/
abbrev Handle := HandleKind × ℕ

/-- The AMGX library: the objects that exist and the next identity.
Used at /repo/source/cuda/cuda_solver.cu:237-263 and 454-488. -/
structure AmgxLib where
  live : List Handle
  next : ℕ
  deriving DecidableEq, Repr

/-- `AMGX_*_create`.  Simplification: creation does not fail (the code ignores the return codes).
/repo/source/cuda/cuda_solver.cu:237-263. -/
def AmgxLib.create (l : AmgxLib) (k : HandleKind) : AmgxLib × Handle :=
  ({ live := (k, l.next) :: l.live, next := l.next + 1 }, (k, l.next))

/-- `if (handle != nullptr) AMGX_*_destroy(handle)`: destroying an object that does not exist is undefined
behaviour. /repo/source/cuda/cuda_solver.cu:454-488. -/
def AmgxLib.destroy (l : AmgxLib) : Option Handle → Outcome AmgxLib
  | none => .ok l
  | some h =>
    if h ∈ l.live then .ok { l with live := l.live.erase h }
    else .ub "destruction of an AMGX object that does not exist"

/-- The members of `CudaSolver` (/repo/include/mfmg/cuda/cuda_solver.cuh:46-57, initialised
to null in /repo/source/cuda/cuda_solver.cu:209-212); `amgx` is `_solver == "amgx"`. -/
structure SolverObj where
  amgx : Bool
  config : Option Handle := none
  resources : Option Handle := none
  matrix : Option Handle := none
  rhs : Option Handle := none
  solution : Option Handle := none
  solver : Option Handle := none
  deriving DecidableEq, Repr

/-- The handles created by the constructor, /repo/source/cuda/cuda_solver.cu:204-264: six for `amgx`, none for the other
solver types.  The communication lists set up after that are in `Model/AmgxComm.lean`. -/
def constructSolver (l : AmgxLib) (amgx : Bool) : AmgxLib × SolverObj :=
  if amgx then
    let (l, config) := l.create .config
    let (l, resources) := l.create .resources
    let (l, matrix) := l.create .matrix
    let (l, rhs) := l.create .rhs
    let (l, solution) := l.create .solution
    let (l, solver) := l.create .solver
    (l, { amgx := true, config := some config, resources := some resources, matrix := some matrix,
          rhs := some rhs, solution := some solution, solver := some solver })
  else (l, { amgx := false })

/-- The destructor, /repo/source/cuda/cuda_solver.cu:447-494.  Line 463 sets `_amgx_matrix_handle` to null after the
destruction of the solution. -/
def destructSolver (l : AmgxLib) (o : SolverObj) : Outcome AmgxLib :=
  if o.amgx then do
    let l ← l.destroy o.solver
    let l ← l.destroy o.solution
    let matrix := if o.solution.isSome then none else o.matrix
    let l ← l.destroy o.rhs
    let l ← l.destroy matrix
    let l ← l.destroy o.resources
    l.destroy o.config
  else .ok l

/-- A program that uses solvers: constructions and destructions.
The calls run /repo/source/cuda/cuda_solver.cu:204-264 and 447-494. -/
inductive SolverCall where
  | construct (amgx : Bool)
  | destruct (i : ℕ)
  deriving DecidableEq, Repr

/-- The solvers made so far, with a flag set when they have been destroyed.
The objects made by /repo/source/cuda/cuda_solver.cu:204-264. -/
structure SolverState where
  lib : AmgxLib
  solvers : List (SolverObj × Bool)
  deriving DecidableEq, Repr

/-- No solver has been made. (/repo/source/cuda/cuda_solver.cu:204). -/
def SolverState.init : SolverState := { lib := { live := [], next := 0 }, solvers := [] }

/-- One construction or destruction; a call on a solver that does not exist (any more) is not a C++ program
and is skipped. /repo/source/cuda/cuda_solver.cu:204-264 and 447-494. -/
def solverStep (s : SolverState) : SolverCall → Outcome SolverState
  | .construct amgx =>
    let (lib, o) := constructSolver s.lib amgx
    .ok { lib := lib, solvers := s.solvers ++ [(o, false)] }
  | .destruct i =>
    match s.solvers[i]? with
    | some (o, false) => do
      let lib ← destructSolver s.lib o
      .ok { lib := lib, solvers := s.solvers.set i (o, true) }
    | _ => .ok s

/-- A history. Calls of /repo/source/cuda/cuda_solver.cu:204-264 and 447-494, one after the other. -/
def solverRun (s : SolverState) : List SolverCall → Outcome SolverState
  | [] => .ok s
  | c :: cs => do
    let s ← solverStep s c
    solverRun s cs

end Mfmg
