import Verif.Model.Basic
import Mathlib.Logic.Function.Basic
import Mathlib.Data.Nat.Notation

/-!
# Model: the AMGX library, several solvers and their lifetimes

Every `CudaSolver` of type `amgx` initialises the AMGX library in its constructor
(/repo/source/cuda/cuda_solver.cu:234-235) and finalises it in its destructor
(/repo/source/cuda/cuda_solver.cu:490-491).  `Model/AmgxHandles.lean` follows the single handles, here it is
the state of the library that counts.
-/

set_option autoImplicit false

namespace Mfmg

/-- The AMGX library, initialised in /repo/source/cuda/cuda_solver.cu:234-235 and finalised in lines 490-491.
`on` tells whether it can be used, `session` is the number of times it has been switched on; objects belong to
the session in which they were created.  `pending` is the number of initialisations without a
finalisation. -/
structure AmgxSessions where
  on : Bool
  session : ℕ
  pending : ℕ
  deriving DecidableEq, Repr

/-- Before the first call of /repo/source/cuda/cuda_solver.cu:234. -/
def AmgxSessions.init : AmgxSessions := { on := false, session := 0, pending := 0 }

/-- `AMGX_initialize` and `AMGX_initialize_plugins`, /repo/source/cuda/cuda_solver.cu:234-235: nothing
happens if the library is on. -/
def AmgxSessions.initialize (l : AmgxSessions) : AmgxSessions :=
  if l.on then { l with pending := l.pending + 1 }
  else { on := true, session := l.session + 1, pending := l.pending + 1 }

/-- `AMGX_finalize_plugins` and `AMGX_finalize`, /repo/source/cuda/cuda_solver.cu:490-491.  The documentation of
AMGX says that no call may follow.  `counted` is for a library that is switched off only by the
finalisation of the last initialisation. -/
def AmgxSessions.finalize (counted : Bool) (l : AmgxSessions) : Outcome AmgxSessions :=
  if l.on then
    .ok { l with on := counted && decide (1 < l.pending), pending := l.pending - 1 }
  else .ub "AMGX_finalize without AMGX_initialize"

/-- A call with an object of session `e`, such as /repo/source/cuda/cuda_solver.cu:132-141, 442 or 456: the
library is on and has not been switched off since the object was created. -/
def AmgxSessions.touch (l : AmgxSessions) (e : ℕ) : Outcome Unit :=
  if l.on = true ∧ l.session = e then .ok () else .ub "AMGX object used after AMGX_finalize"

/-- What a program does with solvers; `i` is the name of a solver, `amgx` tells whether it has the type `amgx`.
The calls run /repo/source/cuda/cuda_solver.cu:204-445, 496-515 and 447-494. -/
inductive CoarseCall where
  | construct (i : ℕ) (amgx : Bool)
  | apply (i : ℕ)
  | destruct (i : ℕ)
  deriving DecidableEq, Repr

/-- The library and the solvers that exist; for a solver of type `amgx` the session of its objects (the
members /repo/include/mfmg/cuda/cuda_solver.cuh:50-55), `none` for the other types. -/
structure CoarseState where
  lib : AmgxSessions
  solvers : ℕ → Option (Option ℕ)

/-- No solver has been made (/repo/source/cuda/cuda_solver.cu:204). -/
def CoarseState.init : CoarseState := { lib := .init, solvers := fun _ => none }

/-- One call.  The constructor initialises the library and creates its objects
(/repo/source/cuda/cuda_solver.cu:234-263, 442); `apply` uses them (lines 505-511); the destructor destroys
them and finalises the library (lines 451-492).  Simplification: the objects of a solver are treated as
one. -/
def coarseStep (counted : Bool) (s : CoarseState) : CoarseCall → Outcome CoarseState
  | .construct i amgx =>
    if amgx then do
      let lib := s.lib.initialize
      lib.touch lib.session
      .ok { lib := lib, solvers := Function.update s.solvers i (some (some lib.session)) }
    else .ok { s with solvers := Function.update s.solvers i (some none) }
  | .apply i =>
    match s.solvers i with
    | none => .ub "solver does not exist"
    | some none => .ok s
    | some (some e) => do
      s.lib.touch e
      .ok s
  | .destruct i =>
    match s.solvers i with
    | none => .ub "solver does not exist"
    | some none => .ok { s with solvers := Function.update s.solvers i none }
    | some (some e) => do
      s.lib.touch e
      let lib ← s.lib.finalize counted
      .ok { lib := lib, solvers := Function.update s.solvers i none }

/-- A history: calls of /repo/source/cuda/cuda_solver.cu:204-445, 496-515 and 447-494, one after the other. -/
def coarseRun (counted : Bool) (s : CoarseState) : List CoarseCall → Outcome CoarseState
  | [] => .ok s
  | c :: cs => do
    let s ← coarseStep counted s c
    coarseRun counted s cs

end Mfmg
