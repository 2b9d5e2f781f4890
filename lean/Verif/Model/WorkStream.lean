import Verif.Model.Restriction
import Mathlib.Logic.Function.Basic

/-!
# Model of the threaded set-up of the restrictor

`dealii::WorkStream::run` as used in /repo/include/mfmg/dealii/amge_host.templates.hpp:505-519,
563-578 and /repo/source/dealii/dealii_hierarchy_helpers.cc:120-232.

The library calls `worker(item, scratch, copy)` once per item, from any thread, with a scratch and a
copy object taken from pools; it calls `copier(copy)` for the items one at a time and in item
order.  Copy objects are re-used for later items once they have been copied; scratch objects are
re-used once the worker has returned.  Calls of workers that run at the same time use different
objects, so an execution is modelled as a sequence of worker and copier events.
-/

set_option autoImplicit false

namespace Mfmg

/-- Scratch pool, copy pool and the data written by the copier.
`dealii::WorkStream::run` is called in /repo/include/mfmg/dealii/amge_host.templates.hpp:508-519. -/
structure WS (S C R : Type) where
  scratch : ℕ → S
  copies : ℕ → C
  out : R

/-- One event: item `i` is worked on with scratch object `s` and copy object `c`, or the copy object
`c` of item `i` is handed to the copier.
`dealii::WorkStream::run` is called in /repo/include/mfmg/dealii/amge_host.templates.hpp:508-519. -/
inductive WSEvent where
  | work (i s c : ℕ)
  | copy (i c : ℕ)
  deriving DecidableEq, Repr

/-- One event of an execution of `WorkStream::run`.
`dealii::WorkStream::run` is called in /repo/include/mfmg/dealii/amge_host.templates.hpp:508-519. -/
def wsStep {S C R : Type} (worker : ℕ → S → C → Outcome (S × C)) (copier : C → R → R)
    (st : WS S C R) : WSEvent → Outcome (WS S C R)
  | .work i s c => do
    let (s', c') ← worker i (st.scratch s) (st.copies c)
    pure ⟨Function.update st.scratch s s', Function.update st.copies c c', st.out⟩
  | .copy _ c => pure ⟨st.scratch, st.copies, copier (st.copies c) st.out⟩

/-- A whole execution.
`dealii::WorkStream::run` is called in /repo/include/mfmg/dealii/amge_host.templates.hpp:508-519. -/
def wsRun {S C R : Type} (worker : ℕ → S → C → Outcome (S × C)) (copier : C → R → R) :
    List WSEvent → WS S C R → Outcome (WS S C R)
  | [], st => .ok st
  | e :: es, st => do
    let st ← wsStep worker copier st e
    wsRun worker copier es st

/-- The execution without threads: one scratch object and one copy object for all items (deal.II's
sequential `WorkStream::run`).
`dealii::WorkStream::run` is called in /repo/include/mfmg/dealii/amge_host.templates.hpp:508-519. -/
def wsSequential (n : ℕ) : List WSEvent :=
  (List.range n).flatMap (fun i => [.work i 0 0, .copy i 0])

section

variable {K : Type}

/-- Eigensolver parameters read by the workers: the name given under "type" (`none` if absent) and
"use_initial_guess" (default false).
Read in /repo/include/mfmg/dealii/amge_host.templates.hpp:310-311 and 609. -/
structure EigParams where
  type : Option String
  useInitialGuess : Bool

/-- `compute_local_eigenvectors`, /repo/include/mfmg/dealii/amge_host.templates.hpp:278-483, as far
as it decides which solver runs and what it is given: only "anasazi" receives the vectors of the
scratch object.  `solver i name guess` is the outcome of building agglomerate `i` and solving the
eigenproblem (any function).  An unknown name is a failed debug assertion; in release builds the
zero-initialised result, `unsolved i`, is returned. -/
def computeLocal (debug matrixFree : Bool) (p : EigParams)
    (solver : ℕ → String → List (List K) → Outcome (CopyData K)) (unsolved : ℕ → CopyData K)
    (i : ℕ) (guess : List (List K)) : Outcome (CopyData K) :=
  let name := p.type.getD (if matrixFree then "lanczos" else "arpack")
  if name = "lanczos" then solver i name []
  else if name = "anasazi" then solver i name guess
  else if name = "arpack" then
    if matrixFree then .throws "ARPACK not available as eigensolver in matrix-free mode"
    else solver i name []
  else if name = "lapack" then
    if matrixFree then .throws "LAPACK not available as eigensolver in matrix-free mode"
    else solver i name []
  else if debug then .aborted
  else .ok (unsolved i)

/-- `local_worker`, /repo/include/mfmg/dealii/amge_host.templates.hpp:586-615: all four members of
the copy object are assigned; with type "anasazi" and "use_initial_guess" the eigenvectors are left
in the scratch object. -/
def localWorker (debug matrixFree : Bool) (p : EigParams)
    (solver : ℕ → String → List (List K) → Outcome (CopyData K)) (unsolved : ℕ → CopyData K)
    (i : ℕ) (scratch : List (List K)) (_copy : CopyData K) :
    Outcome (List (List K) × CopyData K) := do
  let c ← computeLocal debug matrixFree p solver unsolved i scratch
  if p.type.getD "lanczos" = "anasazi" ∧ p.useInitialGuess = true then
    pure (c.eigenvectors, c)
  else pure (scratch, c)

/-- The threaded part of `setup_restrictor`,
/repo/include/mfmg/dealii/amge_host.templates.hpp:498-519 (556-578), under schedule `es`: all pool
objects start as copies of the empty `scratch_data` and `copy_data`. -/
def setupCollect (debug matrixFree : Bool) (p : EigParams)
    (solver : ℕ → String → List (List K) → Outcome (CopyData K)) (unsolved : ℕ → CopyData K)
    (es : List WSEvent) : Outcome (Collected K) := do
  let st ← wsRun (localWorker debug matrixFree p solver unsolved)
    (fun c s => copyLocalToGlobal s c) es
    ⟨fun _ => [], fun _ => ⟨[], [], [], []⟩, ⟨[], [], [], [], []⟩⟩
  pure st.out

end

end Mfmg
