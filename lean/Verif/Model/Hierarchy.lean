import Verif.Model.Basic
import Mathlib.Algebra.Module.LinearMap.Basic

/-!
# Model of `mfmg::Hierarchy` (/repo/include/mfmg/common/hierarchy.hpp)

The vector space of level `l` is `V l`.  Simplifications, all in this file:

* `Operator::apply(x, y)` overwrites `y`; the model returns the new `y`
  (deal.II's `vmult`/`Tvmult`, see /repo/source/dealii/dealii_trilinos_matrix_operator.cc:28-35).
* vectors freshly created by `Level::build_vector`
  (/repo/include/mfmg/common/level.hpp:63-70) have arbitrary contents `fresh l`.
* MPI communication inside the vector and matrix operations is not modelled.
* the timer is represented by the trace of its `enter`/`leave` events.
-/

set_option autoImplicit false

namespace Mfmg

/-- Observable events: timer calls (/repo/include/mfmg/common/hierarchy.hpp:36-47), calls of a
smoother's `apply` and of the coarse solver's `apply` on a level, and the modification of the
user's parameter tree (/repo/include/mfmg/common/hierarchy.hpp:189-190). -/
inductive Event where
  | enter (sec : String)
  | leave
  | smooth (level : ℕ)
  | coarse (level : ℕ)
  | put (zeroStartingSolution : Bool)
  deriving DecidableEq, Repr

/-- A computation with an event trace.  The trace is kept when the computation throws.
Not in the code: the events of /repo/include/mfmg/common/hierarchy.hpp:159-309 together with how the
function ends. -/
def Run (α : Type) : Type := List Event × Outcome α

namespace Run

/-- The events. Not in the code; see `Run`, /repo/include/mfmg/common/hierarchy.hpp:159-309. -/
def trace {α : Type} (r : Run α) : List Event := r.1
/-- How the function ends. Not in the code; see `Run`, /repo/include/mfmg/common/hierarchy.hpp:159-309. -/
def result {α : Type} (r : Run α) : Outcome α := r.2

/-- The sequence of statements, which ends at the first one that throws or aborts,
/repo/include/mfmg/common/exceptions.hpp:44-63. -/
instance : Monad Run where
  pure a := ([], .ok a)
  bind x f := match x with
    | (t, .ok a) => let r := f a; (t ++ r.1, r.2)
    | (t, .throws m) => (t, .throws m)
    | (t, .aborted) => (t, .aborted)
    | (t, .ub w) => (t, .ub w)

/-- Lift an outcome (no events). Such as the checks /repo/include/mfmg/common/exceptions.hpp:44-63. -/
def lift {α : Type} (o : Outcome α) : Run α := ([], o)

/-- Emit one event. See `Event` for the statements of /repo/include/mfmg/common/hierarchy.hpp:159-309. -/
def emit (e : Event) : Run PUnit := ([e], .ok ⟨⟩)

end Run

/-- `timer_enter_subsection`, /repo/include/mfmg/common/hierarchy.hpp:36-41: nothing happens
without a timer. -/
def timerEnter (timer : Bool) (sec : String) : Run PUnit :=
  if timer then Run.emit (.enter sec) else pure ⟨⟩

/-- `timer_leave_subsection`, /repo/include/mfmg/common/hierarchy.hpp:43-47. -/
def timerLeave (timer : Bool) : Run PUnit :=
  if timer then Run.emit .leave else pure ⟨⟩

/-- `Operator`, /repo/include/mfmg/common/operator.hpp:25-52: `fwd` is `apply` with
`OperatorMode::NO_TRANS`, `trans` is `apply` with `OperatorMode::TRANS`. -/
structure Op (X : Type) (Y : Type) where
  fwd : X → Y
  trans : Y → X

/-- `Level`, /repo/include/mfmg/common/level.hpp: four shared pointers, initially null.
The restrictor maps the *finer* level to this one (`V (0-1) = V 0` is a dummy for level 0). -/
structure Level (V : ℕ → Type) (l : ℕ) where
  operator : Option (Op (V l) (V l)) := none
  restrictor : Option (Op (V (l - 1)) (V l)) := none
  smoother : Option (V l → V l → V l) := none
  solver : Option (V l → V l → V l) := none

/-- Members of `Hierarchy`, /repo/include/mfmg/common/hierarchy.hpp:369-372.
Only `level l` for `l < numLevels` is storage of the C++ vector `_levels`. -/
structure Hierarchy (V : ℕ → Type) where
  numLevels : ℕ
  level : ∀ l, Level V l
  isPreconditioner : Bool
  nSmoothingSteps : ℕ
  timer : Bool

/-- `for (i = 0; i < n; ++i) smoother->apply(b, x)`,
/repo/include/mfmg/common/hierarchy.hpp:278-279 and 305-306. -/
def smoothLoop {X : Type} (l : ℕ) (s : X → X → X) (b : X) : ℕ → X → Run X
  | 0, x => pure x
  | n + 1, x => do
    let _ ← (Run.emit (.smooth l) : Run PUnit)
    smoothLoop l s b n (s b x)

namespace Hierarchy

variable {V : ℕ → Type} [∀ l, AddCommGroup (V l)]

/-- `Hierarchy::apply`, /repo/include/mfmg/common/hierarchy.hpp:246-309.
`fresh l` is the content of a vector newly built on level `l`. -/
def apply (H : Hierarchy V) (fresh : ∀ l, V l) (l : ℕ) (b x : V l) : Run (V l) :=
  if _hl : l < H.numLevels then do
    -- Zero out any garbage in x (lines 253-259)
    let x := if l > 0 ∨ H.isPreconditioner then 0 else x
    if l = H.numLevels - 1 then do
      let _ ← timerEnter H.timer "Apply: coarsest level"
      let coarseSolver ← Run.lift (Outcome.deref (H.level l).solver "null coarse solver")
      let _ ← (Run.emit (.coarse l) : Run PUnit)
      let x := coarseSolver b x
      let _ ← timerLeave H.timer
      pure x
    else do
      let _ ← timerEnter H.timer "Apply: fine levels"
      let r ← Run.lift (Outcome.deref (H.level (l + 1)).restrictor "null restrictor")
      let s ← Run.lift (Outcome.deref (H.level l).smoother "null smoother")
      -- pre-smoothing (lines 276-279)
      let x ← smoothLoop l s b H.nSmoothingSteps x
      -- negative residual -r = Ax-b (lines 281-286)
      let a ← Run.lift (Outcome.deref (H.level l).operator "null operator")
      let res := a.fwd x - b
      -- restrict residual (lines 288-290)
      let bCoarse := r.fwd res
      -- coarse grid correction (lines 292-294)
      let xCoarse ← H.apply fresh (l + 1) bCoarse (fresh (l + 1))
      -- update solution (lines 296-302)
      let xCorrection : V l := r.trans xCoarse
      let x := x - xCorrection
      -- post-smoothing (lines 304-306)
      let x ← smoothLoop l s b H.nSmoothingSteps x
      let _ ← timerLeave H.timer
      pure x
  else Run.lift (.ub "_levels index out of range")
termination_by H.numLevels - l

/-- `Hierarchy::vmult`, /repo/include/mfmg/common/hierarchy.hpp:238-244. -/
def vmult (H : Hierarchy V) (fresh : ∀ l, V l) (x b : V 0) : Run (V 0) := do
  let _ ← timerEnter H.timer "Apply"
  let x ← H.apply fresh 0 b x
  let _ ← timerLeave H.timer
  pure x

end Hierarchy

/-- The entries of the user's `boost::property_tree` read by the constructor
(`none` = absent or not convertible, so the default is used).
/repo/include/mfmg/common/hierarchy.hpp:166-175. -/
structure Params where
  isPreconditioner : Option Bool := none
  nSmoothingSteps : Option ℤ := none
  maxLevels : Option ℤ := none
  fastAp : Option Bool := none
  zeroStartingSolution : Option Bool := none
  deriving DecidableEq, Repr

/-- Conversion of a C++ `int` to `unsigned int` (32 bits):
`_n_smoothing_steps = params->get("smoother.n_smoothing_steps", 1)`,
/repo/include/mfmg/common/hierarchy.hpp:169 and 372. -/
def toUnsigned (n : ℤ) : ℕ := (n % 2 ^ 32).toNat

/-- What the constructor obtains from `HierarchyHelpers`
(/repo/include/mfmg/common/hierarchy_helpers.hpp) and `Operator::multiply*`
(/repo/include/mfmg/common/operator.hpp); each call may throw. -/
structure Helpers (V : ℕ → Type) where
  globalOperator : Outcome (Op (V 0) (V 0))
  buildSmoother : ∀ l, Op (V l) (V l) → Params → Outcome (V l → V l → V l)
  buildRestrictor : ∀ l, Params → Outcome (Op (V l) (V (l + 1)))
  fastMultiplyTranspose : ∀ l, Outcome (Op (V (l + 1)) (V l))
  multiplyTranspose : ∀ l, Op (V l) (V l) → Op (V l) (V (l + 1)) → Outcome (Op (V (l + 1)) (V l))
  multiply : ∀ l, Op (V l) (V (l + 1)) → Op (V (l + 1)) (V l) →
    Outcome (Op (V (l + 1)) (V (l + 1)))
  buildCoarseSolver : ∀ l, Op (V l) (V l) → Params → Outcome (V l → V l → V l)

/-- Exact matrix algebra: `multiply_transpose(A, R) = A Rᵀ` and `multiply(R, AP) = R AP`,
/repo/source/dealii/dealii_trilinos_matrix_operator.cc:55-96. -/
def Op.mulTranspose {X Y : Type} (a : Op X X) (r : Op X Y) : Op Y X where
  fwd := fun y => a.fwd (r.trans y)
  trans := fun x => r.fwd (a.trans x)

/-- `Operator::multiply`: the composition of the linear maps.
/repo/source/dealii/dealii_trilinos_matrix_operator.cc:55-72. -/
@[inherit_doc Op.mulTranspose]
def Op.mul {X Y : Type} (r : Op X Y) (ap : Op Y X) : Op Y Y where
  fwd := fun y => r.fwd (ap.fwd y)
  trans := fun y => ap.trans (r.trans y)

section Build

variable {V : ℕ → Type}

/-- The state of the level loop: the vector `_levels` (all pointers initially null,
/repo/include/mfmg/common/hierarchy.hpp:175). -/
abbrev Levels (V : ℕ → Type) := ∀ l, Level V l

/-- `_levels[l].set_...`. /repo/include/mfmg/common/hierarchy.hpp:177-233. -/
def Levels.set (L : Levels V) (l : ℕ) (f : Level V l → Level V l) : Levels V :=
  Function.update L l (f (L l))

/-- The pattern `timer_enter_subsection(..); auto r = f(..); timer_leave_subsection(..)` used for
each set-up step, e.g. /repo/include/mfmg/common/hierarchy.hpp:203-206.  When `f` throws the section
is not left (there is no RAII guard). -/
def timed {α : Type} (timer : Bool) (sec : String) (f : Outcome α) : Run α := do
  let _ ← timerEnter timer sec
  let r ← Run.lift f
  let _ ← timerLeave timer
  pure r

/-- The level loop of the constructor, /repo/include/mfmg/common/hierarchy.hpp:178-234. -/
def buildLoop (h : Helpers V) (p : Params) (timer : Bool) (n : ℕ) (l : ℕ) (L : Levels V) :
    Run (Levels V) :=
  if l < n then do
    let a ← Run.lift (Outcome.deref (L l).operator "null operator")
    if l = n - 1 then do
      -- lines 186-191: params->put for a one-level hierarchy
      let p' ← (if l = 0 then do
        let _ ← (Run.emit (.put (p.isPreconditioner.getD true)) : Run PUnit)
        pure { p with zeroStartingSolution := some (p.isPreconditioner.getD true) }
      else pure p : Run Params)
      let s ← timed timer "Setup: build coarse solver" (h.buildCoarseSolver l a p')
      pure (L.set l (fun v => { v with solver := some s }))
    else do
      let s ← timed timer "Setup: build smoother" (h.buildSmoother l a p)
      let L := L.set l (fun v => { v with smoother := some s })
      let r ← timed timer "Setup: build restrictor" (h.buildRestrictor l p)
      let L := L.set (l + 1) (fun v => { v with restrictor := some r })
      let ap ← (if p.fastAp.getD false then
        timed timer "Setup: fast_ap" (h.fastMultiplyTranspose l)
      else timed timer "Setup: ap" (h.multiplyTranspose l a r))
      let ac ← timed timer "Setup: build coarse matrix" (h.multiply l r ap)
      let L := L.set (l + 1) (fun v => { v with operator := some ac })
      buildLoop h p timer n (l + 1) L
  else pure L
termination_by n - l

/-- The constructor, /repo/include/mfmg/common/hierarchy.hpp:159-236.  `params = none` is the
default argument `nullptr`, which is dereferenced on line 168.  `helpers` is the outcome of
`create_hierarchy_helpers` (lines 49-107).  `debug` is `MFMG_DEBUG`. -/
def buildHierarchy (debug timer : Bool) (params : Option Params) (helpers : Outcome (Helpers V)) :
    Run (Hierarchy V) := do
  let _ ← timerEnter timer "Setup"
  let h ← Run.lift helpers
  let p ← Run.lift (Outcome.deref params "null params")
  let isPreconditioner := p.isPreconditioner.getD true
  let nSmoothingSteps := toUnsigned (p.nSmoothingSteps.getD 1)
  let numLevels := p.maxLevels.getD 2
  let _ ← Run.lift (Outcome.assert debug (numLevels > 0))
  -- line 175: resize; a negative int converts to a huge size_t and resize throws
  if numLevels < 0 then Run.lift (.throws "std::length_error") else do
    let n := numLevels.toNat
    let a0 ← Run.lift h.globalOperator
    -- line 177: _levels[0]
    if n = 0 then Run.lift (.ub "_levels[0] on an empty vector") else do
      let L : Levels V := fun _ => {}
      let L := L.set 0 (fun v => { v with operator := some a0 })
      let L ← buildLoop h p timer n 0 L
      let _ ← timerLeave timer
      pure { numLevels := n, level := L, isPreconditioner := isPreconditioner,
             nSmoothingSteps := nSmoothingSteps, timer := timer }

end Build

end Mfmg
