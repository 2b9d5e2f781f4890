import Verif.Model.Hierarchy

/-!
# Debug builds and release builds

The two builds of a program are compared by the outcomes of the same call.
-/

set_option autoImplicit false

namespace Mfmg

/-- A debug build may stop where a release build goes on: by a failed assertion, or by one of the
exceptions `only` that are thrown in debug builds only.  Apart from this the outcomes are the same:
the same result, the same exception, or undefined behaviour in both. -/
def SameUnlessStopped {α : Type} (only : List String) (debug release : Outcome α) : Prop :=
  debug = .aborted ∨ (∃ m ∈ only, debug = .throws m) ∨ release = debug

/-- The same for calls with a trace: where the debug build does not stop, the events are the same
too. -/
def SameRunUnlessStopped {α : Type} (only : List String) (debug release : Run α) : Prop :=
  debug.result = .aborted ∨ (∃ m ∈ only, debug.result = .throws m) ∨ release = debug

/-- The helpers of the two builds, call by call. -/
structure SameHelpers {V : ℕ → Type} (only : List String) (d r : Helpers V) : Prop where
  globalOperator : SameUnlessStopped only d.globalOperator r.globalOperator
  buildSmoother : ∀ l a p, SameUnlessStopped only (d.buildSmoother l a p) (r.buildSmoother l a p)
  buildRestrictor : ∀ l p, SameUnlessStopped only (d.buildRestrictor l p) (r.buildRestrictor l p)
  fastMultiplyTranspose : ∀ l,
    SameUnlessStopped only (d.fastMultiplyTranspose l) (r.fastMultiplyTranspose l)
  multiplyTranspose : ∀ l a b,
    SameUnlessStopped only (d.multiplyTranspose l a b) (r.multiplyTranspose l a b)
  multiply : ∀ l a b, SameUnlessStopped only (d.multiply l a b) (r.multiply l a b)
  buildCoarseSolver : ∀ l a p,
    SameUnlessStopped only (d.buildCoarseSolver l a p) (r.buildCoarseSolver l a p)

end Mfmg
