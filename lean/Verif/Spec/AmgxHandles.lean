import Verif.Model.AmgxHandles

/-!
# Specification: the AMGX handles
-/

set_option autoImplicit false

namespace Mfmg

/-- How many `amgx` solvers a history constructs. -/
def SolverCall.amgxConstructed (cs : List SolverCall) : ℕ := cs.count (.construct true)

/-- The number of `amgx` solvers that still exist in a state. -/
def SolverState.amgxAlive (s : SolverState) : ℕ := s.solvers.countP (fun e => e.1.amgx && !e.2)

/-- Every solver made has been destroyed. -/
def SolverState.AllDestroyed (s : SolverState) : Prop := ∀ e ∈ s.solvers, e.2 = true

/-- The number of existing AMGX objects of a kind. -/
def SolverState.count (s : SolverState) (k : HandleKind) : ℕ := s.lib.live.countP (fun h => h.1 == k)

end Mfmg
