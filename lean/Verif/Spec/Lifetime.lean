import Verif.Model.Lifetime
import Mathlib.Logic.Relation

/-!
# Lifetimes: what the statements of C83 mean

Nothing here mentions how references are counted or released.
-/

set_option autoImplicit false

namespace Mfmg

/-- The object at `a` has been created and not yet destroyed. -/
def Mem.Live (m : Mem) (a : ℕ) : Prop := 0 < m.cnt a

/-- Using the object `a` dereferences `b`, directly or through other objects. -/
def Mem.Reads (m : Mem) : ℕ → ℕ → Prop :=
  Relation.ReflTransGen fun x y => y ∈ (m.obj x).uses

/-- A state some program of any length reaches. -/
def Mem.Reached (debug : Bool) (m : Mem) : Prop :=
  ∃ program : List UseStmt, Mem.run debug {} program = .ok m

/-- What a hierarchy needs that it does not keep alive itself, by the kind of its evaluator `e`:
nothing; what the evaluator's functions read; the CUDA handle, except for the hierarchy of one level
with the AMGX solver. -/
def neededRoots (kind : EvalKind) (e levels : ℕ) (amgx : Bool) : List ℕ :=
  match kind with
  | .matrixBased => []
  | .matrixFree => [e]
  | .device handle => if levels = 1 ∧ amgx = true then [] else [handle]

end Mfmg
