/-!
# Outcomes

Result type shared by all parts of the model.  Undefined behaviour is a distinct outcome.
-/

namespace Mfmg

/-- Result of running a piece of C++ code.

* `ok a`      – returned normally;
* `throws m`  – a C++ exception (`ASSERT_THROW`, `ASSERT_THROW_NOT_IMPLEMENTED`,
                /repo/include/mfmg/common/exceptions.hpp:59-84);
* `aborted`   – a failed debug-only `ASSERT`
                (/repo/include/mfmg/common/exceptions.hpp:44-57);
* `ub w`      – undefined behaviour (`w` says which). -/
inductive Outcome (α : Type u) where
  | ok (a : α)
  | throws (msg : String)
  | aborted
  | ub (why : String)
  deriving Repr, DecidableEq

namespace Outcome

/-- Sequential composition: an exception, an abort or undefined behaviour ends the code
(/repo/include/mfmg/common/exceptions.hpp:44-84). -/
@[inline] def bind {α : Type u} {β : Type v} (x : Outcome α) (f : α → Outcome β) : Outcome β :=
  match x with
  | ok a => f a
  | throws m => throws m
  | aborted => aborted
  | ub w => ub w

/-- Statements one after the other (see `bind`, /repo/include/mfmg/common/exceptions.hpp:44-84). -/
instance : Monad Outcome where
  pure := ok
  bind := bind

/-- The laws of sequential composition (see `bind`, /repo/include/mfmg/common/exceptions.hpp:44-84). -/
instance : LawfulMonad Outcome := LawfulMonad.mk'
  (id_map := by intro α x; cases x <;> rfl)
  (pure_bind := by intros; rfl)
  (bind_assoc := by intro α β γ x f g; cases x <;> rfl)

@[simp] theorem pure_eq {α : Type u} (a : α) : (pure a : Outcome α) = ok a := rfl
@[simp] theorem ok_bind {α β : Type u} (a : α) (f : α → Outcome β) : (ok a >>= f) = f a := rfl
@[simp] theorem throws_bind {α β : Type u} (m : String) (f : α → Outcome β) :
    ((throws m : Outcome α) >>= f) = throws m := rfl
@[simp] theorem aborted_bind {α β : Type u} (f : α → Outcome β) :
    ((aborted : Outcome α) >>= f) = aborted := rfl
@[simp] theorem ub_bind {α β : Type u} (w : String) (f : α → Outcome β) :
    ((ub w : Outcome α) >>= f) = ub w := rfl

theorem bind_eq_ok {α β : Type u} {x : Outcome α} {f : α → Outcome β} {b : β} :
    (x >>= f) = ok b ↔ ∃ a, x = ok a ∧ f a = ok b := by
  cases x <;> simp

/-- A debug-only `ASSERT(cond, ...)` of /repo/include/mfmg/common/exceptions.hpp:44-57:
aborts when `MFMG_DEBUG` is defined and the condition fails, no-op in release. -/
def assert (debug : Bool) (cond : Bool) : Outcome Unit :=
  if debug && !cond then aborted else ok ()

/-- `ASSERT_THROW(cond, msg)` of /repo/include/mfmg/common/exceptions.hpp:59-63:
throws `std::runtime_error` in every build mode. -/
def assertThrow (cond : Bool) (msg : String) : Outcome Unit :=
  if cond then ok () else throws msg

/-- Did the code finish without undefined behaviour?.
Of the outcomes of /repo/include/mfmg/common/exceptions.hpp:44-84 only undefined behaviour is excluded. -/
def noUB {α : Type u} : Outcome α → Prop
  | ub _ => False
  | _ => True

/-- Checked element access `v[i]`; out of range is undefined behaviour.
`std::vector::operator[]` is not checked in any build mode; used all over the code, e.g.
/repo/include/mfmg/common/hierarchy.hpp:177, 250. -/
def get {α : Type u} (v : List α) (i : Nat) (why : String) : Outcome α :=
  match v[i]? with
  | some a => ok a
  | none => ub why

/-- Dereferencing a possibly null pointer.
Results of `dynamic_pointer_cast` are dereferenced without a check, e.g.
/repo/source/dealii/dealii_solver.cc:34-37. -/
def deref {α : Type u} (p : Option α) (why : String) : Outcome α :=
  match p with
  | some a => ok a
  | none => ub why

@[simp] theorem deref_some {α : Type u} (a : α) (w : String) : deref (some a) w = ok a := rfl
@[simp] theorem deref_none {α : Type u} (w : String) : deref (none : Option α) w = ub w := rfl

end Outcome

end Mfmg
