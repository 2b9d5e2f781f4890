import Verif.Model.DeviceMemory

/-!
# Specification: device memory is released exactly once
-/

set_option autoImplicit false

namespace Mfmg

/-- The allocations an object holds. -/
def SpObj.ptrs (o : SpObj) : List ℕ :=
  o.val.toList ++ o.col.toList ++ o.rowPtr.toList ++ o.descr.toList

/-- The allocations all objects hold. -/
def ownedPtrs (objs : List (Option SpObj)) : List ℕ :=
  objs.flatMap fun o => match o with
    | some o => o.ptrs
    | none => []

/-- The number of allocations that nothing holds any more: they can never be freed. -/
def MemState.leaked (s : MemState) : ℕ := s.heap.live.length - (ownedPtrs s.objs).length

/-- How many pointers the object `i` holds. -/
def MemState.holds (s : MemState) (i : ℕ) : ℕ :=
  match s.objs[i]? with
  | some (some o) => o.ptrs.length
  | _ => 0

/-- How many arrays the object `i` holds. -/
def MemState.holdsArrays (s : MemState) (i : ℕ) : ℕ :=
  match s.objs[i]? with
  | some (some o) => (o.val.toList ++ o.col.toList ++ o.rowPtr.toList).length
  | _ => 0

/-- What each call leaks: a product two arrays, an assignment or reinitialisation everything its target
held, a matrix product on several processes the arrays of its target, everything else nothing. -/
def MemCall.leaks (s : MemState) : MemCall → ℕ
  | .vmult _ => 2
  | .moveAssign i _ => s.holds i
  | .reinit i => s.holds i
  | .mmult false c _ _ => s.holdsArrays c
  | _ => 0

/-- The leaks of a history, call by call. -/
def leaksAlong (debug : Bool) : MemState → List MemCall → ℕ
  | _, [] => 0
  | s, c :: cs => c.leaks s + match memStep debug s c with
    | .ok s' => leaksAlong debug s' cs
    | _ => 0

/-- Calls that never leak. -/
def MemCall.Clean : MemCall → Prop
  | .vmult _ => False
  | .moveAssign _ _ => False
  | .reinit _ => False
  | .mmult false _ _ _ => False
  | _ => True

/-- `A.mmult(C, B)` with `C` a different object than `A` and `B`, if it runs on one process. -/
def MemCall.NoAlias : MemCall → Prop
  | .mmult true c a b => c ≠ a ∧ c ≠ b
  | _ => True

/-- The errors that must not happen. -/
def MemoryError {α : Type} (r : Outcome α) : Prop :=
  r = .ub "double free" ∨ r = .ub "use after free" ∨ r = .ub "uninitialised read"

end Mfmg
