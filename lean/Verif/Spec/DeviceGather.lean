import Mathlib.Data.Nat.Notation
import Mathlib.Data.List.Perm.Basic
import Mathlib.Algebra.BigOperators.Group.List.Basic

/-!
# Specification: distributed vectors
-/

set_option autoImplicit false

namespace Mfmg

variable {K : Type}

/-- The index lists (one per process) partition `0, …, size-1`. -/
def IsPartition (size : ℕ) (owned : List (List ℕ)) : Prop :=
  owned.flatten.Perm (List.range size)

/-- `values` are the local parts of the global vector `x` under the distribution `owned`. -/
def Distributes (owned : List (List ℕ)) (x : ℕ → K) (values : List (List K)) : Prop :=
  values = owned.map (List.map x)

/-- The schedules of a kernel with `threads` threads. -/
def IsSchedule (threads : ℕ) (schedule : List ℕ) : Prop := schedule.Perm (List.range threads)

/-- The product of a row with a vector. -/
def rowTimes [AddMonoid K] [Mul K] (row : List (ℕ × K)) (x : ℕ → K) : K :=
  (row.map fun e => e.2 * x e.1).sum

end Mfmg
