import Verif.Model.DeviceThreads

/-!
# Specification: threads that apply device operators
-/

set_option autoImplicit false

namespace Mfmg.Spec

open Mfmg

variable {ι K : Type} [NonUnitalNonAssocSemiring K]

/-- Two threads are about to access the same thing, and one of them to write to it.  The behaviour of a C++
program that gets into such a state is undefined. -/
def Racing (s : OpSystem ι K) : Prop :=
  ∃ k l, k ≠ l ∧ ∃ c, c ∈ opWrites s.shared (s.threads k) ∧
    (c ∈ opWrites s.shared (s.threads l) ∨ c ∈ opReads s.shared (s.threads l))

/-- No order of the steps leads to undefined behaviour. -/
def ThreadSafe [DecidableEq ι] (debug : Bool) (s : OpSystem ι K) : Prop :=
  ∀ sched, ∃ t, s.run debug sched = .ok t ∧ ¬ Racing t

/-- The threads are at the beginning, and all pointers point to matrices. -/
structure Beginning (s : OpSystem ι K) : Prop where
  pc : ∀ k, (s.threads k).pc = .check
  results : ∀ k, (s.threads k).results = []
  matrix : ∀ i, (s.shared.ops i).matrix < s.shared.heap.length
  transposed : ∀ i p, (s.shared.ops i).transposed = some p → p < s.shared.heap.length

/-- The thread will apply the transpose of operator `i`. -/
def WillTranspose (th : OpThread K) (i : ℕ) : Prop := ∃ u ∈ th.uses, u.op = i ∧ u.tr = true

/-- The operator as seen by a single thread (`Model/DeviceOperator.lean`). -/
def operatorOf (sh : DevShared K) (i : ℕ) : Option (CudaOp K) :=
  match sh.heap[(sh.ops i).matrix]?, (sh.ops i).transposed with
  | some a, none => some { matrix := a, transposed := none }
  | some a, some p => sh.heap[p]?.map fun t => { matrix := a, transposed := some t }
  | none, _ => none

/-- The results of the calls, each one made by a single thread with the operators of `sh`. -/
def resultsAlone (debug : Bool) (sh : DevShared K) :
    List (OpUse K) → List (Outcome (List K)) → List (Outcome (List K))
  | [], r => r
  | u :: us, r =>
    resultsAlone debug sh us (r ++ [do
      let o ← Outcome.deref (operatorOf sh u.op) "no such operator"
      let z ← cudaApply debug o u.tr (u.args r).1 (u.args r).2
      pure z.2])

end Mfmg.Spec
