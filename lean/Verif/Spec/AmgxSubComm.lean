import Verif.Model.AmgxSubComm
import Verif.Spec.AmgxComm

/-!
# Specification: communication lists on a part of the processes
-/

set_option autoImplicit false

namespace Mfmg

/-- A communicator made of `comm.length` processes of a world of `size` processes: process `k` of the
communicator has the rank `comm[k]` in the world. -/
structure IsCommunicator (size : ℕ) (comm : List ℕ) : Prop where
  nodup : comm.Nodup
  range : ∀ w ∈ comm, w < size

/-- The matrix of the communicator: the parts of its processes.  `W` are the parts that the processes of the
world have of the matrices of their communicators. -/
def matrixOn (W : List ProcPattern) (comm : List ℕ) : List ProcPattern := comm.map fun w => W.getD w []

/-- The lists that the constructor makes on process `k` of the communicator. -/
def subCommOn (n : ℕ) (W : List ProcPattern) (comm : List ℕ) (k : ℕ) (p : ProcPattern) : Outcome AmgxComm :=
  subCommSetup n k comm.length (W.map fun q => patternBuffer q.rows q.cols) p.rows p.cols

/-- All processes of the communicator get lists, and these fit together. -/
def ListsFit (n : ℕ) (W : List ProcPattern) (comm : List ℕ) : Prop :=
  ∃ lists : List AmgxComm,
    (∀ (k : ℕ) (pat : ProcPattern), (matrixOn W comm)[k]? = some pat →
      ∃ c, lists[k]? = some c ∧ subCommOn n W comm k pat = .ok c) ∧
    ConsistentLists (matrixOn W comm) lists

end Mfmg
