import Verif.Model.Collective
import Verif.Spec.Restriction

/-!
# Specification: collective calls

The semantics of collective calls, and what it means that nobody waits for ever.
-/

set_option autoImplicit false

namespace Mfmg

variable {α : Type}

/-- All members of the communicator `c` wait in the same call. -/
def Meets (c : List ℕ) (op : String) (send : ℕ → ℕ) (next : ℕ → List ℕ → Proc α)
    (s : ℕ → Proc α) : Prop :=
  c ≠ [] ∧ ∀ r ∈ c, s r = .call c op (send r) (next r)

/-- One collective call on `c` takes place: the members go on with what the members sent, the other
processes do not move.  `s r` is what the process with world rank `r` has still to do. -/
inductive MpiStep (c : List ℕ) : (ℕ → Proc α) → (ℕ → Proc α) → Prop
  | mk (s : ℕ → Proc α) (op : String) (send : ℕ → ℕ) (next : ℕ → List ℕ → Proc α)
      (h : Meets c op send next s) :
      MpiStep c s fun r => if r ∈ c then next r (c.map send) else s r

/-- An execution: the communicators on which calls took place, in order. -/
inductive Executes : List (List ℕ) → (ℕ → Proc α) → (ℕ → Proc α) → Prop
  | nil (s : ℕ → Proc α) : Executes [] s s
  | cons (c : List ℕ) (cs : List (List ℕ)) (s t u : ℕ → Proc α) :
      MpiStep c s t → Executes cs t u → Executes (c :: cs) s u

/-- The process has ended (returned, or left with an exception or an abort). -/
def Ended (p : Proc α) : Prop := ∃ o, p = .done o

/-- The process has returned the value. -/
def Returned (p : Proc α) (a : α) : Prop := p = .done (.ok a)

/-- No member of `c` ever waits in vain: whatever has happened, and whatever the processes outside `c`
do, either all members have ended or they all wait in the same call; and there are at most `N` calls
in any execution. -/
def NobodyWaits (c : List ℕ) (s : ℕ → Proc α) : Prop :=
  ∃ N, ∀ cs t, Executes cs s t →
    cs.count c ≤ N ∧ ((∀ r ∈ c, Ended (t r)) ∨ ∃ u, MpiStep c t u)

/-- The process `r` never ends, whatever happens. -/
def WaitsForEver (s : ℕ → Proc α) (r : ℕ) : Prop :=
  ∀ cs t, Executes cs s t → ¬ Ended (t r)

/-- The eigenvectors found for an agglomerate. -/
def vectorCount {K : Type} : Outcome (CopyData K) → ℕ
  | .ok c => c.eigenvectors.length
  | _ => 0

/-- The rows of the restriction matrix of a level that belong to a process: the eigenvectors of its
agglomerates. -/
def LocalInput.rowCount {K : Type} (L : LocalInput K) (l : ℕ) : ℕ :=
  ((L.work l).map vectorCount).sum

/-- The own computations of a process succeed. -/
structure LocalInput.Fine {K : Type} (I : SetupInput) (L : LocalInput K) : Prop where
  /-- The eigenproblem of every agglomerate is solved and gives vectors of the right length. -/
  work : ∀ l, ∀ o ∈ L.work l, ∃ c : CopyData K, o = .ok c ∧ c.WellFormed
  fastWork : ∀ l, L.fastWork l = .ok ()
  /-- The debug check of the own rows succeeds. -/
  weights : I.debug = true → L.weightsOk = true

/-- The members of `c` before `r`. -/
def membersBefore (c : List ℕ) (r : ℕ) : List ℕ := c.takeWhile (· != r)

end Mfmg
