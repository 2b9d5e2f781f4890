import Verif.Spec.DeviceNnz
import Mathlib.Data.Nat.Basic
import Mathlib.Algebra.Order.BigOperators.Group.List
import Mathlib.Data.List.Range
import Mathlib.Algebra.Order.Group.Nat

/-!
# C50: the number of nonzeros
-/

set_option autoImplicit false

namespace Mfmg

/-- What a process stores for a matrix. -/
def storedNnz (rank : ℕ) (c : Option RankCounts) : NnzObj := ⟨c.map (· rank), c.map (· rank)⟩

theorem nnzStep_eq (np rank : ℕ) (s : List (Option RankCounts)) (c : NnzCall) :
    nnzStep np rank (s.map (storedNnz rank)) c = (idealNnzStep s c).map (storedNnz rank) := by
  cases c with
  | default => simp [nnzStep, idealNnzStep, storedNnz]
  | construct counts => simp [nnzStep, idealNnzStep, storedNnz, NnzObj.store]
  | move i =>
    simp only [nnzStep, idealNnzStep, List.getElem?_map]
    cases s[i]? with
    | none => rfl
    | some o => simp [List.map_set, storedNnz]
  | copy i =>
    simp only [nnzStep, idealNnzStep, List.getElem?_map]
    cases s[i]? with
    | none => rfl
    | some o => simp
  | assign i j =>
    simp only [nnzStep, idealNnzStep, List.getElem?_map]
    cases s[j]? with
    | none => rfl
    | some o => simp [List.map_set, storedNnz]
  | reinit i counts => simp [nnzStep, idealNnzStep, List.map_set, storedNnz, NnzObj.store]
  | product i counts =>
    simp only [nnzStep, idealNnzStep, List.map_set, storedNnz, NnzObj.store, Option.map_some]
    split_ifs <;> rfl

/-- **C50 (exact result).**  After any history, every process reports for a matrix with content the number of
entries stored on this process, and a matrix without content has no number to report. -/
theorem C50_exact (np rank : ℕ) (calls : List NnzCall) (i : ℕ) :
    (∀ counts, (idealNnz calls)[i]? = some (some counts) →
      reportedNnz (nnzRun np rank calls) i = .ok (counts rank)) ∧
    ((idealNnz calls)[i]? = some none →
      ∃ why, reportedNnz (nnzRun np rank calls) i = .ub why) := by
  have h : nnzRun np rank calls = (idealNnz calls).map (storedNnz rank) := by
    have key : ∀ (cs : List NnzCall) (s : List (Option RankCounts)),
        cs.foldl (nnzStep np rank) (s.map (storedNnz rank))
          = (cs.foldl idealNnzStep s).map (storedNnz rank) := by
      intro cs
      induction cs with
      | nil => intro s; rfl
      | cons c cs ih => intro s; rw [List.foldl_cons, nnzStep_eq, ih]; rfl
    exact key calls []
  constructor
  · intro counts hc
    rw [h, reportedNnz, Outcome.get, List.getElem?_map, hc]
    rfl
  · intro hc
    refine ⟨"_nnz is not initialised", ?_⟩
    rw [h, reportedNnz, Outcome.get, List.getElem?_map, hc]
    rfl

/-- **C50 (part).**  Full statement: for any number of processes, the reported number is the global number of
nonzeros.  Proved: for one process.  Missing: several processes, for which it is false (`C50_violated`). -/
theorem C50_serial_partial (calls : List NnzCall) (i : ℕ) (counts : RankCounts)
    (h : (idealNnz calls)[i]? = some (some counts)) :
    reportedNnz (nnzRun 1 0 calls) i = .ok (globalNnz 1 counts) := by
  rw [(C50_exact 1 0 calls i).1 counts h]
  simp [globalNnz]

/-- **C50 (violated).**  On `np` processes a process reports the global number exactly if all other processes
store nothing. -/
theorem C50_violated (np rank : ℕ) (hr : rank < np) (calls : List NnzCall) (i : ℕ)
    (counts : RankCounts) (h : (idealNnz calls)[i]? = some (some counts)) :
    reportedNnz (nnzRun np rank calls) i = .ok (globalNnz np counts) ↔
      ∀ q < np, q ≠ rank → counts q = 0 := by
  rw [(C50_exact np rank calls i).1 counts h]
  have hperm : (List.range np).Perm (rank :: (List.range np).erase rank) :=
    List.perm_cons_erase (List.mem_range.2 hr)
  have hsum : globalNnz np counts = counts rank + (((List.range np).erase rank).map counts).sum := by
    unfold globalNnz
    rw [(hperm.map counts).sum_eq, List.map_cons, List.sum_cons]
  rw [hsum]
  constructor
  · intro e q hq hne
    have e : counts rank = counts rank + (((List.range np).erase rank).map counts).sum := by
      simpa using e
    have hz : (((List.range np).erase rank).map counts).sum = 0 := by omega
    rw [List.sum_eq_zero_iff] at hz
    exact hz _ (List.mem_map_of_mem ((List.mem_erase_of_ne hne).2 (List.mem_range.2 hq)))
  · intro hz
    have : (((List.range np).erase rank).map counts).sum = 0 := by
      rw [List.sum_eq_zero_iff]
      intro x hx
      obtain ⟨q, hq, rfl⟩ := List.mem_map.1 hx
      rw [List.Nodup.mem_erase_iff List.nodup_range] at hq
      exact hz q (List.mem_range.1 hq.2) hq.1
    rw [this, Nat.add_zero]

/-- Two processes with 3 and 4 entries; the matrix is moved and copied. -/
def exNnz : List NnzCall := [.construct (fun r => [3, 4].getD r 0), .default, .assign 1 0, .copy 1]

example : (idealNnz exNnz)[2]? = some (some fun r => [3, 4].getD r 0) := rfl

example : reportedNnz (nnzRun 2 1 exNnz) 2 = .ok 4 ∧ globalNnz 2 (fun r => [3, 4].getD r 0) = 7 :=
  ⟨rfl, rfl⟩

end Mfmg
