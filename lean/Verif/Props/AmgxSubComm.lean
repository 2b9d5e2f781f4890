import Verif.Spec.AmgxSubComm
import Verif.Props.AmgxComm

/-!
# The communication lists for AMGX on a part of the processes (C105)
-/

set_option autoImplicit false

namespace Mfmg

theorem subCommOn_eq (n : ℕ) (W : List ProcPattern) (comm : List ℕ) (k : ℕ) (p : ProcPattern) :
    subCommOn n W comm k p = commOn n (W.take comm.length) k p := by
  unfold subCommOn subCommSetup commOn
  rw [List.map_take]

theorem matrixOn_range (W : List ProcPattern) (m : ℕ) (hm : m ≤ W.length) :
    matrixOn W (List.range m) = W.take m := by
  apply List.ext_getElem
  · simp [matrixOn, hm]
  · intro i h1 h2
    have : i < W.length := by
      simp only [List.length_take] at h2
      omega
    simp [matrixOn, this]

/-- The communicators for which the claim holds: the first processes of the world, in the same order.  Missing for
the full claim "every communicator": see `C105_other_communicators_violated`. -/
theorem C105_first_processes_partial (n m : ℕ) (W : List ProcPattern) (hm : m ≤ W.length)
    (hP : DistributedPattern n (matrixOn W (List.range m)))
    (hsym : StructurallySymmetric (matrixOn W (List.range m))) : ListsFit n W (List.range m) := by
  unfold ListsFit
  simp only [subCommOn_eq, List.length_range]
  rw [matrixOn_range W m hm] at hP hsym ⊢
  exact C51_symmetric n _ hP hsym

/-- On a communicator of one process nothing is exchanged, wherever the process is. -/
theorem C105_one_process (n w : ℕ) (W : List ProcPattern)
    (hP : DistributedPattern n (matrixOn W [w])) : ListsFit n W [w] := by
  have hlist : matrixOn W [w] = [W.getD w []] := rfl
  have hsym : SymmetricNeeds (matrixOn W [w]) := by
    rw [hlist]
    intro p hp q hq h
    rw [List.mem_singleton] at hp hq
    subst hp hq
    exact h
  obtain ⟨lists, h1, h2⟩ := C51_consistent n _ hP hsym
  refine ⟨lists, fun k pat hk => ?_, h2⟩
  obtain ⟨c, hc, hok⟩ := h1 k pat hk
  refine ⟨c, hc, ?_⟩
  have hk0 : k = 0 := by
    rw [hlist] at hk
    cases k with
    | zero => rfl
    | succ k => simp at hk
  subst hk0
  rw [← hok, subCommOn_eq]
  unfold commOn commSetup
  cases W with
  | nil => simp [matrixOn, sendLoop, recvLoop]
  | cons q W => simp [matrixOn, sendLoop, recvLoop]

/-- The part of process `w` of the world in the example that breaks the claim: on the communicator a diagonal
matrix with one row per process, on every other process a matrix of its own with all entries. -/
def diagonalOn (comm : List ℕ) (w : ℕ) : ProcPattern :=
  if w ∈ comm then [(comm.idxOf w, [comm.idxOf w])]
  else (List.range comm.length).map fun g => (g, List.range comm.length)

theorem matrixOn_diagonalOn {size : ℕ} {comm : List ℕ} (hc : IsCommunicator size comm) :
    matrixOn ((List.range size).map (diagonalOn comm)) comm
      = (List.range comm.length).map fun k => [(k, [k])] := by
  apply List.ext_getElem
  · simp [matrixOn]
  · intro i h1 h2
    have hi : i < comm.length := by simpa using h2
    have hw : comm[i] < size := hc.range _ (List.getElem_mem hi)
    simp [matrixOn, hw, diagonalOn, hc.nodup.idxOf_getElem i hi]

theorem diagonal_distributed (m : ℕ) :
    DistributedPattern m ((List.range m).map fun k => [(k, [k])]) := by
  refine ⟨?_, ?_, ?_⟩
  · unfold IsPartition
    have : (((List.range m).map fun k => [(k, [k])]).map ProcPattern.rows).flatten = List.range m := by
      rw [List.map_map, ← List.flatMap_def]
      have : (ProcPattern.rows ∘ fun k : ℕ => [(k, [k])]) = fun k => [k] := by
        funext k; rfl
      rw [this]
      simp
    rw [this]
  · intro p hp
    obtain ⟨k, -, rfl⟩ := List.mem_map.1 hp
    simp [ProcPattern.rows]
  · intro p hp c hcc
    obtain ⟨k, hk, rfl⟩ := List.mem_map.1 hp
    simp only [ProcPattern.cols, List.flatMap_cons, List.flatMap_nil, List.append_nil,
      List.mem_singleton] at hcc
    subst hcc
    exact List.mem_range.1 hk

theorem diagonal_symmetric (m : ℕ) :
    StructurallySymmetric ((List.range m).map fun k => [(k, [k])]) := by
  intro p hp e he c hcc
  obtain ⟨k, hk, rfl⟩ := List.mem_map.1 hp
  simp only [List.mem_singleton] at he
  subst he
  simp only [List.mem_singleton] at hcc
  subst hcc
  exact ⟨_, hp, _, List.mem_singleton.2 rfl, rfl, by simp⟩

/-- The claim fails on every communicator of at least two processes that is not made of the first processes of the
world in their order: there is a matrix (a diagonal one, for which nothing has to be exchanged) whose lists are
wrong. -/
theorem C105_other_communicators_violated {size : ℕ} {comm : List ℕ} (hc : IsCommunicator size comm)
    (h2 : 2 ≤ comm.length) (hne : comm ≠ List.range comm.length) :
    ∃ W : List ProcPattern, W.length = size ∧ DistributedPattern comm.length (matrixOn W comm) ∧
      StructurallySymmetric (matrixOn W comm) ∧ ¬ ListsFit comm.length W comm := by
  refine ⟨(List.range size).map (diagonalOn comm), by simp, ?_, ?_, ?_⟩
  · rw [matrixOn_diagonalOn hc]; exact diagonal_distributed _
  · rw [matrixOn_diagonalOn hc]; exact diagonal_symmetric _
  -- a process with another rank in the world
  obtain ⟨i, hi, hwi⟩ : ∃ (i : ℕ) (hi : i < comm.length), comm[i] ≠ i := by
    by_contra hall
    push Not at hall
    exact hne (List.ext_getElem (by simp) fun i h1 h2 => by simp [hall i h1])
  have hlen : comm.length ≤ size := by
    have := (List.subperm_of_subset hc.nodup (l₂ := List.range size)
      (fun w hw => List.mem_range.2 (hc.range w hw))).length_le
    simpa using this
  -- a process `r ≠ i` that sees its row among the columns of process `i` of the world
  obtain ⟨r, hr, hri, hcol⟩ : ∃ r, r < comm.length ∧ r ≠ i ∧ r ∈ (diagonalOn comm i).cols := by
    by_cases him : i ∈ comm
    · refine ⟨comm.idxOf i, List.idxOf_lt_length_of_mem him, fun he => hwi ?_, ?_⟩
      · have := List.getElem_idxOf (List.idxOf_lt_length_of_mem him)
        simp only [he] at this
        exact this
      · simp [diagonalOn, him, ProcPattern.cols]
    · refine ⟨if i = 0 then 1 else 0, by split_ifs <;> omega, by split_ifs <;> omega, ?_⟩
      rw [diagonalOn, if_neg him]
      simp only [ProcPattern.cols, List.mem_flatMap, List.mem_map]
      refine ⟨_, ⟨i, List.mem_range.2 hi, rfl⟩, List.mem_range.2 ?_⟩
      split_ifs <;> omega
  rintro ⟨lists, hl, hcons⟩
  rw [matrixOn_diagonalOn hc] at hl hcons
  have hpat : ((List.range comm.length).map fun k => [(k, [k])])[r]? = some [(r, [r])] := by
    simp [hr]
  obtain ⟨c, hcr, hok⟩ := hl r _ hpat
  rw [subCommOn_eq] at hok
  obtain ⟨sent, -, -, e⟩ := commOn_eq comm.length
    (((List.range size).map (diagonalOn comm)).take comm.length) r [(r, [r])]
  rw [e] at hok
  have hmem : (diagonalOn comm i, i) ∈ sendSide (((List.range size).map (diagonalOn comm)).take comm.length) r
      [(r, [r])] := by
    unfold sendSide
    rw [List.mem_filter]
    refine ⟨?_, ?_⟩
    · rw [List.mem_zipIdx_iff_getElem?]
      simp [hi, Nat.lt_of_lt_of_le hi hlen]
    · simp only [Bool.and_eq_true, decide_eq_true_eq]
      exact ⟨Ne.symm hri, r, by simp [ProcPattern.rows], hcol⟩
  split_ifs at hok with hle
  injection hok with hok
  have hn : i ∈ c.neighbors := by
    rw [← hok]
    exact List.mem_map.2 ⟨_, hmem, rfl⟩
  obtain ⟨-, qat, hq, hneeds⟩ := ((hcons.neighbors r _ c hpat hcr).2.2.2 i).1 hn
  have hq' : qat = [(i, [i])] := by
    simpa [hi] using hq.symm
  subst hq'
  obtain ⟨g, hg, hg'⟩ := hneeds
  simp only [ProcPattern.rows, ProcPattern.cols, List.map_cons, List.map_nil, List.flatMap_cons,
    List.flatMap_nil, List.append_nil, List.mem_singleton] at hg hg'
  exact hri (hg.symm.trans hg')

/-- The communicators of at least two processes on which the lists fit for every matrix. -/
theorem C105_iff {size : ℕ} {comm : List ℕ} (hc : IsCommunicator size comm) (h2 : 2 ≤ comm.length) :
    (∀ (n : ℕ) (W : List ProcPattern), W.length = size → DistributedPattern n (matrixOn W comm) →
      StructurallySymmetric (matrixOn W comm) → ListsFit n W comm) ↔ comm = List.range comm.length := by
  constructor
  · intro h
    by_contra hne
    obtain ⟨W, h1, h3, h4, h5⟩ := C105_other_communicators_violated hc h2 hne
    exact h5 (h _ W h1 h3 h4)
  · intro he n W hW hP hsym
    have hle : comm.length ≤ W.length := by
      rw [hW]
      have := (List.subperm_of_subset hc.nodup (l₂ := List.range size)
        (fun w hw => List.mem_range.2 (hc.range w hw))).length_le
      simpa using this
    rw [he] at hP hsym ⊢
    exact C105_first_processes_partial n _ W hle hP hsym

/-- Four processes; the processes 0 and 1 have a tridiagonal matrix, the processes 2 and 3 another one. -/
def exTwoHalves : List ProcPattern :=
  [[(0, [0, 1]), (1, [0, 1, 2])], [(2, [1, 2, 3]), (3, [2, 3])], [(0, [0])], [(1, [1])]]

example : ListsFit 4 exTwoHalves (List.range 2) := by
  refine C105_first_processes_partial 4 2 exTwoHalves (by decide) ⟨?_, ?_, ?_⟩ ?_
  · unfold IsPartition; decide
  · decide
  · decide
  · unfold StructurallySymmetric; decide

example : ListsFit 1 exTwoHalves [2] := by
  refine C105_one_process 1 2 exTwoHalves ⟨?_, ?_, ?_⟩
  · unfold IsPartition; decide
  · decide
  · decide

/-- The second half of four processes, and the first two processes in another order. -/
example : (∃ W : List ProcPattern, W.length = 4 ∧ DistributedPattern 2 (matrixOn W [2, 3]) ∧
      StructurallySymmetric (matrixOn W [2, 3]) ∧ ¬ ListsFit 2 W [2, 3]) ∧
    ∃ W : List ProcPattern, W.length = 4 ∧ DistributedPattern 2 (matrixOn W [1, 0]) ∧
      StructurallySymmetric (matrixOn W [1, 0]) ∧ ¬ ListsFit 2 W [1, 0] :=
  ⟨C105_other_communicators_violated (comm := [2, 3]) ⟨by decide, by decide⟩ (by decide) (by decide),
    C105_other_communicators_violated (comm := [1, 0]) ⟨by decide, by decide⟩ (by decide) (by decide)⟩

example : ¬ ∀ (n : ℕ) (W : List ProcPattern), W.length = 4 → DistributedPattern n (matrixOn W [0, 2]) →
    StructurallySymmetric (matrixOn W [0, 2]) → ListsFit n W [0, 2] := by
  rw [C105_iff ⟨by decide, by decide⟩ (by decide)]
  decide

end Mfmg
