import Verif.Spec.DeviceSmoother
import Verif.Props.Amgx
import Verif.Props.DeviceGather
import Mathlib.Algebra.Field.Basic
import Mathlib.Algebra.Field.Rat
import Mathlib.Tactic.Ring

/-!
# C49: the device Jacobi smoother
-/

set_option autoImplicit false

namespace Mfmg

variable {K : Type}

/-- A kernel each of whose threads writes at most one element, and in which no two threads write different
values to the same place, leaves these values, in whatever order the threads run. -/
theorem kernel_writes {α : Type} (n : ℕ) (w : ℕ → Option (ℕ × α))
    (step : List α → ℕ → Outcome (List α))
    (hstep : ∀ out i, out.length = n →
      step out i = .ok (match w i with | none => out | some (p, v) => out.set p v))
    (hlt : ∀ i p v, w i = some (p, v) → p < n)
    (huniq : ∀ i j p v v', w i = some (p, v) → w j = some (p, v') → v = v')
    (sched : List ℕ) (out : List α) (hout : out.length = n) :
    ∃ out', sched.foldlM step out = .ok out' ∧ out'.length = n ∧
      (∀ i ∈ sched, ∀ p v, w i = some (p, v) → out'[p]? = some v) ∧
      ∀ p, (∀ i ∈ sched, ∀ v, w i ≠ some (p, v)) → out'[p]? = out[p]? := by
  -- a place that already holds the value written to it keeps it
  have key : ∀ (sched : List ℕ) (out : List α), out.length = n →
      ∃ out', sched.foldlM step out = .ok out' ∧ out'.length = n ∧
      (∀ i ∈ sched, ∀ p v, w i = some (p, v) → out'[p]? = some v) ∧
      (∀ p, (∀ i ∈ sched, ∀ v, w i ≠ some (p, v)) → out'[p]? = out[p]?) ∧
      ∀ i p v, w i = some (p, v) → out[p]? = some v → out'[p]? = some v := by
    intro sched
    induction sched with
    | nil =>
      intro out h
      exact ⟨out, rfl, h, by simp, fun _ _ => rfl, fun _ _ _ _ h => h⟩
    | cons i sched ih =>
      intro out h
      rw [List.foldlM_cons, hstep out i h, Outcome.ok_bind]
      cases hw : w i with
      | none =>
        obtain ⟨out', h1, h2, h3, h4, h5⟩ := ih out h
        refine ⟨out', h1, h2, ?_, ?_, h5⟩
        · intro j hj p v hv
          rcases List.mem_cons.1 hj with rfl | hj
          · rw [hw] at hv; simp at hv
          · exact h3 j hj p v hv
        · intro p hp
          exact h4 p (fun j hj => hp j (List.mem_cons_of_mem _ hj))
      | some pv =>
        obtain ⟨p, v⟩ := pv
        have hp := hlt i p v hw
        obtain ⟨out', h1, h2, h3, h4, h5⟩ := ih (out.set p v) (by simpa using h)
        refine ⟨out', h1, h2, ?_, ?_, ?_⟩
        · intro j hj p' v' hv
          rcases List.mem_cons.1 hj with rfl | hj
          · rw [hw] at hv
            cases hv
            exact h5 j p v hw (by simp [h, hp])
          · exact h3 j hj p' v' hv
        · intro p' hp'
          rw [h4 p' (fun j hj => hp' j (List.mem_cons_of_mem _ hj)), List.getElem?_set_ne]
          rintro rfl
          exact hp' i List.mem_cons_self v hw
        · intro j p' v' hv hold
          apply h5 j p' v' hv
          by_cases hpp : p = p'
          · subst hpp
            rw [huniq i j p v v' hw hv]
            simp [h, hp]
          · rw [List.getElem?_set_ne hpp]; exact hold
  obtain ⟨out', h1, h2, h3, h4, -⟩ := key sched out hout
  exact ⟨out', h1, h2, h3, h4⟩

theorem iota_ok (size value : ℕ) (sched : List ℕ) (h : IsSchedule (nBlocks size * 512) sched) :
    sched.foldlM (iotaThread size value) (List.replicate size 0)
      = .ok ((List.range size).map (· + value)) := by
  obtain ⟨out, h1, h2, h3, -⟩ := kernel_writes size
    (fun i => if i < size then some (i, i + value) else none) (iotaThread size value) (by
      intro out i ho
      unfold iotaThread
      split_ifs with h1 h2
      · rfl
      · omega
      · rfl) (by
      intro i p v hv
      split_ifs at hv with hi
      cases hv; exact hi) (by
      intro i j p v v' hv hv'
      split_ifs at hv with hi
      split_ifs at hv' with hj
      cases hv; cases hv'; rfl) sched (List.replicate size 0) (by simp)
  rw [h1]
  congr 1
  apply List.ext_getElem?
  intro i
  by_cases hi : i < size
  · rw [h3 i (h.mem_iff.2 (List.mem_range.2 (by have := nBlocks_covers size; omega))) i (i + value)
      (if_pos hi)]
    simp [hi]
  · rw [List.getElem?_eq_none (by omega), List.getElem?_eq_none (by simp; omega)]

theorem mem_triples_iff (rows : List (List (ℕ × K))) (i c : ℕ) (v : K) :
    (i, c, v) ∈ triples rows ↔ ∃ h : i < rows.length, (c, v) ∈ rows[i] := by
  unfold triples
  simp only [List.mem_flatten, List.mem_map]
  constructor
  · rintro ⟨_, ⟨⟨r, j⟩, hr, rfl⟩, he⟩
    obtain ⟨e, he, h⟩ := List.mem_map.1 he
    simp only [Prod.mk.injEq] at h
    obtain ⟨rfl, rfl⟩ := h
    obtain ⟨h1, h2⟩ := List.getElem?_eq_some_iff.1 (List.mem_zipIdx_iff_getElem?.1 hr)
    simp only at h1 h2
    exact ⟨h1, h2 ▸ he⟩
  · rintro ⟨h, he⟩
    refine ⟨_, ⟨(rows[i], i), List.mem_zipIdx_iff_getElem?.2 (by simp [h]), rfl⟩, ?_⟩
    exact List.mem_map.2 ⟨(c, v), he, rfl⟩

theorem lookup_unique (r : List (ℕ × K)) (h : (r.map Prod.fst).Nodup) (c : ℕ) (v : K)
    (hv : (c, v) ∈ r) : r.lookup c = some v := by
  induction r with
  | nil => simp at hv
  | cons e r ih =>
    rw [List.map_cons, List.nodup_cons] at h
    rcases List.mem_cons.1 hv with rfl | hv
    · simp
    · have hne : c ≠ e.1 := by
        rintro rfl
        exact h.1 (List.mem_map.2 ⟨_, hv, rfl⟩)
      rw [List.lookup_cons]
      simp only [beq_eq_false_iff_ne.2 hne]
      exact ih h.2 hv

theorem lookup_none (r : List (ℕ × K)) (c : ℕ) (h : ∀ v, (c, v) ∉ r) : r.lookup c = none := by
  rw [List.lookup_eq_none_iff]
  intro e he
  simp only [bne_iff_ne, ne_eq]
  rintro rfl
  exact h e.2 he

/-- The value that the kernel leaves in row `i`. -/
def extractedDiag [Field K] (junk : ℕ → K) (rows : List (List (ℕ × K))) (i : ℕ) : K :=
  match (rows.getD i []).lookup i with
  | some v => 1 / v
  | none => junk i

theorem extract_ok [Field K] (junk : ℕ → K) (a : Csr K) (rows : List (List (ℕ × K)))
    (ha : a.HasRows rows) (hu : UniqueColumns rows) (sched : List ℕ)
    (hs : IsSchedule (nBlocks a.col.length * 512) sched) :
    sched.foldlM (extractThread a.col.length a.val a.col (csr2coo rows.length a.rowPtr))
      ((List.range rows.length).map junk)
      = .ok ((List.range rows.length).map (extractedDiag junk rows)) := by
  have ht : a.col.zip a.val = (triples rows).map Prod.snd := by
    rw [csr_flatten a rows ha, triples_snd]
  have hlen : (triples rows).length = a.col.length := by
    have := congrArg List.length ht
    rw [List.length_zip, List.length_map, ha.vals, ← ha.cols, Nat.min_self] at this
    exact this.symm
  have hvl : a.val.length = a.col.length := by rw [ha.vals, ha.cols]
  have hcv : ∀ k (hk : k < (triples rows).length),
      a.col[k]? = some (triples rows)[k].2.1 ∧ a.val[k]? = some (triples rows)[k].2.2 := by
    intro k hk
    have h1 : (a.col.zip a.val)[k]? = some (triples rows)[k].2 := by
      rw [ht, List.getElem?_map, List.getElem?_eq_getElem hk]; rfl
    rw [List.getElem?_zip_eq_some] at h1
    exact h1
  rw [csr2coo_eq rows a ha]
  have hmem : ∀ k (hk : k < (triples rows).length), ∃ h : (triples rows)[k].1 < rows.length,
      ((triples rows)[k].2.1, (triples rows)[k].2.2) ∈ rows[(triples rows)[k].1] := by
    intro k hk
    exact (mem_triples_iff rows _ _ _).1 (List.getElem_mem hk)
  obtain ⟨out, h1, h2, h3, h4⟩ := kernel_writes rows.length
    (fun k => match (triples rows)[k]? with
      | some t => if t.2.1 = t.1 then some (t.2.1, 1 / t.2.2) else none
      | none => none)
    (extractThread a.col.length a.val a.col ((triples rows).map Prod.fst)) (by
      intro out k ho
      unfold extractThread
      by_cases hk : k < a.col.length
      · have hk' : k < (triples rows).length := by omega
        rw [if_pos hk, List.getElem?_eq_getElem hk']
        simp only [Outcome.get, (hcv k hk').1, (hcv k hk').2, List.getElem?_map,
          List.getElem?_eq_getElem hk', Option.map_some, Outcome.ok_bind]
        obtain ⟨hl, -⟩ := hmem k hk'
        split_ifs with h1 h2
        · rfl
        · omega
        · rfl
      · rw [if_neg hk, List.getElem?_eq_none (by omega)]
        rfl) (by
      intro k p v hv
      split at hv
      · rename_i t ht'
        split_ifs at hv with hc
        cases hv
        obtain ⟨hk, e⟩ := List.getElem?_eq_some_iff.1 ht'
        obtain ⟨hl, -⟩ := hmem k hk
        rw [e] at hl
        omega
      · simp at hv) (by
      intro k l p v v' hv hv'
      split at hv
      · rename_i t ht'
        split at hv'
        · rename_i t' ht''
          split_ifs at hv with hc
          split_ifs at hv' with hc'
          obtain ⟨r, c, v⟩ := t
          obtain ⟨r', c', v'⟩ := t'
          simp only at hc hc' hv hv'
          subst hc hc'
          simp only [Option.some.injEq, Prod.mk.injEq] at hv hv'
          obtain ⟨rfl, rfl⟩ := hv
          obtain ⟨rfl, rfl⟩ := hv'
          obtain ⟨hl, hm⟩ := (mem_triples_iff rows _ _ _).1 (List.mem_of_getElem? ht')
          obtain ⟨_, hm'⟩ := (mem_triples_iff rows _ _ _).1 (List.mem_of_getElem? ht'')
          have hn := hu _ (List.getElem_mem hl)
          have e1 := lookup_unique _ hn _ _ hm
          have e2 := lookup_unique _ hn _ _ hm'
          rw [e1] at e2
          cases e2
          rfl
        · simp at hv'
      · simp at hv) sched ((List.range rows.length).map junk) (by simp)
  rw [h1]
  congr 1
  apply List.ext_getElem?
  intro i
  by_cases hi : i < rows.length
  · have hrow : rows.getD i [] = rows[i] := by simp [hi]
    have hr : ((List.range rows.length).map (extractedDiag junk rows))[i]?
        = some (extractedDiag junk rows i) := by simp [hi]
    rw [hr, extractedDiag, hrow]
    by_cases hex : ∃ v, (i, v) ∈ rows[i]
    · obtain ⟨v, hv⟩ := hex
      rw [lookup_unique _ (hu _ (List.getElem_mem hi)) i v hv]
      obtain ⟨k, hk, e⟩ := List.getElem_of_mem ((mem_triples_iff rows i i v).2 ⟨hi, hv⟩)
      apply h3 k (hs.mem_iff.2 (List.mem_range.2 (by have := nBlocks_covers a.col.length; omega)))
      rw [List.getElem?_eq_getElem hk, e]
      simp
    · push Not at hex
      rw [lookup_none _ i hex, h4 i]
      · simp [hi]
      · intro k _ v hv
        split at hv
        · rename_i t ht'
          obtain ⟨r, c, v'⟩ := t
          split_ifs at hv with hc
          simp only at hc hv
          subst hc
          simp only [Option.some.injEq, Prod.mk.injEq] at hv
          obtain ⟨rfl, -⟩ := hv
          obtain ⟨_, hm⟩ := (mem_triples_iff rows _ _ _).1 (List.mem_of_getElem? ht')
          exact hex _ hm
        · simp at hv
  · rw [List.getElem?_eq_none (by omega), List.getElem?_eq_none (by simp; omega)]

theorem diagonal_hasRows (first m : ℕ) (d : ℕ → K) :
    Csr.HasRows ⟨(List.range m).map d, (List.range m).map (· + first), (List.range (m + 1)).map (· + 0)⟩
      (diagonalRows first m d) := by
  have hlen : ∀ l : List ℕ, ((l.map fun i => [(first + i, d i)]).map List.length).sum = l.length := by
    intro l
    induction l with
    | nil => rfl
    | cons a l ih =>
      rw [List.map_cons, List.map_cons, List.sum_cons, ih, List.length_cons, List.length_cons,
        List.length_nil]
      omega
  constructor
  · rw [diagonalRows, hlen, List.length_map, List.length_range]
  · rw [diagonalRows, hlen, List.length_map, List.length_range]
  · rw [show (diagonalRows first m d).length = m by simp [diagonalRows]]
    apply List.map_congr_left
    intro i hi
    have hi := List.mem_range.1 hi
    simp only [rowStart, diagonalRows]
    rw [← List.map_take, hlen, List.length_take, List.length_range]
    omega
  · intro i h
    have hi : i < m := by simpa [diagonalRows] using h
    unfold Csr.row
    simp only [List.getD_eq_getElem?_getD, List.getElem?_map,
      List.getElem?_range (show i < m + 1 by omega),
      List.getElem?_range (show i + 1 < m + 1 by omega), Option.map_some, Option.getD_some]
    rw [show i + 1 + 0 - (i + 0) = 1 by omega, Nat.add_zero]
    apply List.ext_getElem?
    intro k
    cases k with
    | zero => simp [diagonalRows, hi, Nat.add_comm]
    | succ k => simp [diagonalRows]

/-- **C49 (exact result).**  For every matrix, distribution, schedule of the kernels and content of the new
memory, the smoother matrix on a process with `m` rows from row `first` on is diagonal, with the reciprocal
of the entry of local row `i` in *column `i`* (instead of column `first + i`), or whatever was in the memory if
there is no such entry. -/
theorem C49_exact [Field K] (sched : SmootherSchedule) (junk : ℕ → K) (first : ℕ) (owned : List ℕ)
    (a : Csr K) (rows : List (List (ℕ × K))) (ha : a.HasRows rows) (hu : UniqueColumns rows)
    (ho : owned.length = rows.length) (hf : owned[0]? = some first)
    (hs : sched.Valid rows.length a.col.length) :
    ∃ s, jacobiMatrix sched junk owned a = .ok s ∧
      s.HasRows (diagonalRows first rows.length fun i =>
        match (rows.getD i []).lookup i with
        | some v => 1 / v
        | none => junk i) := by
  refine ⟨_, ?_, diagonal_hasRows first rows.length _⟩
  unfold jacobiMatrix
  simp only [ho]
  rw [extract_ok junk a rows ha hu _ hs.extract, Outcome.ok_bind]
  simp only [Outcome.get, hf, Outcome.ok_bind]
  rw [iota_ok _ _ _ hs.columns, Outcome.ok_bind, iota_ok _ _ _ hs.pointers, Outcome.ok_bind]
  rfl

/-- **C49 (part).**  Full statement: on every process the smoother matrix is diagonal with the inverses of the
diagonal entries of the process's rows.  Proved: for processes whose rows start at 0, with nonzero diagonal
entries.  Missing: the other processes, for which it is false (`C49_violated`). -/
theorem C49_inverse_partial [Field K] (sched : SmootherSchedule) (junk : ℕ → K) (a : Csr K)
    (rows : List (List (ℕ × K))) (ha : a.HasRows rows) (hu : UniqueColumns rows) (hne : rows ≠ [])
    (diag : ℕ → K) (hd : ∀ i (h : i < rows.length), (i, diag i) ∈ rows[i])
    (hz : ∀ i < rows.length, diag i ≠ 0) (hs : sched.Valid rows.length a.col.length) :
    ∃ s d, jacobiMatrix sched junk (List.range rows.length) a = .ok s ∧
      s.HasRows (diagonalRows 0 rows.length d) ∧ ∀ i < rows.length, d i * diag i = 1 := by
  have hpos := List.length_pos_of_ne_nil hne
  obtain ⟨s, h1, h2⟩ := C49_exact sched junk 0 (List.range rows.length) a rows ha hu (by simp)
    (by simp [hpos]) hs
  refine ⟨s, _, h1, h2, ?_⟩
  intro i hi
  have hrow : rows.getD i [] = rows[i] := by simp [hi]
  simp only [hrow, lookup_unique _ (hu _ (List.getElem_mem hi)) i _ (hd i hi)]
  exact one_div_mul_cancel (hz i hi)

/-- **C49 (violated).**  On a process whose rows start at `first > 0`, the diagonal entries of the matrix have
no influence on the smoother: a row without an entry in column `i` (the local index) gets uninitialised
memory, whatever its diagonal entry in column `first + i`; a row with one gets the reciprocal of that
off-diagonal entry. -/
theorem C49_violated [Field K] (sched : SmootherSchedule) (junk : ℕ → K) (first m : ℕ)
    (hm : 0 < m) (a : Csr K) (rows : List (List (ℕ × K))) (ha : a.HasRows rows)
    (hu : UniqueColumns rows) (hl : rows.length = m) (hs : sched.Valid m a.col.length) :
    ∃ s d, jacobiMatrix sched junk (List.range' first m) a = .ok s ∧
      s.HasRows (diagonalRows first m d) ∧
      ∀ i (h : i < rows.length),
        ((∀ v, (i, v) ∉ rows[i]) → d i = junk i) ∧ ∀ v, (i, v) ∈ rows[i] → d i = 1 / v := by
  subst hl
  obtain ⟨s, h1, h2⟩ := C49_exact sched junk first (List.range' first rows.length) a rows ha hu
    (by simp) (by simp [hm]) hs
  refine ⟨s, _, h1, h2, ?_⟩
  intro i hi
  have hrow : rows.getD i [] = rows[i] := by simp [hi]
  constructor
  · intro h
    simp only [hrow, lookup_none _ i h]
  · intro v hv
    simp only [hrow, lookup_unique _ (hu _ (List.getElem_mem hi)) i v hv]

/-- **C49 (part): the sweep.**  Full statement: `apply` performs one step of the Jacobi iteration.  Proved on
one process, for all matrices with nonzero diagonal, right-hand sides, vectors, thread orders and contents of
uninitialised memory.  Missing: several processes (see `C49_violated`). -/
theorem C49_sweep_partial [Field K] (sched : SmootherSchedule) (junk : ℕ → K) (junk' : K) (a : Csr K)
    (rows : List (List (ℕ × K))) (ha : a.HasRows rows) (hu : UniqueColumns rows) (hne : rows ≠ [])
    (hcol : ∀ r ∈ rows, ∀ e ∈ r, e.1 < rows.length)
    (diag : ℕ → K) (hd : ∀ i (h : i < rows.length), (i, diag i) ∈ rows[i])
    (hz : ∀ i < rows.length, diag i ≠ 0) (hs : sched.Valid rows.length a.col.length)
    (sA sS : List ℕ) (hA : IsSchedule (nBlocks rows.length * 512) sA)
    (hS : IsSchedule (nBlocks rows.length * 512) sS) (b x : ℕ → K) :
    (jacobiMatrix sched junk (List.range rows.length) a >>= fun s =>
      smootherApply sA sS rows.length [List.range rows.length] junk' [a] [s]
        [(List.range rows.length).map b] [(List.range rows.length).map x])
      = .ok [(List.range rows.length).map (jacobiStep rows diag b x)] := by
  obtain ⟨s, d, h1, h2, h3⟩ := C49_inverse_partial sched junk a rows ha hu hne diag hd hz hs
  have hpart : IsPartition rows.length [List.range rows.length] := by simp [IsPartition]
  have hsl : (diagonalRows 0 rows.length d).length = rows.length := by simp [diagonalRows]
  have e1 := C61_vmult rows.length [List.range rows.length] hpart x [(List.range rows.length).map x]
    (by simp [Distributes]) sA hA junk' rows hcol a ha
  have hr : List.zipWith (· - ·) (rows.map fun r => rowTimes r x) ((List.range rows.length).map b)
      = (List.range rows.length).map (fun i => rowTimes (rows.getD i []) x - b i) := by
    apply List.ext_getElem
    · simp
    · intro i h4 h5
      have hi : i < rows.length := by simpa using h5
      simp [hi]
  have e2 := C61_vmult rows.length [List.range rows.length] hpart
    (fun i => rowTimes (rows.getD i []) x - b i)
    [(List.range rows.length).map (fun i => rowTimes (rows.getD i []) x - b i)]
    (by simp [Distributes]) sS hS junk' (diagonalRows 0 rows.length d) (by
      intro r hr e he
      obtain ⟨i, hi, rfl⟩ := List.mem_map.1 hr
      simp only [List.mem_singleton] at he
      subst he
      simpa using hi) s h2
  rw [hsl] at e2
  rw [h1, Outcome.ok_bind]
  unfold smootherApply subParts
  simp only [List.zip_cons_cons, List.zip_nil_right, List.mapM_cons, List.mapM_nil, List.length_range,
    e1, Outcome.ok_bind, Outcome.pure_eq, List.zipWith_cons_cons, List.zipWith_nil_right, hr, e2]
  congr 2
  apply List.ext_getElem
  · simp [hsl]
  · intro i h4 h5
    have hi : i < rows.length := by simpa using h5
    have hinv : d i = (diag i)⁻¹ := eq_inv_of_mul_eq_one_left (h3 i hi)
    simp only [List.getElem_zipWith, List.getElem_map, List.getElem_range, diagonalRows, jacobiStep,
      rowTimes, List.map_cons, List.map_nil, List.sum_cons, List.sum_nil, hinv]
    simp only [Nat.zero_add, add_zero]
    rw [div_eq_mul_inv, mul_comm]

/-- The thread orders of a launch exist: run the threads in turn. -/
def exSmootherSchedule (size nnz : ℕ) : SmootherSchedule :=
  ⟨List.range (nBlocks nnz * 512), List.range (nBlocks size * 512), List.range (nBlocks (size + 1) * 512)⟩

theorem exSmootherSchedule_valid (size nnz : ℕ) : (exSmootherSchedule size nnz).Valid size nnz :=
  ⟨List.Perm.refl _, List.Perm.refl _, List.Perm.refl _⟩

/-- A 2 by 2 matrix with an off-diagonal entry. -/
def exJacobiRows : List (List (ℕ × ℚ)) := [[(0, 4), (1, 1)], [(1, 2)]]

example : UniqueColumns exJacobiRows ∧ exJacobiRows ≠ [] ∧
    (∀ r ∈ exJacobiRows, ∀ e ∈ r, e.1 < exJacobiRows.length) ∧
    (∀ i (h : i < exJacobiRows.length), (i, [(4 : ℚ), 2].getD i 0) ∈ exJacobiRows[i]) ∧
    ∀ i < exJacobiRows.length, [(4 : ℚ), 2].getD i 0 ≠ 0 := by
  refine ⟨by unfold UniqueColumns; decide +kernel, by simp [exJacobiRows], by decide +kernel, ?_, ?_⟩
  · intro i h
    have h : i < 2 := h
    interval_cases i <;> simp [exJacobiRows]
  · intro i h
    have h : i < 2 := h
    interval_cases i <;> simp

/-- The rows 2 and 3 of a matrix: row 2 has its diagonal entry only, row 3 also one in column 1. -/
example : UniqueColumns [[((2 : ℕ), (4 : ℚ))], [(1, 5), (3, 2)]] ∧
    (∀ v : ℚ, ((0 : ℕ), v) ∉ [((2 : ℕ), (4 : ℚ))]) ∧ ((1 : ℕ), (5 : ℚ)) ∈ [((1 : ℕ), (5 : ℚ)), (3, 2)] := by
  refine ⟨by unfold UniqueColumns; decide +kernel, by simp, by simp⟩

end Mfmg
