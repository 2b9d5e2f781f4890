import Verif.Model.Kernels32
import Verif.Props.DeviceEigen
import Verif.Props.DeviceSmoother

/-!
# C71: every kernel launch covers its elements
-/

set_option autoImplicit false

namespace Mfmg

variable {K : Type}

theorem nBlocks_le {size : ℕ} (h0 : 0 < size) (h1 : size < 2 ^ 31) : nBlocks size * 512 ≤ 2 ^ 31 := by
  unfold nBlocks
  rw [if_neg (by omega)]
  omega

theorem readAt_eq {α : Type} (l : List α) (i : ℕ) (why : String) :
    readAt l (i : ℤ) why = Outcome.get l i why := by
  simp [readAt]

theorem writeAt_eq {α : Type} (l : List α) (i : ℕ) (v : α) (why : String) :
    writeAt l (i : ℤ) v why = if i < l.length then pure (l.set i v) else .ub why := by
  simp [writeAt, Outcome.pure_eq]

theorem foldlM_congr {α : Type} (l : List ℕ) (f g : α → ℕ → Outcome α)
    (h : ∀ t ∈ l, ∀ a, f a t = g a t) (a : α) : l.foldlM f a = l.foldlM g a := by
  induction l generalizing a with
  | nil => rfl
  | cons t l ih =>
    rw [List.foldlM_cons, List.foldlM_cons, h t (by simp)]
    congr 1
    funext b
    exact ih (fun s hs => h s (by simp [hs])) b

theorem extract32_eq [Field K] (size : ℕ) (hs : size < 2 ^ 31) (vals : List K) (cols rows : List ℕ)
    (out : List K) (t : ℕ) (ht : t < 2 ^ 31) :
    extractThread32 (asInt32 size) vals cols rows out t = extractThread size vals cols rows out t := by
  unfold extractThread32 extractThread
  rw [asInt32_small hs, asInt32_small ht]
  simp only [readAt_eq, writeAt_eq, Nat.cast_lt]

theorem iota32_eq (size : ℕ) (hs : size < 2 ^ 31) (value : ℕ) (data : List ℕ) (t : ℕ)
    (ht : t < 2 ^ 31) :
    iotaThread32 (asInt32 size) value data t = iotaThread size value data t := by
  unfold iotaThread32 iotaThread
  rw [asInt32_small hs, asInt32_small ht]
  have : ((t : ℤ) + (value : ℤ)).toNat = t + value := by omega
  simp only [writeAt_eq, Nat.cast_lt, this]

theorem reorder32_eq (size : ℕ) (hs : size < 2 ^ 31) (src : List K) (indices : List ℕ) (dst : List K)
    (t : ℕ) (ht : t < 2 ^ 31) :
    reorderThread32 (asInt32 size) src indices dst t = reorderThread size src indices dst t := by
  unfold reorderThread32 reorderThread
  rw [asInt32_small hs, asInt32_small ht]
  simp only [readAt_eq, writeAt_eq, Nat.cast_lt]

theorem schedule_lt {size : ℕ} (h0 : 0 < size) (h1 : size < 2 ^ 31) {sched : List ℕ}
    (hs : IsSchedule (nBlocks size * 512) sched) : ∀ t ∈ sched, t < 2 ^ 31 := by
  intro t ht
  have := (hs.mem_iff).1 ht
  rw [List.mem_range] at this
  exact lt_of_lt_of_le this (nBlocks_le h0 h1)

/-- **C71**, the smoother.  With 32-bit thread numbers, on a process with between 1 and `2 ^ 31 - 2` rows and
between 1 and `2 ^ 31 - 1` entries, the constructor of the smoother gives the diagonal matrix, for all
schedules.

Missing: a process without rows or without entries (`C71_empty_violated`). -/
theorem C71_smoother_partial [Field K] (sched : SmootherSchedule) (junk : ℕ → K) (first : ℕ)
    (owned : List ℕ) (a : Csr K) (rows : List (List (ℕ × K))) (ha : a.HasRows rows)
    (hu : UniqueColumns rows) (ho : owned.length = rows.length) (hf : owned[0]? = some first)
    (hs : sched.Valid rows.length a.col.length) (hn : rows.length + 1 < 2 ^ 31)
    (hz0 : 0 < a.col.length) (hz : a.col.length < 2 ^ 31) :
    ∃ s, jacobiMatrix32 sched junk owned a = .ok s ∧
      s.HasRows (diagonalRows first rows.length fun i =>
        match (rows.getD i []).lookup i with
        | some v => 1 / v
        | none => junk i) := by
  have hpos : 0 < owned.length := by
    by_contra h
    rw [List.getElem?_eq_none (by omega)] at hf
    cases hf
  have e : jacobiMatrix32 sched junk owned a = jacobiMatrix sched junk owned a := by
    unfold jacobiMatrix32 jacobiMatrix
    simp only
    rw [foldlM_congr sched.extract _ _ (fun t ht b => extract32_eq a.col.length hz a.val a.col
      (csr2coo owned.length a.rowPtr) b t (schedule_lt hz0 hz hs.extract t ht))]
    congr 1
    funext val
    congr 1
    funext fst
    rw [foldlM_congr sched.columns _ _ (fun t ht b => iota32_eq owned.length (by omega) fst b t
      (schedule_lt (by omega) (by omega) hs.columns t ht)),
      foldlM_congr sched.pointers _ _ (fun t ht b => iota32_eq (owned.length + 1) (by omega) 0 b t
      (schedule_lt (by omega) (by omega) hs.pointers t ht))]
  rw [e]
  exact C49_exact sched junk first owned a rows ha hu ho hf hs

/-- **C71**, the product.  With 32-bit thread numbers, the device product with a matrix with between 1 and
`2 ^ 31 - 1` columns is the product, on every process (also one without rows), for all schedules. -/
theorem C71_vmult [Field K] (size : ℕ) (h0 : 0 < size) (h1 : size < 2 ^ 31) (owned : List (List ℕ))
    (hp : IsPartition size owned) (x : ℕ → K) (values : List (List K)) (hv : Distributes owned x values)
    (schedule : List ℕ) (hs : IsSchedule (nBlocks size * 512) schedule) (junk : K)
    (a : Csr K) (rows : List (List (ℕ × K))) (ha : a.HasRows rows)
    (hc : ∀ r ∈ rows, ∀ e ∈ r, e.1 < size) :
    deviceVmult32 schedule size owned values junk rows.length a
      = .ok (rows.map fun r => rowTimes r x) := by
  have e : deviceVmult32 schedule size owned values junk rows.length a
      = deviceVmult schedule size owned values junk rows.length a := by
    unfold deviceVmult32 deviceVmult gatherVector reorderVector
    rw [bind_assoc]
    congr 1
    funext buffer
    rw [bind_assoc]
    congr 1
    funext indices
    rw [foldlM_congr schedule _ _ (fun t ht b => reorder32_eq size h1 buffer indices b t
      (schedule_lt h0 h1 hs t ht))]
  rw [e]
  exact C61_vmult size owned hp x values hv schedule hs junk rows hc a ha

/-- The first thread that is not harmless decides. -/
theorem foldlM_ub {α : Type} (f : α → ℕ → Outcome α) (sched : List ℕ) (a : α) (why : String)
    (h : ∀ t ∈ sched, f a t = .ok a ∨ f a t = .ub why) (hbad : ∃ t ∈ sched, f a t = .ub why) :
    sched.foldlM f a = .ub why := by
  induction sched with
  | nil => obtain ⟨t, ht, -⟩ := hbad; simp at ht
  | cons t sched ih =>
    rw [List.foldlM_cons]
    rcases h t (by simp) with e | e
    · rw [e, Outcome.ok_bind]
      refine ih (fun s hs => h s (by simp [hs])) ?_
      obtain ⟨s, hs, hb⟩ := hbad
      rcases List.mem_cons.1 hs with rfl | hs
      · rw [e] at hb; cases hb
      · exact ⟨s, hs, hb⟩
    · rw [e, Outcome.ub_bind]

/-- **C71**, nothing to do.  Wherever a process has no entries of the matrix, `2 ^ 32` threads are started to
extract the diagonal; half of them have a negative index, which passes the test `idx < 0`, and read in front
of the arrays, for every schedule. -/
theorem C71_empty_violated [Field K] (sched : SmootherSchedule) (junk : ℕ → K) (owned : List ℕ)
    (a : Csr K) (hz : a.col = []) (hs : sched.Valid owned.length a.col.length) :
    jacobiMatrix32 sched junk owned a = .ub "matrix_column_index[idx]" := by
  have hneg : ∀ t (out : List K), asInt32 t < 0 → extractThread32 (asInt32 a.col.length) a.val a.col
      (csr2coo owned.length a.rowPtr) out t = .ub "matrix_column_index[idx]" := by
    intro t out h
    have e0 : asInt32 a.col.length = 0 := by rw [hz]; rfl
    unfold extractThread32
    simp only [e0, if_pos h, readAt, if_neg (Int.not_le.2 h), Outcome.ub_bind]
  have key : sched.extract.foldlM (extractThread32 (asInt32 a.col.length) a.val a.col
      (csr2coo owned.length a.rowPtr)) ((List.range owned.length).map junk)
      = .ub "matrix_column_index[idx]" := by
    refine foldlM_ub _ _ _ _ (fun t _ => ?_) ⟨2 ^ 31, ?_, hneg _ _ (by unfold asInt32; norm_num)⟩
    · by_cases h : asInt32 t < 0
      · exact Or.inr (hneg t _ h)
      · left
        have e0 : asInt32 a.col.length = 0 := by rw [hz]; rfl
        unfold extractThread32
        simp only [e0, if_neg h, Outcome.pure_eq]
    · have h := hs.extract
      rw [hz] at h
      rw [h.mem_iff, List.mem_range]
      unfold nBlocks
      norm_num
  unfold jacobiMatrix32
  simp only [key, Outcome.ub_bind]

/-- A process without rows exists for every partition of few rows over many processes; any schedule of all
the threads is valid. -/
example (junk : ℕ → ℚ) : jacobiMatrix32 (exSmootherSchedule 0 0) junk [] (csrOf []) =
    .ub "matrix_column_index[idx]" :=
  C71_empty_violated _ junk [] (csrOf []) rfl (exSmootherSchedule_valid 0 0)

example : ∃ s, jacobiMatrix32 (exSmootherSchedule 2 3) (fun _ => (7 : ℚ)) [0, 1] (csrOf exJacobiRows)
      = .ok s ∧ s.HasRows (diagonalRows 0 2 fun i =>
        match (exJacobiRows.getD i []).lookup i with
        | some v => 1 / v
        | none => 7) :=
  C71_smoother_partial _ _ 0 [0, 1] (csrOf exJacobiRows) exJacobiRows (csrOf_hasRows _)
    (by unfold UniqueColumns; decide +kernel) rfl rfl
    (exSmootherSchedule_valid 2 3) (by decide) (by decide) (by decide)

/-- Two processes, the second of which has no rows. -/
example (junk : ℚ) : deviceVmult32 (List.range 512) 2 [[0, 1], []] [[5, 6], []] junk 0
    (csrOf ([] : List (List (ℕ × ℚ)))) = .ok [] :=
  C71_vmult 2 (by decide) (by decide) [[0, 1], []] (by unfold IsPartition; decide)
    (fun i => if i = 0 then 5 else 6) [[5, 6], []] rfl _ (List.Perm.refl _) junk _ [] (csrOf_hasRows _)
    (by simp)

end Mfmg
