import Verif.Model.OutputFile
import Verif.Spec.OutputFile
import Verif.Props.Agglomerate

/-!
# The agglomerates shown in the output files (C108)
-/

set_option autoImplicit false

namespace Mfmg

theorem floatOf_small {n : ℕ} (h : n ≤ 2 ^ 24) : floatOf n = n := by
  rcases Nat.lt_or_eq_of_le h with h | rfl
  · have : Nat.log 2 n - 23 = 0 := by
      have h1 : Nat.log 2 n < 24 := by
        by_cases h0 : n = 0
        · subst h0; simp
        · exact Nat.log_lt_of_lt_pow h0 h
      omega
    simp [floatOf, this]
  · have : Nat.log 2 (2 ^ 24) = 24 := Nat.log_pow (by norm_num) 24
    rw [floatOf]
    simp only [this]
    norm_num

theorem floatOf_next : floatOf (2 ^ 24 + 1) = floatOf (2 ^ 24) := by
  rw [floatOf_small le_rfl]
  have : Nat.log 2 (2 ^ 24 + 1) = 24 := (Nat.log_eq_iff (Or.inl (by norm_num))).2 ⟨by norm_num, by norm_num⟩
  rw [floatOf]
  simp only [this]
  norm_num

/-- The loop fills in the owned cells. -/
theorem agglomeratesLoop_eq (owned : ℕ → Bool) (u : UserIndex) (N : ℕ) : ∀ (left n : ℕ) (v : List ℕ), n + left = N →
    v.length = N → ∃ w, agglomeratesLoop owned u (List.range' n left) n v = .ok w ∧ w.length = N ∧
      (∀ c < n, w.getD c 0 = v.getD c 0) ∧ ∀ c, n ≤ c → c < N → owned c = true → w.getD c 0 = floatOf (u c) := by
  intro left
  induction left with
  | zero =>
    intro n v hn hv
    exact ⟨v, rfl, hv, fun _ _ => rfl, fun c h1 h2 => by omega⟩
  | succ left ih =>
    intro n v hn hv
    rw [List.range'_succ, agglomeratesLoop]
    by_cases ho : owned n = true
    · rw [if_pos ho, if_pos (by omega)]
      obtain ⟨w, h1, h2, h3, h4⟩ := ih (n + 1) (v.set n (floatOf (u n))) (by omega) (by simpa using hv)
      refine ⟨w, h1, h2, fun c hc => ?_, fun c hc hc' hoc => ?_⟩
      · rw [h3 c (by omega), List.getD_eq_getElem?_getD, List.getD_eq_getElem?_getD, List.getElem?_set_ne (by omega)]
      · rcases Nat.eq_or_lt_of_le hc with rfl | hc
        · rw [h3 n (by omega), List.getD_eq_getElem?_getD, List.getElem?_set_self (by omega), Option.getD_some]
        · exact h4 c hc hc' hoc
    · rw [if_neg ho]
      obtain ⟨w, h1, h2, h3, h4⟩ := ih (n + 1) v (by omega) hv
      refine ⟨w, h1, h2, fun c hc => h3 c (by omega), fun c hc hc' hoc => ?_⟩
      rcases Nat.eq_or_lt_of_le hc with rfl | hc
      · exact absurd hoc ho
      · exact h4 c hc hc' hoc

/-- What is in a file. -/
theorem outputFile_eq (rank nCells : ℕ) (owned : ℕ → Bool) (u : UserIndex) :
    outputFile rank nCells owned u =
      .ok (((List.range nCells).filter owned).map fun c => (c, floatOf rank, floatOf (u c))) := by
  obtain ⟨w, h1, h2, -, h4⟩ := agglomeratesLoop_eq owned u nCells nCells 0 (List.replicate nCells 0) (by omega) (by simp)
  rw [← List.range_eq_range'] at h1
  simp only [outputFile, outputData, h1, Outcome.ok_bind, Outcome.pure_eq, Outcome.ok.injEq]
  refine List.map_congr_left fun c hc => ?_
  obtain ⟨hc, ho⟩ := List.mem_filter.1 hc
  have hc := List.mem_range.1 hc
  rw [h4 c (Nat.zero_le _) hc ho, List.getD_eq_getElem?_getD, List.getElem?_replicate, if_pos hc, Option.getD_some]

/-- **C108 (what holds).** With at most `2 ^ 24` processes and agglomerate numbers the files show the agglomerates, and
tell the agglomerates of all processes apart.  Missing for the full claim: larger numbers. -/
theorem C108_shown_partial (procs : List OutputProcess) (hn : procs.length ≤ 2 ^ 24)
    (hu : ∀ p ∈ procs, ∀ c < p.nCells, p.owned c = true → p.agglomerate c ≤ 2 ^ 24) :
    ∃ files, (∀ i p, procs[i]? = some p → ∃ f, files[i]? = some f ∧
        outputFile i p.nCells p.owned p.agglomerate = .ok f ∧ ShowsAgglomerates i p f) ∧ TellsApart procs files := by
  obtain ⟨file, hfile⟩ : ∃ file : ℕ → OutputProcess → List (ℕ × ℕ × ℕ), file = fun i p =>
      ((List.range p.nCells).filter p.owned).map fun c => (c, floatOf i, floatOf (p.agglomerate c)) := ⟨_, rfl⟩
  have hshow : ∀ i p, procs[i]? = some p → ShowsAgglomerates i p (file i p) := by
    intro i p hp
    obtain ⟨hi, hp'⟩ := List.getElem?_eq_some_iff.1 hp
    subst hfile
    refine ⟨by simp [Function.comp_def], fun c s a hm => ?_⟩
    obtain ⟨c', hc', e⟩ := List.mem_map.1 hm
    obtain ⟨hc1, hc2⟩ := List.mem_filter.1 hc'
    simp only [Prod.mk.injEq] at e
    obtain ⟨rfl, rfl, rfl⟩ := e
    exact ⟨floatOf_small (by omega),
      floatOf_small (hu p (hp' ▸ List.getElem_mem hi) c' (List.mem_range.1 hc1) hc2)⟩
  refine ⟨procs.mapIdx file, fun i p hp => ⟨file i p, by simp [hp], ?_, hshow i p hp⟩, by simp, ?_⟩
  · rw [outputFile_eq, hfile]
  · intro i j p q f g hp hq hf hg c s a hc d t b hd
    simp only [List.getElem?_mapIdx, hp, hq, Option.map_some, Option.some.injEq] at hf hg
    subst hf hg
    obtain ⟨rfl, rfl⟩ := (hshow i p hp).2 c s a hc
    obtain ⟨rfl, rfl⟩ := (hshow j q hq).2 d t b hd
    exact Iff.rfl

/-- **C108 is violated by the code: many agglomerates.** If a process has more than `2 ^ 24` agglomerates, made by the
block partitioner on any mesh for which C12 holds, its file shows two of them as one. -/
theorem C108_block_violated (m : Mesh) (hf : m.Forward) (debug : Bool) (dim nx ny nz : ℕ) (u u' : UserIndex) (n : ℕ)
    (h0 : ∀ c, c < m.nCells → m.owned c = true → u c = 0)
    (h : buildAgglomeratesBlock m debug dim nx ny nz u = .ok (u', n)) (hn : 2 ^ 24 < n) (rank : ℕ) :
    ∃ file c d s a, outputFile rank m.nCells m.owned u' = .ok file ∧ (c, s, a) ∈ file ∧ (d, s, a) ∈ file ∧ u' c ≠ u' d := by
  have hi := C12_no_empty_agglomerate m hf debug dim nx ny nz u u' n h0 h
  have hex : ∀ a, 1 ≤ a → a ≤ n → ∃ c ∈ (List.range m.nCells).filter m.owned, u' c = a := by
    intro a h1 h2
    have : a ∈ ((Finset.range m.nCells).filter (fun c => m.owned c = true)).image u' := by
      rw [hi]
      exact Finset.mem_Icc.2 ⟨h1, h2⟩
    obtain ⟨c, hc, e⟩ := Finset.mem_image.1 this
    obtain ⟨hc1, hc2⟩ := Finset.mem_filter.1 hc
    exact ⟨c, List.mem_filter.2 ⟨List.mem_range.2 (Finset.mem_range.1 hc1), hc2⟩, e⟩
  obtain ⟨c, hc, ec⟩ := hex (2 ^ 24) (by norm_num) (by omega)
  obtain ⟨d, hd, ed⟩ := hex (2 ^ 24 + 1) (by norm_num) (by omega)
  refine ⟨_, c, d, floatOf rank, floatOf (u' c), outputFile_eq _ _ _ _, List.mem_map.2 ⟨c, hc, rfl⟩,
    List.mem_map.2 ⟨d, hd, ?_⟩, by omega⟩
  rw [ec, ed, floatOf_next]

/-- **C108 is violated by the code: many agglomerates of a graph partitioner.** -/
theorem C108_partitioner_violated (m : GraphMesh) (hm : m.Sound) (partition : List (ℕ × ℕ) → ℕ → List ℕ)
    (nd : ℕ) (hlen : ∀ g, (partition g nd).length = m.nCells) (u u' : UserIndex) (n : ℕ)
    (h : buildAgglomeratesPartitioner m partition nd u = .ok (u', n)) (hn : 2 ^ 24 < n) (rank : ℕ) :
    ∃ file c d s a, outputFile rank m.nCells m.owned u' = .ok file ∧ (c, s, a) ∈ file ∧ (d, s, a) ∈ file ∧ u' c ≠ u' d := by
  obtain ⟨g, u'', n', e, -, hi, -⟩ := C14_partitioner m hm partition nd hlen u
  obtain ⟨rfl, rfl⟩ := Prod.mk.injEq .. ▸ Outcome.ok.inj (h.symm.trans e)
  have hex : ∀ a, 1 ≤ a → a ≤ n → ∃ c ∈ (List.range m.nCells).filter m.owned, u' c = a := by
    intro a h1 h2
    have : a ∈ ((Finset.range m.nCells).filter (fun c => m.owned c = true)).image u' := by
      rw [hi]
      exact Finset.mem_Icc.2 ⟨h1, h2⟩
    obtain ⟨c, hc, e⟩ := Finset.mem_image.1 this
    obtain ⟨hc1, hc2⟩ := Finset.mem_filter.1 hc
    exact ⟨c, List.mem_filter.2 ⟨List.mem_range.2 (Finset.mem_range.1 hc1), hc2⟩, e⟩
  obtain ⟨c, hc, ec⟩ := hex (2 ^ 24) (by norm_num) (by omega)
  obtain ⟨d, hd, ed⟩ := hex (2 ^ 24 + 1) (by norm_num) (by omega)
  refine ⟨_, c, d, floatOf rank, floatOf (u' c), outputFile_eq _ _ _ _, List.mem_map.2 ⟨c, hc, rfl⟩,
    List.mem_map.2 ⟨d, hd, ?_⟩, by omega⟩
  rw [ec, ed, floatOf_next]

/-! ## Examples -/

/-- A grid of 5 × 3 cells in blocks of 2 × 2 on one process. -/
example : ∃ u' n, buildAgglomeratesBlock (gridMesh 5 3) true 2 2 2 0 (fun _ => 0) = .ok (u', n) ∧
    outputFile 0 15 (gridMesh 5 3).owned u' =
      .ok [(0, 0, 1), (1, 0, 1), (2, 0, 2), (3, 0, 2), (4, 0, 3), (5, 0, 1), (6, 0, 1), (7, 0, 2), (8, 0, 2), (9, 0, 3),
        (10, 0, 4), (11, 0, 4), (12, 0, 5), (13, 0, 5), (14, 0, 6)] :=
  ⟨_, _, rfl, by decide⟩

/-- Two processes. -/
example : ∃ files, (∀ i p, [(⟨3, fun c => c != 2, fun c => c + 1⟩ : OutputProcess), ⟨2, fun c => c == 1, fun _ => 1⟩][i]?
      = some p → ∃ f, files[i]? = some f ∧ outputFile i p.nCells p.owned p.agglomerate = .ok f ∧ ShowsAgglomerates i p f) ∧
    TellsApart [⟨3, fun c => c != 2, fun c => c + 1⟩, ⟨2, fun c => c == 1, fun _ => 1⟩] files :=
  C108_shown_partial _ (by norm_num) (by
    intro p hp c hc _
    simp only [List.mem_cons, List.not_mem_nil, or_false] at hp
    rcases hp with rfl | rfl
    · change c < 3 at hc
      change c + 1 ≤ 2 ^ 24
      omega
    · change 1 ≤ 2 ^ 24
      norm_num)

/-- A grid of 5000 × 5000 cells in blocks of one cell: 25 000 000 agglomerates, two of which look the same. -/
example : ∃ u', buildAgglomeratesBlock (gridMesh 5000 5000) false 2 1 1 1 (fun _ => 0) = .ok (u', 25000000) ∧
    ∃ file c d s a, outputFile 3 25000000 (gridMesh 5000 5000).owned u' = .ok file ∧ (c, s, a) ∈ file ∧ (d, s, a) ∈ file ∧
      u' c ≠ u' d := by
  obtain ⟨u', n, h⟩ := C11_returns (gridMesh 5000 5000) false (by simp) 2 1 1 1 (fun _ => 0)
  obtain ⟨-, e⟩ := C54_tiling _ 2 5000 5000 1 (by norm_num) _ (gridMesh_box (by norm_num)) 1 1 1 le_rfl le_rfl le_rfl
    false _ _ _ (fun _ _ => rfl) h
  have e : n = 25000000 := e.trans (by norm_num [tiles, layers])
  subst e
  have hf : (gridMesh 5000 5000).Forward := by
    intro c c' d _ hn _
    cases d <;> simp only [gridMesh] at hn
    · split_ifs at hn
      have := Option.some.inj hn
      omega
    · split_ifs at hn
      have := Option.some.inj hn
      omega
    · exact absurd hn (by simp)
  exact ⟨u', h, C108_block_violated _ hf _ _ _ _ _ _ _ _ (fun _ _ _ => rfl) h (by norm_num) 3⟩

/-- Every cell of a mesh of `N` cells (20 million, say) in its own part. -/
example (N : ℕ) (hN : 2 ^ 24 < N) : ∃ u', buildAgglomeratesPartitioner ⟨N, fun _ => true, fun c => (0, c), fun _ => []⟩
      (fun _ _ => List.range N) N (fun _ => 0) = .ok (u', N) ∧
    ∃ file c d s a, outputFile 3 N (fun _ => true) u' = .ok file ∧ (c, s, a) ∈ file ∧ (d, s, a) ∈ file ∧
      u' c ≠ u' d := by
  obtain ⟨m, hm⟩ : ∃ m : GraphMesh, m = ⟨N, fun _ => true, fun c => (0, c), fun _ => []⟩ := ⟨_, rfl⟩
  have hs : m.Sound := by
    subst hm
    exact ⟨fun c d _ _ _ _ e => (Prod.mk.inj e).2, fun c k _ _ h => by simp at h⟩
  have hl : ∀ g : List (ℕ × ℕ), ((fun _ _ => List.range N : List (ℕ × ℕ) → ℕ → List ℕ) g N).length = m.nCells :=
    fun _ => by simp [hm]
  obtain ⟨g, u', n, h, -, -, -, hn, -⟩ := C14_partitioner m hs (fun _ _ => List.range N) N hl (fun _ => 0)
  have e : n = N := by
    rw [← hn, Finset.card_image_of_injOn]
    · simp [hm]
    · intro c hc d hd e
      have hv : ∀ c, vertexOf m c = c := fun c => by simp [vertexOf, hm]
      have hc : c < N := by simpa [hm] using hc
      have hd : d < N := by simpa [hm] using hd
      simp only [hv] at e
      rw [List.getElem?_range hc, List.getElem?_range hd] at e
      exact Option.some.inj e
  subst e
  have := C108_partitioner_violated m hs _ _ hl _ _ _ h hN 3
  subst hm
  exact ⟨u', h, this⟩

end Mfmg
