import Verif.Lemmas.Agglomerate
import Verif.Lemmas.Tiles
import Verif.Lemmas.Partitioner
import Verif.Lemmas.Patch
import Verif.Examples.Mesh
import Std.Data.String.ToNat

/-! # Properties of agglomeration (C11–C19, C54, C55) -/

set_option autoImplicit false

namespace Mfmg

/-! ## C11 -/

/-- C11: if the block partitioner returns on a mesh whose owned cells are unflagged, every owned
cell has an agglomerate id between 1 and the returned count and all other cells keep their flag. -/
theorem C11_owned_cells_flagged (m : Mesh) (debug : Bool) (dim nx ny nz : ℕ) (u u' : UserIndex)
    (n : ℕ) (h0 : ∀ c, c < m.nCells → m.owned c = true → u c = 0)
    (h : buildAgglomeratesBlock m debug dim nx ny nz u = .ok (u', n)) :
    (∀ c, c < m.nCells → m.owned c = true → 1 ≤ u' c ∧ u' c ≤ n) ∧
    (∀ c, m.owned c = false → u' c = u c) := by
  obtain ⟨_, h2, h3, h4⟩ := blockLoop_inv le_rfl (buildBlock_ok h)
  refine ⟨fun c hc ho => ?_, h2⟩
  have h5 := h4 c (List.mem_range.2 hc) ho
  rcases h3 c with h6 | h6
  · rw [h0 c hc ho] at h6; exact absurd h6 h5
  · omega

/-- C11: the block partitioner always returns in a release build, and in a debug build on a mesh
that is not locally refined. -/
theorem C11_returns (m : Mesh) (debug : Bool) (hd : debug = true → m.Uniform) (dim nx ny nz : ℕ)
    (u : UserIndex) : ∃ u' n, buildAgglomeratesBlock m debug dim nx ny nz u = .ok (u', n) := by
  obtain ⟨⟨u', a⟩, h⟩ := blockLoop_total m debug hd dim nx ny nz (List.range m.nCells) u 1
  exact ⟨u', a - 1, by simp [buildAgglomeratesBlock, h]⟩

example : ∃ u' n, buildAgglomeratesBlock (gridMesh 5 3) true 2 2 2 0 (fun _ => 0) = .ok (u', n) ∧
    n = 6 ∧ (List.range 15).map u' = [1, 1, 2, 2, 3, 1, 1, 2, 2, 3, 4, 4, 5, 5, 6] :=
  ⟨_, _, rfl, rfl, rfl⟩

example : (gridMesh 5 3).Uniform := fun _ _ _ _ _ => rfl

/-! ## C12 -/

/-- C12: if every `+` neighbour is visited later, the ids found on the owned cells are exactly
`1, …, n`: no agglomerate is empty and the returned count is the number of agglomerates. -/
theorem C12_no_empty_agglomerate (m : Mesh) (hf : m.Forward) (debug : Bool) (dim nx ny nz : ℕ)
    (u u' : UserIndex) (n : ℕ) (h0 : ∀ c, c < m.nCells → m.owned c = true → u c = 0)
    (h : buildAgglomeratesBlock m debug dim nx ny nz u = .ok (u', n)) :
    ((Finset.range m.nCells).filter (fun c => m.owned c = true)).image u' = Finset.Icc 1 n := by
  ext a
  simp only [Finset.mem_image, Finset.mem_filter, Finset.mem_range, Finset.mem_Icc]
  constructor
  · rintro ⟨c, ⟨h1, h2⟩, rfl⟩
    exact (C11_owned_cells_flagged m debug dim nx ny nz u u' n h0 h).1 c h1 h2
  · rintro ⟨h1, h2⟩
    obtain ⟨c, h3, h4, h5⟩ := blockLoop_surj hf List.pairwise_lt_range (buildBlock_ok h) a h1
      (by omega)
    exact ⟨c, ⟨List.mem_range.1 h3, h4⟩, h5⟩

example : (gridMesh 5 3).Forward := (gridMesh_box (by decide)).forward

/-- A row of `N` cells numbered from right to left. -/
def reversedRow (N : ℕ) : Mesh where
  nCells := N
  owned _ := true
  nbr d c := match d with
    | .xp => if c = 0 then none else some (c - 1)
    | _ => none
  sameLevel _ _ := true

/-- C12, why the order matters: a row of `N ≥ 2` cells visited from right to left, in blocks of two
cells or more.  The second agglomerate takes over the only cell of the first: no cell carries id 1,
although at least two agglomerates are reported. -/
theorem C12_bad_order (N nx ny : ℕ) (hN : 2 ≤ N) (hx : 2 ≤ nx) (hy : 1 ≤ ny) (u' : UserIndex) (n : ℕ)
    (h : buildAgglomeratesBlock (reversedRow N) true 2 nx ny 0 (fun _ => 0) = .ok (u', n)) :
    2 ≤ n ∧ ∀ c, u' c ≠ 1 := by
  obtain ⟨k, rfl⟩ : ∃ k, N = k + 2 := ⟨N - 2, by omega⟩
  obtain ⟨i, rfl⟩ : ∃ i, nx = i + 2 := ⟨nx - 2, by omega⟩
  obtain ⟨j, rfl⟩ : ∃ j, ny = j + 1 := ⟨ny - 1, by omega⟩
  have h1 := buildBlock_ok h
  have hr : List.range (reversedRow (k + 2)).nCells = 0 :: 1 :: List.range' 2 k := by
    change List.range (k + 2) = _
    rw [List.range_eq_range', List.range'_succ, List.range'_succ]
  rw [hr] at h1
  have a0 : aggCells (reversedRow (k + 2)) 2 (i + 2) (j + 1) 0 0 = [0, 0] := by
    simp [aggCells, trailZ, trailY, trailX, reversedRow]
  have a1 : aggCells (reversedRow (k + 2)) 2 (i + 2) (j + 1) 0 1 = [1, 1, 0] := by
    simp [aggCells, trailZ, trailY, trailX, reversedRow]
  rcases blockLoop_cons h1 with ⟨_, _, h2⟩ | ⟨hc, _⟩
  · rw [a0] at h2
    rcases blockLoop_cons h2 with ⟨_, _, h3⟩ | ⟨hc, _⟩
    · rw [a1] at h3
      obtain ⟨i1, _, i3, _⟩ := blockLoop_inv (by omega) h3
      refine ⟨by omega, fun c hc => ?_⟩
      rcases i3 c with h4 | h4
      · rw [hc] at h4
        by_cases h0 : c = 0
        · simp [mark, h0] at h4
        · by_cases h1 : c = 1
          · simp [mark, h1] at h4
          · simp [mark, h0, h1] at h4
      · omega
    · exfalso
      rcases hc with hc | hc
      · simp [reversedRow] at hc
      · simp [mark] at hc
  · exfalso
    rcases hc with hc | hc
    · simp [reversedRow] at hc
    · simp at hc

example : ∃ u' n, buildAgglomeratesBlock (reversedRow 3) true 2 2 1 0 (fun _ => 0) = .ok (u', n) :=
  ⟨_, _, rfl⟩

/-! ## C13 -/

/-- C13 is false for the block partitioner: running it a second time on the flags left by the
first run returns 0 agglomerates and leaves the flags alone, on every mesh. -/
theorem C13_block_rerun_violated (m : Mesh) (debug : Bool) (dim nx ny nz : ℕ) (u u' : UserIndex)
    (n : ℕ) (h : buildAgglomeratesBlock m debug dim nx ny nz u = .ok (u', n))
    (debug' : Bool) (nx' ny' nz' : ℕ) :
    buildAgglomeratesBlock m debug' dim nx' ny' nz' u' = .ok (u', 0) := by
  have h4 := (blockLoop_inv le_rfl (buildBlock_ok h)).2.2.2
  simp [buildAgglomeratesBlock, blockLoop_noop h4]

/-- C13, consequence: after the second run the boundary agglomerates (used with `fast_ap`) read
outside their vector of cell sets, as soon as there is an owned cell. -/
theorem C13_block_rerun_boundary_violated (m : Mesh) (debug : Bool) (dim nx ny nz : ℕ)
    (u u' : UserIndex) (n : ℕ)
    (h : buildAgglomeratesBlock m debug dim nx ny nz u = .ok (u', n))
    (hc : ∃ c, c < m.nCells ∧ m.owned c = true) (conn : ℕ → List ℕ) :
    ∃ u'' n'' w, buildAgglomeratesBlock m debug dim nx ny nz u' = .ok (u'', n'') ∧
      buildBoundaryAgglomerates m.nCells m.owned u'' n'' conn = .ub w := by
  obtain ⟨c, h1, h2⟩ := hc
  have h4 := (blockLoop_inv le_rfl (buildBlock_ok h)).2.2.2 c (List.mem_range.2 h1) h2
  obtain ⟨w, hw⟩ := collectCells_ub (owned := m.owned) (u := u') (List.range m.nCells)
    (List.replicate 0 []) ⟨c, List.mem_range.2 h1, h2, by simp; omega⟩
  exact ⟨u', 0, w, C13_block_rerun_violated m debug dim nx ny nz u u' n h _ _ _ _,
    by simp only [buildBoundaryAgglomerates, hw]; rfl⟩

example : ∃ c, c < (gridMesh 5 3).nCells ∧ (gridMesh 5 3).owned c = true := ⟨0, by decide, by decide⟩

/-- C13, the part that holds: with a graph partitioner the second call returns the same count and
the same flags on owned cells as the first, whatever flags it finds.  Missing: the block
partitioner, for which the property is false. -/
theorem C13_partitioner_rerun_partial (m : GraphMesh) (hm : m.Sound)
    (partition : List (ℕ × ℕ) → ℕ → List ℕ) (nd : ℕ)
    (hlen : ∀ g, (partition g nd).length = m.nCells) (u : UserIndex) :
    ∃ u' n, buildAgglomeratesPartitioner m partition nd u = .ok (u', n) ∧
      buildAgglomeratesPartitioner m partition nd u' = .ok (u', n) := by
  have gen : ∀ (part : List ℕ) (cs : List ℕ) (u v : UserIndex) (ren : ℕ → Option ℕ) (n : ℕ),
      ∀ u' n', renumber m (indexMap m) part cs u ren n = .ok (u', n') →
      (∀ c, c ∉ cs ∨ m.owned c = false → v c = u' c) →
      renumber m (indexMap m) part cs v ren n = .ok (u', n') := by
    intro part cs
    induction cs with
    | nil =>
      intro u v ren n u' n' h hv
      simp only [renumber, Outcome.ok.injEq, Prod.mk.injEq] at h ⊢
      exact ⟨funext fun c => hv c (Or.inl (by simp)), h.2⟩
    | cons c cs ih =>
      intro u v ren n u' n' h hv
      simp only [renumber] at h ⊢
      by_cases ho : m.owned c = true
      · rw [if_pos ho] at h ⊢
        simp only [Outcome.bind_eq_ok] at h ⊢
        obtain ⟨i, h1, p, h2, h3⟩ := h
        refine ⟨i, h1, p, h2, ?_⟩
        -- the value written at `c` survives unless `c` is visited again
        have keep : ∀ (b : ℕ) (ren' : ℕ → Option ℕ) (k : ℕ),
            renumber m (indexMap m) part cs (u.set c b) ren' k = .ok (u', n') →
            ∀ d, d ∉ cs ∨ m.owned d = false → (v.set c b) d = u' d := by
          intro b ren' k hr d hd
          have rest : ∀ (cs : List ℕ) (w : UserIndex) (ren' : ℕ → Option ℕ) (k : ℕ),
              renumber m (indexMap m) part cs w ren' k = .ok (u', n') →
              ∀ d, d ∉ cs ∨ m.owned d = false → w d = u' d := by
            intro cs
            induction cs with
            | nil =>
              intro w ren' k hr d _
              simp only [renumber, Outcome.ok.injEq, Prod.mk.injEq] at hr
              rw [hr.1]
            | cons e cs ih2 =>
              intro w ren' k hr d hd
              simp only [renumber] at hr
              have hd' : d ∉ cs ∨ m.owned d = false := by
                rcases hd with hd | hd
                · exact Or.inl (fun h => hd (List.mem_cons_of_mem _ h))
                · exact Or.inr hd
              by_cases hoe : m.owned e = true
              · rw [if_pos hoe] at hr
                simp only [Outcome.bind_eq_ok] at hr
                obtain ⟨i, _, p, _, hr⟩ := hr
                have hde : d ≠ e := by
                  rintro rfl
                  rcases hd with hd | hd
                  · exact hd (by simp)
                  · rw [hoe] at hd; exact absurd hd (by simp)
                cases hp : ren' p with
                | none =>
                  rw [hp] at hr
                  have := ih2 _ _ _ hr d hd'
                  rwa [UserIndex.set, Function.update_apply, if_neg hde] at this
                | some q =>
                  rw [hp] at hr
                  have := ih2 _ _ _ hr d hd'
                  rwa [UserIndex.set, Function.update_apply, if_neg hde] at this
              · rw [if_neg hoe] at hr
                exact ih2 _ _ _ hr d hd'
          by_cases hdc : d = c
          · subst hdc
            rw [UserIndex.set, Function.update_apply, if_pos rfl]
            have := rest cs _ _ _ hr d hd
            rwa [UserIndex.set, Function.update_apply, if_pos rfl] at this
          · rw [UserIndex.set, Function.update_apply, if_neg hdc]
            refine hv d ?_
            rcases hd with hd | hd
            · exact Or.inl (by simp [hdc, hd])
            · exact Or.inr hd
        cases hp : ren p with
        | none =>
          rw [hp] at h3
          exact ih _ _ _ _ _ _ h3 (keep _ _ _ h3)
        | some b =>
          rw [hp] at h3
          exact ih _ _ _ _ _ _ h3 (keep _ _ _ h3)
      · rw [if_neg ho] at h ⊢
        refine ih _ _ _ _ _ _ h (fun d hd => hv d ?_)
        by_cases hdc : d = c
        · subst hdc
          exact Or.inr (by simpa using ho)
        · rcases hd with hd | hd
          · exact Or.inl (by simp [hdc, hd])
          · exact Or.inr hd
  obtain ⟨g, hg, _⟩ := buildGraph_spec hm (List.range m.nCells) []
    (fun c hc => List.mem_range.1 hc)
  obtain ⟨u', n, ren', h1, h2⟩ := renumber_spec hm (part := partition g nd) (u0 := u)
    (by rw [hlen]) m.nCells 0 u (fun _ => none) 0 (by omega)
    ⟨by intro c hc; omega, by simp, by simp, by intro a h1 h2; omega, by simp⟩
  rw [← List.range_eq_range'] at h1
  refine ⟨u', n, by simp [buildAgglomeratesPartitioner, hg, h1], ?_⟩
  simp only [buildAgglomeratesPartitioner, hg, Outcome.ok_bind]
  exact gen _ _ u u' _ _ _ _ h1 (fun _ _ => rfl)

example : rowMesh.Sound ∧ ∀ g, ((fun _ _ => [7, 2, 7, 2, 9] : List (ℕ × ℕ) → ℕ → List ℕ) g 3).length
    = rowMesh.nCells := ⟨rowMesh_sound, fun _ => rfl⟩

/-! ## C14 -/

/-- C14: with a graph partitioner the call succeeds; the partitioner is given the face-adjacency
graph of the owned cells; the ids of the owned cells are exactly `1, …, n`; two owned cells share an
id iff the partitioner put their vertices in the same part; `n` is the number of parts used by owned
cells; other cells are untouched. -/
theorem C14_partitioner (m : GraphMesh) (hm : m.Sound) (partition : List (ℕ × ℕ) → ℕ → List ℕ)
    (nd : ℕ) (hlen : ∀ g, (partition g nd).length = m.nCells) (u : UserIndex) :
    ∃ g u' n, buildAgglomeratesPartitioner m partition nd u = .ok (u', n) ∧ IsCellGraph m g ∧
      ((Finset.range m.nCells).filter (fun c => m.owned c = true)).image u' = Finset.Icc 1 n ∧
      (∀ c d, c < m.nCells → d < m.nCells → m.owned c = true → m.owned d = true →
        (u' c = u' d ↔ (partition g nd)[vertexOf m c]? = (partition g nd)[vertexOf m d]?)) ∧
      (((Finset.range m.nCells).filter (fun c => m.owned c = true)).image
        (fun c => (partition g nd)[vertexOf m c]?)).card = n ∧
      (∀ c, m.owned c = false ∨ m.nCells ≤ c → u' c = u c) := by
  obtain ⟨g, hg, hg2⟩ := buildGraph_spec hm (List.range m.nCells) []
    (fun c hc => List.mem_range.1 hc)
  obtain ⟨u', n, ren', h1, h2⟩ := renumber_spec hm (part := partition g nd) (u0 := u)
    (by rw [hlen]) m.nCells 0 u (fun _ => none) 0 (by omega)
    ⟨by intro c hc; omega, by simp, by simp, by intro a h1 h2; omega, by simp⟩
  rw [← List.range_eq_range'] at h1
  rw [Nat.zero_add] at h2
  have himg : ((Finset.range m.nCells).filter (fun c => m.owned c = true)).image u' =
      Finset.Icc 1 n := by
    ext a
    simp only [Finset.mem_image, Finset.mem_filter, Finset.mem_range, Finset.mem_Icc]
    constructor
    · rintro ⟨c, ⟨k1, k2⟩, rfl⟩
      obtain ⟨p, p1, p2⟩ := h2.done c k1 k2
      exact h2.range p _ p2
    · rintro ⟨k1, k2⟩
      obtain ⟨c, c1, c2, c3⟩ := h2.hit a k1 k2
      exact ⟨c, ⟨c1, c2⟩, c3⟩
  have hsame : ∀ c d, c < m.nCells → d < m.nCells → m.owned c = true → m.owned d = true →
      (u' c = u' d ↔ (partition g nd)[vertexOf m c]? = (partition g nd)[vertexOf m d]?) := by
    intro c d hc hd hoc hod
    obtain ⟨p, p1, p2⟩ := h2.done c hc hoc
    obtain ⟨q, q1, q2⟩ := h2.done d hd hod
    rw [p1, q1, Option.some.injEq]
    constructor
    · intro he; rw [he] at p2; exact h2.inj p q _ p2 q2
    · rintro rfl
      rw [p2] at q2
      exact Option.some.inj q2
  refine ⟨g, u', n, by simp [buildAgglomeratesPartitioner, hg, h1], ?_, himg, hsame, ?_, h2.rest⟩
  · intro i j
    rw [hg2]
    simp only [List.not_mem_nil, false_or, List.mem_range]
    constructor
    · rintro ⟨c, hc, hoc, d, hd, hod, ⟨rfl, he⟩ | ⟨ha, he | he⟩⟩
      · simp only [Prod.mk.injEq] at he
        exact ⟨c, c, hc, hc, hoc, hoc, he.1, he.2, Or.inl rfl⟩
      · simp only [Prod.mk.injEq] at he
        exact ⟨c, d, hc, hd, hoc, hod, he.1, he.2, Or.inr (Or.inl ha)⟩
      · simp only [Prod.mk.injEq] at he
        exact ⟨d, c, hd, hc, hod, hoc, he.1, he.2, Or.inr (Or.inr ha)⟩
    · rintro ⟨c, d, hc, hd, hoc, hod, rfl, rfl, rfl | ha | ha⟩
      · exact ⟨c, hc, hoc, c, hc, hoc, Or.inl ⟨rfl, rfl⟩⟩
      · exact ⟨c, hc, hoc, d, hd, hod, Or.inr ⟨ha, Or.inl rfl⟩⟩
      · exact ⟨d, hd, hod, c, hc, hoc, Or.inr ⟨ha, Or.inr rfl⟩⟩
  · rw [← card_image_eq_of_iff _ u' _ (fun c hc d hd => by
      simp only [Finset.mem_filter, Finset.mem_range] at hc hd
      exact hsame c d hc.1 hd.1 hc.2 hd.2), himg]
    simp

example : ∃ u' n, buildAgglomeratesPartitioner rowMesh (fun _ _ => [7, 2, 7, 2, 9]) 3 (fun _ => 0)
    = .ok (u', n) ∧ n = 2 ∧ (List.range 5).map u' = [1, 2, 1, 0, 2] := ⟨_, _, rfl, rfl, rfl⟩

/-! ## C15 -/

/-- C15: when the flags of owned cells lie in `1, …, n`, there is one interior and one halo list per
agglomerate; the interior list holds exactly the cells of the agglomerate with a neighbour outside
it, the halo list exactly the outside neighbours, both strictly increasing, and they are disjoint. -/
theorem C15_boundary_exact (nCells : ℕ) (owned : ℕ → Bool) (u : UserIndex) (n : ℕ)
    (conn : ℕ → List ℕ)
    (hu : ∀ c, c < nCells → owned c = true → 1 ≤ u c ∧ u c ≤ n) :
    ∃ int halo, buildBoundaryAgglomerates nCells owned u n conn = .ok (int, halo) ∧
      int.length = n ∧ halo.length = n ∧
      ∀ a, a < n → ∃ I H, int[a]? = some I ∧ halo[a]? = some H ∧
        I.Pairwise (· < ·) ∧ H.Pairwise (· < ·) ∧
        (∀ c, c ∈ I ↔ inAgg nCells owned u (a + 1) c ∧
          ∃ d ∈ conn c, ¬ inAgg nCells owned u (a + 1) d) ∧
        (∀ d, d ∈ H ↔ ¬ inAgg nCells owned u (a + 1) d ∧
          ∃ c, inAgg nCells owned u (a + 1) c ∧ d ∈ conn c) ∧
        ∀ c, c ∈ I → c ∉ H := by
  obtain ⟨s, h1, h2⟩ := collectCells_spec (owned := owned) (u := u) (nAgg := n) nCells 0
    (List.replicate n []) (fun c _ hc ho => hu c (by omega) ho)
    ⟨by simp, by
      intro a l hl
      rw [List.getElem?_replicate] at hl
      split at hl
      · obtain rfl := Option.some.inj hl
        simp
      · exact absurd hl (by simp)⟩
  rw [← List.range_eq_range'] at h1
  rw [Nat.zero_add] at h2
  refine ⟨(s.map (fun agg => boundaryAgg conn agg agg ([], []))).map Prod.fst,
    (s.map (fun agg => boundaryAgg conn agg agg ([], []))).map Prod.snd,
    by simp [buildBoundaryAgglomerates, h1], by simp [h2.len], by simp [h2.len], ?_⟩
  intro a ha
  have hlt : a < s.length := by rw [h2.len]; exact ha
  obtain ⟨l, hl⟩ : ∃ l, s[a]? = some l := ⟨_, List.getElem?_eq_getElem hlt⟩
  obtain ⟨hs, hm⟩ := h2.mem a l hl
  have hin : ∀ c, c ∈ l ↔ inAgg nCells owned u (a + 1) c := fun c => hm c
  obtain ⟨b1, b2, b3⟩ := boundaryAgg_spec conn l l [] []
  have hI : ∀ c, c ∈ (boundaryAgg conn l l ([], [])).1 ↔ inAgg nCells owned u (a + 1) c ∧
      ∃ d ∈ conn c, ¬ inAgg nCells owned u (a + 1) d := by
    intro c
    rw [b1]
    simp only [List.nil_append, List.mem_filter, hin, outside, List.any_eq_true,
      Bool.not_eq_true', List.contains_eq_mem, decide_eq_false_iff_not]
  have hH : ∀ d, d ∈ (boundaryAgg conn l l ([], [])).2 ↔ ¬ inAgg nCells owned u (a + 1) d ∧
      ∃ c, inAgg nCells owned u (a + 1) c ∧ d ∈ conn c := by
    intro d
    rw [b2]
    simp only [List.not_mem_nil, false_or, hin]
    constructor
    · rintro ⟨c, h1, h2, h3⟩; exact ⟨h3, c, h1, h2⟩
    · rintro ⟨h3, c, h1, h2⟩; exact ⟨c, h1, h2, h3⟩
  refine ⟨(boundaryAgg conn l l ([], [])).1, (boundaryAgg conn l l ([], [])).2, by simp [hl],
    by simp [hl], ?_, b3 List.Pairwise.nil, hI, hH, ?_⟩
  · rw [b1]
    exact (List.Pairwise.filter _ hs)
  · intro c hc hc'
    exact ((hH c).1 hc').1 ((hI c).1 hc).1

/-- C15: a flag of an owned cell outside `1, …, n` makes the call access memory out of bounds. -/
theorem C15_bad_flags (nCells : ℕ) (owned : ℕ → Bool) (u : UserIndex) (n : ℕ) (conn : ℕ → List ℕ)
    (h : ∃ c, c < nCells ∧ owned c = true ∧ (u c = 0 ∨ n < u c)) :
    ∃ w, buildBoundaryAgglomerates nCells owned u n conn = .ub w := by
  obtain ⟨c, h1, h2, h3⟩ := h
  obtain ⟨w, hw⟩ := collectCells_ub (owned := owned) (u := u) (List.range nCells)
    (List.replicate n []) ⟨c, List.mem_range.2 h1, h2, by simpa using h3⟩
  exact ⟨w, by simp only [buildBoundaryAgglomerates, hw]; rfl⟩

example : buildBoundaryAgglomerates 5 (fun _ => true) (fun c => c / 3 + 1) 2
    (fun c => [c - 1, c + 1].filter (· < 5)) = .ok ([[2], [3]], [[3], [2]]) := rfl

/-! ## C16 -/

/-- C16: an increasing list of valid active cell indices selects exactly these cells, in order,
whatever the width of the iterator's difference type (at most `2^31` cells). -/
theorem C16_increasing (wide : Bool) (nCells : ℕ) (hN : nCells ≤ 2 ^ 31) (cs : List ℕ)
    (hs : cs.Pairwise (· < ·)) (hr : ∀ c ∈ cs, c < nCells) :
    patchCellsByIndex wide nCells cs = .ok cs := by
  cases cs with
  | nil => rfl
  | cons c cs =>
    have hc := hr c (by simp)
    have hadv : advance nCells 0 (distance wide c 0) = .ok (c : ℤ) := by
      rw [distance_up wide (Nat.zero_le _) (by omega)]
      unfold advance
      rw [if_pos (by simp; omega)]
      simp
    simp only [patchCellsByIndex, hadv, Outcome.ok_bind, Int.toNat_natCast]
    rw [advanceLoop_sorted hN cs c _ hs (fun d hd => hr d (List.mem_cons_of_mem _ hd))]
    rfl

/-- C16: with a 64-bit difference type a list that is not in increasing order leaves the mesh
(undefined behaviour); an index that is out of range does so with either width. -/
theorem C16_outside (wide : Bool) (nCells : ℕ) (hN : nCells ≤ 2 ^ 31) (cs : List ℕ)
    (h31 : ∀ c ∈ cs, c < 2 ^ 31)
    (h : (∃ c ∈ cs, nCells ≤ c) ∨ (wide = true ∧ ¬ cs.Pairwise (· ≤ ·))) :
    ∃ w, patchCellsByIndex wide nCells cs = .ub w := by
  cases cs with
  | nil => simp at h
  | cons c cs =>
    by_cases hc : c < nCells
    · have hadv : advance nCells 0 (distance wide c 0) = .ok (c : ℤ) := by
        rw [distance_up wide (Nat.zero_le _) (by omega)]
        unfold advance
        rw [if_pos (by simp; omega)]
        simp
      simp only [patchCellsByIndex, hadv, Outcome.ok_bind, Int.toNat_natCast]
      apply advanceLoop_ub hN cs c _ hc (fun d hd => h31 d (List.mem_cons_of_mem _ hd))
      rcases h with ⟨e, he, heN⟩ | h
      · rcases List.mem_cons.1 he with rfl | he
        · omega
        · exact Or.inl ⟨e, he, heN⟩
      · exact Or.inr h
    · refine ⟨"iterator outside the mesh", ?_⟩
      have : advance nCells 0 (distance wide c 0) = .ub "iterator outside the mesh" := by
        rw [distance_up wide (Nat.zero_le _) (h31 c (by simp))]
        unfold advance
        rw [if_neg (by omega)]
      simp only [patchCellsByIndex, this]
      rfl

/-- C16: with a 32-bit difference type the unsigned distance wraps back to a negative step, and
every list of valid indices, in any order, selects its cells. -/
theorem C16_any_order_narrow (nCells : ℕ) (hN : nCells ≤ 2 ^ 31) (cs : List ℕ)
    (hr : ∀ c ∈ cs, c < nCells) : patchCellsByIndex false nCells cs = .ok cs := by
  cases cs with
  | nil => rfl
  | cons c cs =>
    have hc := hr c (by simp)
    have hadv : advance nCells 0 (distance false c 0) = .ok (c : ℤ) := by
      rw [distance_up false (Nat.zero_le _) (by omega)]
      unfold advance
      rw [if_pos (by simp; omega)]
      simp
    simp only [patchCellsByIndex, hadv, Outcome.ok_bind, Int.toNat_natCast]
    rw [advanceLoop_narrow hN cs c _ hc (fun d hd => hr d (List.mem_cons_of_mem _ hd))]
    rfl

/-- C16, selection by id after the block partitioner on a fresh mesh: every owned cell is in the
patch of exactly one id in `1, …, n`, other cells are in none, and cells come in mesh order. -/
theorem C16_by_id (m : Mesh) (debug : Bool) (dim nx ny nz : ℕ) (u' : UserIndex) (n : ℕ)
    (h : buildAgglomeratesBlock m debug dim nx ny nz (fun _ => 0) = .ok (u', n)) :
    (∀ c, c < m.nCells → m.owned c = true →
      ∃! a, 1 ≤ a ∧ a ≤ n ∧ c ∈ patchCellsById m.nCells u' a) ∧
    (∀ c a, 1 ≤ a → c ∈ patchCellsById m.nCells u' a → c < m.nCells ∧ m.owned c = true) ∧
    (∀ a, (patchCellsById m.nCells u' a).Pairwise (· < ·)) := by
  obtain ⟨h1, h2⟩ := C11_owned_cells_flagged m debug dim nx ny nz _ u' n (fun _ _ _ => rfl) h
  refine ⟨?_, ?_, ?_⟩
  · intro c hc ho
    refine ⟨u' c, ⟨(h1 c hc ho).1, (h1 c hc ho).2, by simp [patchCellsById, hc]⟩, ?_⟩
    rintro a ⟨_, _, ha⟩
    simp only [patchCellsById, List.mem_filter, decide_eq_true_eq] at ha
    exact ha.2.symm
  · intro c a ha hc
    simp only [patchCellsById, List.mem_filter, List.mem_range, decide_eq_true_eq] at hc
    refine ⟨hc.1, ?_⟩
    by_contra ho
    have := h2 c (by simpa using ho)
    omega
  · intro a
    exact List.Pairwise.filter _ List.pairwise_lt_range

example : patchCellsByIndex true 9 [1, 4, 8] = .ok [1, 4, 8] := by decide
example : ∃ w, patchCellsByIndex true 9 [4, 1] = .ub w := ⟨_, rfl⟩

/-! ## C17 -/

/-- C17: if patch and global numbering agree on shared dofs and patch dofs are in range, the map is
built, has one entry per patch dof, and sends every patch dof to the global dof at the same position
of the same cell. -/
theorem C17_dof_map (nDofs : ℕ) (cells : List (List ℕ × List ℕ)) (ha : DofsAgree cells)
    (hr : ∀ a g, (a, g) ∈ cells → ∀ x ∈ a, x < nDofs) :
    ∃ map, computeDofIndexMap nDofs (cells.map (fun c => (c.1, some c.2))) = .ok map ∧
      map.length = nDofs ∧
      ∀ a g, (a, g) ∈ cells → ∀ i x : ℕ, a[i]? = some x → map[x]? = g[i]? := by
  obtain ⟨f, hf⟩ := dofsAgree_fun ha
  have hcells : cells.map (fun c => (c.1, some c.2)) =
      (cells.map Prod.fst).map (fun as => (as, some (as.map f))) := by
    rw [List.map_map]
    apply List.map_congr_left
    rintro ⟨a, g⟩ hm
    simp [← hf a g hm]
  obtain ⟨m, h1, h2, h3⟩ := dofLoop_spec f (cells.map Prod.fst) (List.replicate nDofs 0) (by
    intro as has a haa
    obtain ⟨⟨a', g⟩, hm, rfl⟩ := List.mem_map.1 has
    simpa using hr a' g hm a haa)
  refine ⟨m, by rw [computeDofIndexMap, hcells, h1], by simpa using h2, ?_⟩
  intro a g hm i x hx
  have hxa : x ∈ a := List.mem_of_getElem? hx
  rw [h3 x (by simpa using hr a g hm x hxa), if_pos ⟨a, List.mem_map.2 ⟨_, hm, rfl⟩, hxa⟩,
    hf a g hm, List.getElem?_map, hx]
  rfl

/-- C17: under the same conditions the map does not depend on the order of the cells. -/
theorem C17_order_independent (nDofs : ℕ) (cells cells' : List (List ℕ × List ℕ))
    (hp : cells.Perm cells') (ha : DofsAgree cells)
    (hr : ∀ a g, (a, g) ∈ cells → ∀ x ∈ a, x < nDofs) :
    computeDofIndexMap nDofs (cells.map (fun c => (c.1, some c.2))) =
      computeDofIndexMap nDofs (cells'.map (fun c => (c.1, some c.2))) := by
  obtain ⟨f, hf⟩ := dofsAgree_fun ha
  have conv : ∀ l : List (List ℕ × List ℕ), (∀ c ∈ l, c ∈ cells) →
      l.map (fun c => (c.1, some c.2)) =
        (l.map Prod.fst).map (fun as => (as, some (as.map f))) := by
    intro l hl
    rw [List.map_map]
    apply List.map_congr_left
    rintro ⟨a, g⟩ hm
    simp [← hf a g (hl _ hm)]
  rw [conv cells (fun _ h => h), conv cells' (fun c h => hp.mem_iff.2 h)]
  obtain ⟨m, h1, h2, h3⟩ := dofLoop_spec f (cells.map Prod.fst) (List.replicate nDofs 0) (by
    intro as has a haa
    obtain ⟨⟨a', g⟩, hm, rfl⟩ := List.mem_map.1 has
    simpa using hr a' g hm a haa)
  obtain ⟨m', h1', h2', h3'⟩ := dofLoop_spec f (cells'.map Prod.fst) (List.replicate nDofs 0) (by
    intro as has a haa
    obtain ⟨⟨a', g⟩, hm, rfl⟩ := List.mem_map.1 has
    simpa using hr a' g (hp.mem_iff.2 hm) a haa)
  unfold computeDofIndexMap
  rw [h1, h1']
  congr 1
  apply List.ext_getElem?
  intro k
  by_cases hk : k < nDofs
  · rw [h3 k (by simpa using hk), h3' k (by simpa using hk)]
    have : (∃ as ∈ cells.map Prod.fst, k ∈ as) ↔ (∃ as ∈ cells'.map Prod.fst, k ∈ as) := by
      constructor
      · rintro ⟨as, q1, q2⟩; exact ⟨as, (hp.map _).mem_iff.1 q1, q2⟩
      · rintro ⟨as, q1, q2⟩; exact ⟨as, (hp.map _).mem_iff.2 q1, q2⟩
    by_cases hc : ∃ as ∈ cells.map Prod.fst, k ∈ as
    · rw [if_pos hc, if_pos (this.1 hc)]
    · rw [if_neg hc, if_neg (fun h => hc (this.2 h))]
  · rw [List.getElem?_eq_none (by rw [h2]; simpa using Nat.le_of_not_lt hk),
      List.getElem?_eq_none (by rw [h2']; simpa using Nat.le_of_not_lt hk)]

/-- C17: a patch cell missing from the cell map is reported by an exception, wherever it occurs
after cells that are in range. -/
theorem C17_missing_cell (nDofs : ℕ) (cells : List (List ℕ × List ℕ)) (ha : DofsAgree cells)
    (hr : ∀ a g, (a, g) ∈ cells → ∀ x ∈ a, x < nDofs) (a : List ℕ)
    (rest : List (List ℕ × Option (List ℕ))) :
    computeDofIndexMap nDofs (cells.map (fun c => (c.1, some c.2)) ++ (a, none) :: rest) =
      .throws "std::out_of_range" := by
  have app : ∀ (l1 l2 : List (List ℕ × Option (List ℕ))) (m m' : List ℕ),
      dofLoop l1 m = .ok m' → dofLoop (l1 ++ l2) m = dofLoop l2 m' := by
    intro l1
    induction l1 with
    | nil =>
      intro l2 m m' h
      simp only [dofLoop, Outcome.ok.injEq] at h
      simp [h]
    | cons c l1 ih =>
      intro l2 m m' h
      obtain ⟨a, g⟩ := c
      cases g with
      | none => simp [dofLoop] at h
      | some g =>
        simp only [dofLoop, Outcome.bind_eq_ok] at h
        obtain ⟨m1, h1, h2⟩ := h
        simp only [List.cons_append, dofLoop, h1, Outcome.ok_bind]
        exact ih l2 m1 m' h2
  obtain ⟨map, h1, _⟩ := C17_dof_map nDofs cells ha hr
  unfold computeDofIndexMap at h1 ⊢
  rw [app _ _ _ _ h1]
  rfl

example : DofsAgree [([0, 1, 2], [10, 11, 12]), ([2, 1, 3], [12, 11, 20])] ∧
    computeDofIndexMap 4 [([0, 1, 2], some [10, 11, 12]), ([2, 1, 3], some [12, 11, 20])] =
      .ok [10, 11, 12, 20] :=
  ⟨dofsAgree_of_fun [[0, 1, 2], [2, 1, 3]] (fun x => if x = 3 then 20 else 10 + x), by decide⟩

/-! ## C18 -/

theorem outputLoop_spec (f : String) : ∀ (is : List ℕ) (k : ℕ) (v : List String),
    outputLoop f (is ++ [k]) v = v.set 0 (pieceName f k)
  | [], k, v => by simp [outputLoop, pieceName]
  | i :: is, k, v => by
    simp only [List.cons_append, outputLoop]
    rw [outputLoop_spec f is k]
    cases v <;> simp

/-- What the master record contains: the last file name followed by empty names. -/
theorem pvtuRecord_eq (f : String) (n : ℕ) :
    pvtuRecord f (n + 1) = pieceName f n :: List.replicate n "" := by
  unfold pvtuRecord
  rw [List.range_succ, outputLoop_spec]
  rfl

theorem pieceName_inj {f : String} {i j : ℕ} (h : pieceName f i = pieceName f j) : i = j := by
  unfold pieceName at h
  rw [String.append_left_inj, String.append_right_inj] at h
  exact Nat.repr_injective h

theorem pieceName_ne_empty (f : String) (i : ℕ) : pieceName f i ≠ "" := by
  intro h
  have := congrArg String.length h
  simp [pieceName, String.length_append] at this

/-- C18 is false: with two or more processes the master record misses the file written by every
process but the last one. -/
theorem C18_pvtu_record_violated (f : String) (n : ℕ) (rank : ℕ) (hr : rank + 1 < n) :
    pieceName f rank ∉ pvtuRecord f n := by
  obtain ⟨k, rfl⟩ : ∃ k, n = k + 1 := ⟨n - 1, by omega⟩
  rw [pvtuRecord_eq]
  intro h
  rcases List.mem_cons.1 h with h | h
  · have := pieceName_inj h; omega
  · exact pieceName_ne_empty f rank (List.eq_of_mem_replicate h)

example : pieceName "agg" 0 ∉ pvtuRecord "agg" 2 := C18_pvtu_record_violated _ _ _ (by decide)

/-- C18, the part that holds: with one process the record names the file of that process.
Missing: two or more processes, where the property is false. -/
theorem C18_single_process_partial (f : String) : pvtuRecord f 1 = [pieceName f 0] :=
  pvtuRecord_eq f 0

/-! ## C19 -/

/-- C19: any spelling of `zoltan` or `metis` runs the graph partitioner with the requested number of
agglomerates, any spelling of `block` runs the block partitioner with the requested sizes; for every
other name an exception is thrown and the mesh and the object are left untouched. -/
theorem C19_dispatch {S : Type} (dim : ℕ) (graphAlg : String → ℕ → S → S × Outcome ℕ)
    (blockAlg : ℕ → ℕ → ℕ → S → S × Outcome ℕ) (p : AggParams) (s : S) (name : String)
    (hp : p.partitioner = some name) :
    (∀ n, p.nAgglomerates = some n → CaseVariant name "zoltan" →
      buildAgglomerates dim graphAlg blockAlg p s = graphAlg "zoltan" n s) ∧
    (∀ n, p.nAgglomerates = some n → CaseVariant name "metis" →
      buildAgglomerates dim graphAlg blockAlg p s = graphAlg "metis" n s) ∧
    (∀ nx ny nz, p.nx = some nx → p.ny = some ny → (dim = 3 → p.nz = some nz) →
      (dim ≠ 3 → nz = 1) → CaseVariant name "block" →
      buildAgglomerates dim graphAlg blockAlg p s = blockAlg nx ny nz s) ∧
    (¬ CaseVariant name "zoltan" → ¬ CaseVariant name "metis" → ¬ CaseVariant name "block" →
      ∃ msg, buildAgglomerates dim graphAlg blockAlg p s = (s, .throws msg)) := by
  have hz := lower_eq_caseVariant name "zoltan" (by decide)
  have hm := lower_eq_caseVariant name "metis" (by decide)
  have hb := lower_eq_caseVariant name "block" (by decide)
  simp only [buildAgglomerates, dispatch, hp, ptreeGet, Outcome.ok_bind]
  refine ⟨?_, ?_, ?_, ?_⟩
  · intro n hn h
    rw [← hz] at h
    simp [h, hn]
  · intro n hn h
    rw [← hm] at h
    simp [h, hn]
  · intro nx ny nz h1 h2 h3 h4 h
    rw [← hb] at h
    by_cases hd : dim = 3
    · simp [h, h1, h2, hd, h3 hd]
    · simp [h, h1, h2, hd, h4 hd]
  · intro h1 h2 h3
    rw [← hz] at h1
    rw [← hm] at h2
    rw [← hb] at h3
    simp [h1, h2, h3]

/-- C19: a missing strategy name or a missing numeric parameter also throws before any cell is
flagged. -/
theorem C19_missing_parameter {S : Type} (dim : ℕ) (graphAlg : String → ℕ → S → S × Outcome ℕ)
    (blockAlg : ℕ → ℕ → ℕ → S → S × Outcome ℕ) (p : AggParams) (s : S)
    (h : p.partitioner = none ∨ (∃ name, p.partitioner = some name ∧
      ((p.nAgglomerates = none ∧ (CaseVariant name "zoltan" ∨ CaseVariant name "metis")) ∨
       (CaseVariant name "block" ∧ (p.nx = none ∨ p.ny = none ∨ (dim = 3 ∧ p.nz = none)))))) :
    ∃ msg, buildAgglomerates dim graphAlg blockAlg p s = (s, .throws msg) := by
  simp only [buildAgglomerates, dispatch]
  rcases h with h | ⟨name, hp, h⟩
  · simp [h, ptreeGet]
  · have hz := lower_eq_caseVariant name "zoltan" (by decide)
    have hm := lower_eq_caseVariant name "metis" (by decide)
    have hb := lower_eq_caseVariant name "block" (by decide)
    rw [← hz, ← hm, ← hb] at h
    simp only [hp, ptreeGet, Outcome.ok_bind]
    rcases h with ⟨hn, h | h⟩ | ⟨h, hx⟩
    · simp [h, hn]
    · simp [h, hn]
    · cases hnx : p.nx with
      | none => simp [h]
      | some nx =>
        cases hny : p.ny with
        | none => simp [h]
        | some ny =>
          have : dim = 3 ∧ p.nz = none := by simpa [hnx, hny] using hx
          simp [h, this.1, this.2]

example : CaseVariant "ZolTan" "zoltan" := by
  unfold CaseVariant
  rw [← lower_map_iff _ (by decide)]
  decide

/-! ## C54 -/

/-- C54: when the owned cells form a box, the block partitioner produces exactly the tiling by
`nx × ny × nz` blocks: two owned cells get the same id iff they lie in the same tile, and the count
returned is the number of tiles. -/
theorem C54_tiling (m : Mesh) (dim X Y Z : ℕ) (hdim : dim ≤ 3) (pos : ℕ → ℕ × ℕ × ℕ)
    (hb : OwnedBox m dim X Y Z pos) (nx ny nz : ℕ) (hx : 1 ≤ nx) (hy : 1 ≤ ny) (hz : 1 ≤ nz)
    (debug : Bool) (u u' : UserIndex) (n : ℕ) (h0 : ∀ c, m.owned c = true → u c = 0)
    (h : buildAgglomeratesBlock m debug dim nx ny nz u = .ok (u', n)) :
    (∀ c d, m.owned c = true → m.owned d = true → (u' c = u' d ↔
      tile nx ny (layers dim nz) (pos c) = tile nx ny (layers dim nz) (pos d))) ∧
    n = tiles X nx * (tiles Y ny * tiles Z (layers dim nz)) :=
  ⟨block_tiles hb hdim hx hy hz h0 h, block_count hb hdim hx hy hz h0 h⟩

example : OwnedBox (gridMesh 5 3) 2 5 3 1 (gridPos 5) := gridMesh_box (by decide)

/-! ## C55 -/

/-- C55: on every mesh, an agglomerate made by the block partitioner has at most `nx·ny·nz` cells
(`nx·ny` in two dimensions; one cell if a block size is zero). -/
theorem C55_agglomerate_size (m : Mesh) (debug : Bool) (dim nx ny nz : ℕ) (hdim : dim ≤ 3)
    (u u' : UserIndex)
    (n : ℕ) (h0 : ∀ c, u c = 0)
    (h : buildAgglomeratesBlock m debug dim nx ny nz u = .ok (u', n)) (a : ℕ) (ha : 1 ≤ a) :
    ((Finset.range m.nCells).filter (fun c => u' c = a)).card ≤
      max 1 (nx * ny * layers dim nz) := by
  obtain ⟨c, hc⟩ := blockLoop_size (buildBlock_ok h) a ha (fun c => by rw [h0 c]; omega)
  by_cases hpos : 1 ≤ nx ∧ 1 ≤ ny ∧ 1 ≤ layers dim nz
  · -- the start cell is the first cell of the walk
    have hk : (if dim < 3 then 1 else nz) = layers dim nz := by
      unfold layers
      by_cases h3 : dim = 3
      · simp [h3]
      · rw [if_pos (by omega), if_neg h3]
    have hsub : (Finset.range m.nCells).filter (fun c => u' c = a) ⊆
        (trailZ m dim nx ny (layers dim nz) c).toFinset := by
      intro d hd
      simp only [Finset.mem_filter, Finset.mem_range] at hd
      have := hc d hd.2
      simp only [aggCells, List.mem_cons, hk] at this
      rw [List.mem_toFinset]
      rcases this with rfl | this
      · obtain ⟨i, hi⟩ : ∃ i, nx = i + 1 := ⟨nx - 1, by omega⟩
        obtain ⟨j, hj⟩ : ∃ j, ny = j + 1 := ⟨ny - 1, by omega⟩
        obtain ⟨k, hk'⟩ : ∃ k, layers dim nz = k + 1 := ⟨layers dim nz - 1, by omega⟩
        rw [hk', hi, hj]
        simp [trailZ, trailY, trailX]
      · exact this
    have h1 := Finset.card_le_card hsub
    have h2 := List.toFinset_card_le (trailZ m dim nx ny (layers dim nz) c)
    have h3 := trailZ_length m dim nx ny (layers dim nz) c
    have h4 : layers dim nz * (ny * nx) = nx * ny * layers dim nz := by ring
    have h5 := le_max_right 1 (nx * ny * layers dim nz)
    omega
  · have hsub : (Finset.range m.nCells).filter (fun c => u' c = a) ⊆
        (aggCells m dim nx ny nz c).toFinset := by
      intro d hd
      simp only [Finset.mem_filter, Finset.mem_range] at hd
      rw [List.mem_toFinset]
      exact hc d hd.2
    have hk : (if dim < 3 then 1 else nz) = layers dim nz := by
      unfold layers
      by_cases h3 : dim = 3
      · simp [h3]
      · rw [if_pos (by omega), if_neg h3]
    have h1 := Finset.card_le_card hsub
    have h2 := List.toFinset_card_le (aggCells m dim nx ny nz c)
    have h3 := trailZ_length m dim nx ny (layers dim nz) c
    have h4 : layers dim nz * (ny * nx) = 0 := by
      rcases Nat.eq_zero_or_pos nx with h | h
      · simp [h]
      · rcases Nat.eq_zero_or_pos ny with h' | h'
        · simp [h']
        · rcases Nat.eq_zero_or_pos (layers dim nz) with h'' | h''
          · simp [h'']
          · exact absurd ⟨h, h', h''⟩ hpos
    simp only [aggCells, hk, List.length_cons] at h2
    have h5 := le_max_left 1 (nx * ny * layers dim nz)
    simp only [aggCells, hk] at h1
    omega

example : ∃ u' n, buildAgglomeratesBlock (gridMesh 5 3) true 2 2 2 0 (fun _ => 0) = .ok (u', n) ∧
    ((Finset.range 15).filter (fun c => u' c = 1)).card = 4 := ⟨_, _, rfl, by decide⟩

end Mfmg
