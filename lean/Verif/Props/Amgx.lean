import Verif.Lemmas.Amgx
import Mathlib.Algebra.Ring.Int.Defs
import Mathlib.Tactic.IntervalCases

/-!
# C45: the AMGX renumbering
-/

set_option autoImplicit false

namespace Mfmg

/-- The number that the two maps give to a global index. -/
theorem amgxColumn_owned (nGlobal : ℕ) (owned cols sent : List ℕ) (hnd : owned.Nodup) (i : ℕ)
    (h : i < owned.length) :
    amgxColumn (haloMap nGlobal owned cols) (localMap owned.length sent) owned.length owned[i]
      = localNumber owned.length sent i := by
  unfold amgxColumn
  rw [haloMap_owned nGlobal owned cols hnd i h, if_pos h, localMap_at _ _ _ h]

theorem amgxColumn_halo (nGlobal : ℕ) (owned cols sent : List ℕ) (hnd : owned.Nodup) (k : ℕ)
    (h : k < (haloCols nGlobal owned cols).length) :
    amgxColumn (haloMap nGlobal owned cols) (localMap owned.length sent) owned.length
      (haloCols nGlobal owned cols)[k] = owned.length + k := by
  unfold amgxColumn
  rw [haloMap_halo nGlobal owned cols hnd k h, if_neg (by omega)]

/-- **C45.** The numbering of rows and columns is injective, fills `0, …, n + h - 1` and puts the inner
rows first, then the rows that are sent, then the columns owned by other processes.  For all index sets,
columns and sets of sent rows. -/
theorem C45_numbering (nGlobal : ℕ) (owned cols sent : List ℕ) (hnd : owned.Nodup)
    (hcols : ∀ g ∈ cols, g < nGlobal) (hsent : sent.Nodup) (hs : ∀ i ∈ sent, i < owned.length) :
    AmgxNumbering owned cols sent
      (amgxColumn (haloMap nGlobal owned cols) (localMap owned.length sent) owned.length) := by
  have hcase : ∀ g, g ∈ owned ∨ g ∈ cols →
      (∃ i, ∃ h : i < owned.length, g = owned[i]) ∨
      (∃ k, ∃ h : k < (haloCols nGlobal owned cols).length,
        g = (haloCols nGlobal owned cols)[k]) := by
    intro g hg
    by_cases ho : g ∈ owned
    · obtain ⟨i, hi, e⟩ := List.getElem_of_mem ho
      exact Or.inl ⟨i, hi, e.symm⟩
    · have hm : g ∈ haloCols nGlobal owned cols :=
        (mem_haloCols nGlobal owned cols hcols g).2 ⟨hg.resolve_left ho, ho⟩
      obtain ⟨k, hk, e⟩ := List.getElem_of_mem hm
      exact Or.inr ⟨k, hk, e.symm⟩
  constructor
  · intro g g' hg hg' h
    rcases hcase g hg with ⟨i, hi, rfl⟩ | ⟨k, hk, rfl⟩ <;>
      rcases hcase g' hg' with ⟨j, hj, rfl⟩ | ⟨l, hl, rfl⟩
    · rw [amgxColumn_owned _ _ _ _ hnd, amgxColumn_owned _ _ _ _ hnd] at h
      have := localNumber_inj _ _ hsent hs i j hi hj h
      subst this; rfl
    · rw [amgxColumn_owned _ _ _ _ hnd, amgxColumn_halo _ _ _ _ hnd] at h
      have := localNumber_lt _ _ hsent hs i hi; omega
    · rw [amgxColumn_owned _ _ _ _ hnd, amgxColumn_halo _ _ _ _ hnd] at h
      have := localNumber_lt _ _ hsent hs j hj; omega
    · rw [amgxColumn_halo _ _ _ _ hnd, amgxColumn_halo _ _ _ _ hnd] at h
      have : k = l := by omega
      subst this; rfl
  · intro i h hi
    rw [amgxColumn_owned _ _ _ _ hnd]
    exact localNumber_inner _ _ hsent hs i h hi
  · intro i h hi
    rw [amgxColumn_owned _ _ _ _ hnd]
    exact localNumber_sent _ _ hsent hs i h hi
  · intro g hg ho
    rcases hcase g (Or.inr hg) with ⟨i, hi, rfl⟩ | ⟨k, hk, rfl⟩
    · exact absurd (List.getElem_mem hi) ho
    · rw [amgxColumn_halo _ _ _ _ hnd]; omega
  · refine ⟨haloCols nGlobal owned cols, haloCols_nodup _ _ _, mem_haloCols _ _ _ hcols, ?_⟩
    intro k
    constructor
    · intro hk
      by_cases hk' : k < owned.length
      · obtain ⟨i, hi, e⟩ := onto_of_inj owned.length (localNumber owned.length sent)
          (fun i hi => localNumber_lt _ _ hsent hs i hi)
          (fun i j hi hj h => localNumber_inj _ _ hsent hs i j hi hj h) k hk'
        exact ⟨owned[i], Or.inl (List.getElem_mem hi), by rw [amgxColumn_owned _ _ _ _ hnd, e]⟩
      · have hl : k - owned.length < (haloCols nGlobal owned cols).length := by omega
        refine ⟨(haloCols nGlobal owned cols)[k - owned.length], Or.inr ?_, ?_⟩
        · exact ((mem_haloCols nGlobal owned cols hcols _).1 (List.getElem_mem hl)).1
        · rw [amgxColumn_halo _ _ _ _ hnd]; omega
    · rintro ⟨g, hg, rfl⟩
      rcases hcase g hg with ⟨i, hi, rfl⟩ | ⟨l, hl, rfl⟩
      · rw [amgxColumn_owned _ _ _ _ hnd]
        have := localNumber_lt _ _ hsent hs i hi; omega
      · rw [amgxColumn_halo _ _ _ _ hnd]; omega

example : AmgxNumbering [2, 5, 7] [2, 9, 5, 0, 7, 9] [1]
    (amgxColumn (haloMap 10 [2, 5, 7] [2, 9, 5, 0, 7, 9]) (localMap 3 [1]) 3) :=
  C45_numbering 10 [2, 5, 7] _ [1] (by decide) (by decide) (by decide) (by decide)

example : [2, 5, 7, 0, 9].map
    (amgxColumn (haloMap 10 [2, 5, 7] [2, 9, 5, 0, 7, 9]) (localMap 3 [1]) 3) = [0, 2, 1, 3, 4] := by
  decide +kernel

section

variable {K : Type}

/-- The entries of a well-formed CSR matrix are those of its rows, in order. -/
theorem csr_flatten (a : Csr K) (rows : List (List (ℕ × K))) (ha : a.HasRows rows) :
    a.col.zip a.val = rows.flatten := by
  have h1 : ∀ i (h : i < rows.length), a.row i = rows[i] := ha.rows_eq
  have hlen : (a.col.zip a.val).length = rows.flatten.length := by
    rw [List.length_zip, ha.cols, ha.vals, List.length_flatten, Nat.min_self]
  -- both sides have the same slices
  have h2 : ∀ k, k ≤ rows.length →
      (a.col.zip a.val).take (rowStart rows k) = (rows.take k).flatten := by
    intro k
    induction k with
    | zero => intro _; simp [rowStart]
    | succ k ih =>
      intro hk
      have hk' : k < rows.length := by omega
      have hr := h1 k hk'
      unfold Csr.row at hr
      rw [ha.ptrs] at hr
      simp only [List.getD_eq_getElem?_getD, List.getElem?_map,
        List.getElem?_range (show k < rows.length + 1 by omega),
        List.getElem?_range (show k + 1 < rows.length + 1 by omega), Option.map_some,
        Option.getD_some] at hr
      rw [rowStart_succ rows k hk', Nat.add_sub_cancel_left] at hr
      rw [rowStart_succ rows k hk', List.take_add, ih (by omega), hr,
        List.take_succ_eq_append_getElem hk', List.flatten_append]
      simp
  have h3 := h2 rows.length (le_refl _)
  rw [List.take_length, rowStart_length, ← hlen, List.take_length] at h3
  exact h3

/-- **C45.** The conversion always succeeds and keeps the matrix: with `ν` the numbering of
`C45_numbering`, the row of the new matrix with the number of the owned row `owned[i]` has exactly the
entries of the old row `i`, with columns renumbered by `ν`, sorted by column (strictly, if the columns
of the old row are different).  The second map returned is the numbering of the owned rows.  For every
`std::sort` that meets its contract, in debug and release builds. -/
theorem C45_matrix (debug : Bool) (sort : (ℕ → ℕ → Bool) → List ℕ → List ℕ)
    (hsort : SortContract sort) (nGlobal : ℕ) (owned sent : List ℕ) (a : Csr K)
    (rows : List (List (ℕ × K))) (ha : a.HasRows rows) (hrows : rows.length = owned.length)
    (hnd : owned.Nodup) (hcols : ∀ g ∈ a.col, g < nGlobal) (hsent : sent.Nodup)
    (hs : ∀ i ∈ sent, i < owned.length) :
    ∃ (halo loc : UMap) (a' : Csr K) (rows' : List (List (ℕ × K))) (ν : ℕ → ℕ),
      csrToAmgx debug sort nGlobal owned sent a = .ok (halo, loc, a') ∧
      AmgxNumbering owned a.col sent ν ∧
      (∀ g, g ∈ owned ∨ g ∈ a.col → ν g = amgxColumn halo loc owned.length g) ∧
      (∀ i (h : i < owned.length), loc.at i = ν owned[i]) ∧
      a'.HasRows rows' ∧ rows'.length = owned.length ∧
      ∀ i (h : i < owned.length), ∃ h' : ν owned[i] < rows'.length,
        rows'[ν owned[i]].Perm ((rows[i]'(by omega)).map fun e => (ν e.1, e.2)) ∧
        (rows'[ν owned[i]].map Prod.fst).Pairwise (· ≤ ·) ∧
        (((rows[i]'(by omega)).map Prod.fst).Nodup → SortedRow rows'[ν owned[i]]) := by
  have hnum := C45_numbering nGlobal owned a.col sent hnd hcols hsent hs
  generalize hν : amgxColumn (haloMap nGlobal owned a.col) (localMap owned.length sent)
    owned.length = ν at hnum
  have hown : ∀ i (h : i < owned.length), ν owned[i] = localNumber owned.length sent i := by
    intro i h
    rw [← hν]
    exact amgxColumn_owned nGlobal owned a.col sent hnd i h
  have hat : ∀ i (h : i < owned.length), (localMap owned.length sent).at i = ν owned[i] := by
    intro i h
    rw [hown i h, localMap_at _ _ _ h]
  -- the renumbered triples
  have hzip := csr_flatten a rows ha
  have hcolEq : a.col = rows.flatten.map Prod.fst := by
    rw [← hzip, List.map_fst_zip (by rw [ha.cols, ha.vals])]
  have hvalEq : a.val = rows.flatten.map Prod.snd := by
    rw [← hzip, List.map_snd_zip (by rw [ha.cols, ha.vals])]
  let t : List (ℕ × ℕ × K) :=
    (triples rows).map fun e => ((localMap owned.length sent).at e.1, ν e.2.1, e.2.2)
  have htrow : (csr2coo owned.length a.rowPtr).map (localMap owned.length sent).at
      = t.map fun e => e.1 := by
    have hcc := csr2coo_eq rows a ha
    rw [hrows] at hcc
    rw [hcc, List.map_map, List.map_map]
    rfl
  have htcol : a.col.map ν = t.map fun e => e.2.1 := by
    rw [hcolEq, ← triples_snd, List.map_map, List.map_map, List.map_map]
    rfl
  have htval : a.val = t.map fun e => e.2.2 := by
    rw [hvalEq, ← triples_snd, List.map_map, List.map_map]
    rfl
  obtain ⟨p, hp1, hp2, hp3⟩ := C34_sorts debug sort hsort (t.map fun e => e.1) (t.map fun e => e.2.1)
    (by simp)
  rw [List.length_map] at hp2
  obtain ⟨t', ht', hread⟩ := exists_permuted t p hp2
  have hpl : p.length = t.length := by rw [hp2.length_eq, List.length_range]
  have hpairs : p.map (fun i => ((t.map fun e => e.1).getD i default,
      (t.map fun e => e.2.1).getD i default)) = t'.map fun e => (e.1, e.2.1) := by
    apply List.ext_getElem?
    intro i
    by_cases hi : i < p.length
    · have hk : p[i] < t.length := List.mem_range.1 (hp2.subset (List.getElem_mem hi))
      rw [List.getElem?_map, List.getElem?_eq_getElem hi, List.getElem?_map,
        hread i p[i] (List.getElem?_eq_getElem hi), List.getElem?_eq_getElem hk]
      simp [hk]
    · rw [List.getElem?_eq_none (by rw [List.length_map]; omega),
        List.getElem?_eq_none (by rw [List.length_map, ht'.length_eq]; omega)]
  rw [hpairs, List.pairwise_map] at hp3
  have hsorted : t'.Pairwise (fun x y => x.1 ≤ y.1) := by
    refine hp3.imp ?_
    intro x y h
    rcases h with h | h
    · exact Nat.le_of_lt h
    · exact Nat.le_of_eq h.1
  have hrowlt : ∀ e ∈ t', e.1 < owned.length := by
    intro e he
    obtain ⟨f, hf, rfl⟩ := List.mem_map.1 (ht'.subset he)
    obtain ⟨hi, -⟩ := mem_triples rows f hf
    simp only
    rw [hat f.1 (by omega), hown f.1 (by omega)]
    exact localNumber_lt _ _ hsent hs f.1 (by omega)
  let rows' : List (List (ℕ × K)) :=
    (List.range owned.length).map fun j => (t'.filter (fun e => decide (e.1 = j))).map Prod.snd
  have hflat : rows'.flatten = t'.map Prod.snd := by
    have h1 := sorted_split (fun e : ℕ × ℕ × K => e.1) t' hsorted owned.length
    rw [List.filter_eq_self.2 (by intro e he; simpa using hrowlt e he)] at h1
    conv_rhs => rw [h1]
    rw [List.map_flatten, List.map_map]
    rfl
  have hcoo : coo2csr owned.length (t'.map fun e => e.1)
      = (List.range (rows'.length + 1)).map (rowStart rows') := by
    have hl : rows'.length = owned.length := by simp [rows']
    unfold coo2csr
    rw [hl]
    apply List.map_congr_left
    intro i hi
    have hi : i ≤ owned.length := by simpa [Nat.lt_succ_iff] using hi
    rw [List.countP_map]
    have := countP_lt_eq (fun e : ℕ × ℕ × K => e.1) t' hsorted i
    simp only [Function.comp_def] at this ⊢
    rw [this]
    unfold rowStart
    rw [← List.map_take, List.take_range, Nat.min_eq_left hi, List.map_map]
    simp [Function.comp_def]
  have ha' : ({ val := t'.map fun e => e.2.2, col := t'.map fun e => e.2.1,
                rowPtr := coo2csr owned.length (t'.map fun e => e.1) } : Csr K) = csrOf rows' := by
    rw [hcoo]
    unfold csrOf
    rw [hflat, List.map_map, List.map_map]
    rfl
  have hperm : ∀ i (h : i < owned.length) (h' : ν owned[i] < rows'.length),
      rows'[ν owned[i]].Perm ((rows[i]'(by omega)).map fun e => (ν e.1, e.2)) ∧
      (rows'[ν owned[i]].map Prod.fst).Pairwise (· ≤ ·) := by
    intro i h hl
    have hi' : i < rows.length := by omega
    have hrowi : rows'[ν owned[i]]'hl
        = (t'.filter (fun e => decide (e.1 = ν owned[i]))).map Prod.snd := by
      simp [rows']
    have hft : (t.filter (fun e => decide (e.1 = ν owned[i]))).map Prod.snd
        = (rows[i]).map fun e => (ν e.1, e.2) := by
      have h1 : (triples rows).filter (fun e => decide ((localMap owned.length sent).at e.1
          = ν owned[i])) = (triples rows).filter (fun e => decide (e.1 = i)) := by
        apply List.filter_congr
        intro e he
        obtain ⟨hi, -⟩ := mem_triples rows e he
        have he' : e.1 < owned.length := by omega
        rw [decide_eq_decide, hat e.1 he', hown e.1 he', hown i h]
        constructor
        · intro heq
          exact localNumber_inj _ _ hsent hs e.1 i he' h heq
        · intro heq
          rw [heq]
      have h2 := filter_triples rows i hi'
      show (List.filter _ ((triples rows).map _)).map Prod.snd = _
      rw [List.filter_map]
      simp only [Function.comp_def]
      rw [h1, h2, List.map_map, List.map_map]
      rfl
    constructor
    · rw [hrowi, ← hft]
      exact (ht'.filter _).map _
    · rw [hrowi, List.map_map, List.pairwise_map]
      have := hp3.filter (fun e => decide (e.1 = ν owned[i]))
      rw [List.pairwise_filter] at this ⊢
      refine this.imp ?_
      intro x y hxy hx hy
      have h1 := hxy hx hy
      simp only [decide_eq_true_eq] at hx hy
      rcases h1 with h1 | h1
      · simp only at h1; omega
      · exact h1.2
  refine ⟨haloMap nGlobal owned a.col, localMap owned.length sent, csrOf rows', rows', ν, ?_, hnum,
    ?_, hat, csrOf_hasRows _, by simp [rows'], ?_⟩
  · unfold csrToAmgx
    simp only []
    rw [hν, htrow, htcol, hp1, Outcome.ok_bind]
    conv_lhs => rw [htval]
    rw [applyPerm_map t t' p hp2 ht' hread, Outcome.ok_bind, applyPerm_map t t' p hp2 ht' hread,
      Outcome.ok_bind, applyPerm_map t t' p hp2 ht' hread, Outcome.ok_bind, ha']
    rfl
  · intro g _
    rw [hν]
  · intro i h
    have hl : ν owned[i] < owned.length := by
      rw [hown i h]; exact localNumber_lt _ _ hsent hs i h
    have hl' : ν owned[i] < rows'.length := by simpa [rows'] using hl
    refine ⟨hl', (hperm i h hl').1, (hperm i h hl').2, ?_⟩
    intro hdist
    have hi' : i < rows.length := by omega
    have hnd' : (rows'[ν owned[i]].map Prod.fst).Nodup := by
      rw [((hperm i h hl').1.map Prod.fst).nodup_iff, List.map_map]
      have h1 : (List.map (Prod.fst ∘ fun e : ℕ × K => (ν e.1, e.2)) rows[i])
          = (rows[i].map Prod.fst).map ν := by
        rw [List.map_map]; rfl
      rw [h1, List.nodup_map_iff_inj_on hdist]
      have hmem : ∀ g ∈ rows[i].map Prod.fst, g ∈ a.col := by
        intro g hg
        obtain ⟨e, he, rfl⟩ := List.mem_map.1 hg
        rw [hcolEq]
        exact List.mem_map_of_mem (List.mem_flatten.2 ⟨_, List.getElem_mem hi', he⟩)
      intro x hx y hy hxy
      exact hnum.inj x y (Or.inr (hmem x hx)) (Or.inr (hmem y hy)) hxy
    exact ((hperm i h hl').2.and hnd').imp fun hxy => lt_of_le_of_ne hxy.1 hxy.2

example : csrToAmgx true (fun _ _ => [0, 1, 5, 4, 6, 2, 3]) 10 [2, 5, 7] [1]
    (csrOf [[(2, 20), (9, 1)], [(5, 30), (0, 2)], [(7, 40), (2, 3), (9, 4)]])
    = .ok ([(2, 0), (5, 1), (7, 2), (0, 3), (9, 4)], [(0, 0), (1, 2), (2, 1)],
        { val := [20, 1, 3, 40, 4, 30, 2], col := [0, 4, 0, 1, 4, 2, 3], rowPtr := [0, 2, 5, 7] }) := by
  decide +kernel

example : ∃ (halo loc : UMap) (a' : Csr ℕ) (rows' : List (List (ℕ × ℕ))) (ν : ℕ → ℕ),
      csrToAmgx true exIndexSort 10 [2, 5, 7] [1]
        (csrOf [[(2, 20), (9, 1)], [(5, 30), (0, 2)], [(7, 40), (2, 3), (9, 4)]])
        = .ok (halo, loc, a') ∧ AmgxNumbering [2, 5, 7] [2, 9, 5, 0, 7, 2, 9] [1] ν ∧
      a'.HasRows rows' := by
  obtain ⟨halo, loc, a', rows', ν, h1, h2, _, _, h5, _⟩ := C45_matrix true exIndexSort
    exIndexSort_contract 10 [2, 5, 7] [1]
    (csrOf [[(2, 20), (9, 1)], [(5, 30), (0, 2)], [(7, 40), (2, 3), (9, 4)]])
    _ (csrOf_hasRows _) rfl (by decide) (by decide) (by decide) (by decide)
  exact ⟨halo, loc, a', rows', ν, h1, h2, h5⟩

end

section

variable {K : Type} [AddCommMonoid K] [Mul K]

theorem rowTimes_perm {r r' : List (ℕ × K)} (h : r.Perm r') (x : ℕ → K) :
    rowTimes r x = rowTimes r' x :=
  (h.map _).sum_eq

omit [AddCommMonoid K] [Mul K] in
theorem hasRows_unique (a : Csr K) (rows rows' : List (List (ℕ × K))) (h : a.HasRows rows)
    (h' : a.HasRows rows') : rows = rows' := by
  have hl : rows.length = rows'.length := by
    have := congrArg List.length (h.ptrs.symm.trans h'.ptrs)
    simpa using this
  apply List.ext_getElem hl
  intro i h1 h2
  rw [← h.rows_eq i h1, ← h'.rows_eq i h2]

/-- **C45.** The converted system is equivalent to the original one: if the right-hand sides and the
vectors correspond under the numbering, one solves the new equations of this process exactly if the
other solves the old ones. -/
theorem C45_solution (debug : Bool) (sort : (ℕ → ℕ → Bool) → List ℕ → List ℕ)
    (hsort : SortContract sort) (nGlobal : ℕ) (owned sent : List ℕ) (a : Csr K)
    (rows : List (List (ℕ × K))) (ha : a.HasRows rows) (hrows : rows.length = owned.length)
    (hnd : owned.Nodup) (hcols : ∀ g ∈ a.col, g < nGlobal) (hsent : sent.Nodup)
    (hs : ∀ i ∈ sent, i < owned.length) (halo loc : UMap) (a' : Csr K)
    (hconv : csrToAmgx debug sort nGlobal owned sent a = .ok (halo, loc, a'))
    (rows' : List (List (ℕ × K))) (ha' : a'.HasRows rows') (b x b' x' : ℕ → K)
    (hb : ∀ i, i < owned.length → b' (loc.at i) = b i)
    (hx : ∀ g, g ∈ owned ∨ g ∈ a.col → x' (amgxColumn halo loc owned.length g) = x g) :
    SolvesRows rows' b' x' ↔ SolvesRows rows b x := by
  obtain ⟨halo₁, loc₁, a₁, rows₁, ν, h1, h2, h3, h4, h5, h6, h7⟩ := C45_matrix debug sort hsort
    nGlobal owned sent a rows ha hrows hnd hcols hsent hs
  rw [h1] at hconv
  injection hconv with e
  injection e with e1 e2
  injection e2 with e2 e3
  subst e1 e2 e3
  obtain rfl := hasRows_unique a₁ _ _ ha' h5
  have hmem : ∀ i (h : i < rows.length), ∀ e ∈ rows[i], e.1 ∈ a.col := by
    intro i hi e he
    have := ha.rows_eq i hi
    rw [← this] at he
    have h8 := List.mem_of_mem_drop (List.mem_of_mem_take he)
    exact (List.of_mem_zip (a := e.1) (b := e.2) h8).1
  have hrow : ∀ i (h : i < owned.length), ∃ h' : ν owned[i] < rows'.length,
      rowTimes rows'[ν owned[i]] x' = rowTimes (rows[i]'(by omega)) x := by
    intro i hi
    obtain ⟨h', hp, -, -⟩ := h7 i hi
    refine ⟨h', ?_⟩
    rw [rowTimes_perm hp]
    unfold rowTimes
    rw [List.map_map]
    congr 1
    apply List.map_congr_left
    intro e he
    have hc := hmem i (by omega) e he
    simp only [Function.comp_def]
    rw [h3 e.1 (Or.inr hc), hx e.1 (Or.inr hc)]
  constructor
  · intro hS i hi
    have hi' : i < owned.length := by omega
    obtain ⟨h', hr⟩ := hrow i hi'
    rw [← hr, hS _ h', ← h4 i hi', hb i hi']
  · intro hS k hk
    obtain ⟨halo', _, _, honto⟩ := h2.onto
    obtain ⟨g, hg, rfl⟩ := (honto k).1 (by omega)
    have hgo : g ∈ owned := by
      by_contra hc
      have := h2.halo g (hg.resolve_left hc) hc
      omega
    obtain ⟨i, hi, rfl⟩ := List.getElem_of_mem hgo
    obtain ⟨h', hr⟩ := hrow i hi
    rw [hr, hS i (by omega), ← h4 i hi, hb i hi]

omit [Mul K] in
/-- **C45.** The vectors are reordered accordingly, for every order in which the map is traversed: the
entry of the reordered right-hand side with the new number of row `i` is entry `i`, and entry `i` of
the result is the entry of the solver's solution with the new number of row `i`. -/
theorem C45_vectors (n : ℕ) (sent : List ℕ) (hsent : sent.Nodup) (hs : ∀ i ∈ sent, i < n)
    (rowMap : UMap) (hmap : rowMap.Perm (localMap n sent)) (b sol x : List K)
    (hb : b.length = n) (hsol : sol.length = n) (hx : x.length = n) :
    (∃ b', amgxToSolver rowMap b = .ok b' ∧ b'.length = n ∧
      ∀ i, i < n → b'[(localMap n sent).at i]? = b[i]?) ∧
    ∃ x', amgxFromSolver rowMap sol x = .ok x' ∧ x'.length = n ∧
      ∀ i, i < n → x'[i]? = sol[(localMap n sent).at i]? := by
  have hmem : ∀ p : ℕ × ℕ, p ∈ rowMap ↔ p.1 < n ∧ p.2 = localNumber n sent p.1 := by
    intro p
    rw [hmap.mem_iff, localMap_eq, List.mem_map]
    constructor
    · rintro ⟨i, hi, rfl⟩
      exact ⟨List.mem_range.1 hi, rfl⟩
    · rintro ⟨h1, h2⟩
      exact ⟨p.1, List.mem_range.2 h1, by rw [← h2]⟩
  have hlt := localNumber_lt n sent hsent hs
  have hinj := localNumber_inj n sent hsent hs
  choose! inv hinv using onto_of_inj n (localNumber n sent) hlt (fun i j hi hj h => hinj i j hi hj h)
  have hinv' : ∀ i, i < n → inv (localNumber n sent i) = i := by
    intro i hi
    have := hinv (localNumber n sent i) (hlt i hi)
    exact hinj _ _ this.1 hi this.2
  constructor
  · obtain ⟨out, h1, h2, -, h4⟩ := scatter_ok b Prod.fst Prod.snd "tmp[pos.first]"
      "val_host[pos.second]" (fun k => b.getD (inv k) 0) rowMap b (by
        intro p hp
        obtain ⟨e1, e2⟩ := (hmem p).1 hp
        rw [e2, hinv' p.1 e1]
        constructor
        · rw [List.getElem?_eq_getElem (by omega)]; simp [hb, e1]
        · have := hlt p.1 e1; omega)
    refine ⟨out, h1, by omega, ?_⟩
    intro i hi
    rw [localMap_at _ _ _ hi]
    have := h4 (i, localNumber n sent i) ((hmem _).2 ⟨hi, rfl⟩)
    simp only at this
    rw [this, hinv' i hi, List.getElem?_eq_getElem (by omega)]
    simp [hb, hi]
  · obtain ⟨out, h1, h2, -, h4⟩ := scatter_ok sol Prod.snd Prod.fst "tmp[pos.second]"
      "x[pos.first]" (fun k => sol.getD (localNumber n sent k) 0) rowMap x (by
        intro p hp
        obtain ⟨e1, e2⟩ := (hmem p).1 hp
        have := hlt p.1 e1
        rw [e2]
        constructor
        · rw [List.getElem?_eq_getElem (by omega)]; simp [hsol, this]
        · omega)
    refine ⟨out, h1, by omega, ?_⟩
    intro i hi
    have := hlt i hi
    rw [localMap_at _ _ _ hi]
    have h5 := h4 (i, localNumber n sent i) ((hmem _).2 ⟨hi, rfl⟩)
    simp only at h5
    rw [h5, List.getElem?_eq_getElem (by omega)]
    simp [hsol, this]

example : ∃ b', amgxToSolver [(1, 2), (0, 0), (2, 1)] [10, 11, 12] = .ok b' ∧ b'.length = 3 ∧
      ∀ i, i < 3 → b'[(localMap 3 [1]).at i]? = [10, 11, 12][i]? :=
  (C45_vectors 3 [1] (by decide) (by decide) [(1, 2), (0, 0), (2, 1)] (by decide +kernel)
    [10, 11, 12] [1, 2, 3] [0, 0, 0] rfl rfl rfl).1

/-- **C45.** The whole solve on one process (no columns of other processes): if the solver returns a
solution of the system it was given, then `x` comes back as a solution of the original system with the
original right-hand side, for host vectors and for device vectors. -/
theorem C45_solve (debug : Bool) (sort : (ℕ → ℕ → Bool) → List ℕ → List ℕ)
    (hsort : SortContract sort) (n : ℕ) (sent : List ℕ) (a : Csr K)
    (rows : List (List (ℕ × K))) (ha : a.HasRows rows) (hrows : rows.length = n)
    (hcols : ∀ g ∈ a.col, g < n) (hsent : sent.Nodup)
    (hs : ∀ i ∈ sent, i < n) (halo loc : UMap) (a' : Csr K)
    (hconv : csrToAmgx debug sort n (List.range n) sent a = .ok (halo, loc, a'))
    (rows' : List (List (ℕ × K))) (ha' : a'.HasRows rows')
    (solve : List K → List K → List K)
    (hsolve : ∀ b x, b.length = n → x.length = n → (solve b x).length = n ∧
      SolvesRows rows' (fun i => b.getD i 0) (fun i => (solve b x).getD i 0))
    (rowMap : UMap) (hmap : rowMap.Perm loc) (b x : List K) (hb : b.length = n)
    (hx : x.length = n) :
    (∃ x', amgxSolveHost rowMap 0 solve b x = .ok (b, x') ∧ x'.length = n ∧
      SolvesRows rows (fun i => b.getD i 0) (fun i => x'.getD i 0)) ∧
    ∃ b' x', amgxSolveDevice rowMap solve b x = .ok (b', x') ∧ x'.length = n ∧
      SolvesRows rows (fun i => b.getD i 0) (fun i => x'.getD i 0) := by
  have hmaps : loc = localMap n sent ∧ halo = haloMap n (List.range n) a.col := by
    unfold csrToAmgx at hconv
    simp only [List.length_range] at hconv
    obtain ⟨p, -, hconv⟩ := Outcome.bind_eq_ok.1 hconv
    obtain ⟨v, -, hconv⟩ := Outcome.bind_eq_ok.1 hconv
    obtain ⟨c, -, hconv⟩ := Outcome.bind_eq_ok.1 hconv
    obtain ⟨r, -, hconv⟩ := Outcome.bind_eq_ok.1 hconv
    injection hconv with e
    injection e with e1 e2
    injection e2 with e2 e3
    exact ⟨e2.symm, e1.symm⟩
  obtain ⟨hloc, hhalo⟩ := hmaps
  have hmap' := hmap
  rw [hloc] at hmap'
  have hlt := localNumber_lt n sent hsent hs
  -- the equations carry over
  have key : ∀ (b' x' sol : List K), (∀ i, i < n → b'[(localMap n sent).at i]? = b[i]?) →
      b'.length = n → sol.length = n → (∀ i, i < n → x'[i]? = sol[(localMap n sent).at i]?) →
      SolvesRows rows' (fun i => b'.getD i 0) (fun i => sol.getD i 0) →
      SolvesRows rows (fun i => b.getD i 0) (fun i => x'.getD i 0) := by
    intro b' x' sol h1 hbl hsl h2 h3
    refine (C45_solution debug sort hsort n (List.range n) sent a rows ha (by simpa using hrows)
      List.nodup_range hcols hsent (by simpa using hs) halo loc a' hconv rows' ha' _ _ _ _ ?_ ?_).1 h3
    · intro i hi
      have hi : i < n := by simpa using hi
      rw [hloc]
      simp only [List.getD_eq_getElem?_getD]
      rw [h1 i hi]
    · intro g hg
      have hg' : g < n := by
        rcases hg with hg | hg
        · exact List.mem_range.1 hg
        · exact hcols g hg
      have hcol : amgxColumn halo loc (List.range n).length g = (localMap n sent).at g := by
        have h4 := haloMap_owned n (List.range n) a.col List.nodup_range g (by simpa using hg')
        rw [List.getElem_range] at h4
        unfold amgxColumn
        rw [hhalo, h4, if_pos (by simpa using hg'), hloc]
      rw [hcol]
      simp only [List.getD_eq_getElem?_getD]
      rw [h2 g hg']
  constructor
  · obtain ⟨b', hb1, hb2, hb3⟩ := (C45_vectors n sent hsent hs rowMap hmap' b b x hb hb hx).1
    obtain ⟨hl, hS⟩ := hsolve b' (List.replicate b.length 0) hb2 (by simpa using hb)
    obtain ⟨x', hx1, hx2, hx3⟩ := (C45_vectors n sent hsent hs rowMap hmap' b _ x hb hl hx).2
    refine ⟨x', ?_, hx2, key b' x' _ hb3 hb2 hl hx3 hS⟩
    unfold amgxSolveHost
    rw [hb1, Outcome.ok_bind]
    simp only []
    rw [hx1]
    rfl
  · obtain ⟨b', hb1, hb2, hb3⟩ := (C45_vectors n sent hsent hs rowMap hmap' b b x hb hb hx).1
    obtain ⟨hl, hS⟩ := hsolve b' x hb2 hx
    obtain ⟨x', hx1, hx2, hx3⟩ := (C45_vectors n sent hsent hs rowMap hmap' b _ _ hb hl hl).2
    refine ⟨b', x', ?_, hx2, key b' x' _ hb3 hb2 hl hx3 hS⟩
    unfold amgxSolveDevice
    rw [hb1, Outcome.ok_bind]
    simp only []
    rw [hx1]
    rfl

end

/-- The hypotheses of `C45_solution` and `C45_solve` are met: the identity matrix with row 0 declared
as sent, and the solver that returns the right-hand side. -/
example : ∃ (halo loc : UMap) (a' : Csr ℤ) (rows' : List (List (ℕ × ℤ))),
    csrToAmgx true exIndexSort 2 (List.range 2) [0] (csrOf [[(0, 1)], [(1, 1)]])
      = .ok (halo, loc, a') ∧ a'.HasRows rows' ∧
    ∃ x' : List ℤ, amgxSolveHost loc 0 (fun b _ => b) [5, 7] [0, 0] = .ok ([5, 7], x') ∧ x'.length = 2 ∧
      SolvesRows [[(0, 1)], [(1, 1)]] (fun i => [5, 7].getD i 0) (fun i => x'.getD i 0) := by
  obtain ⟨halo, loc, a', rows', ν, h1, h2, h3, h4, h5, h6, h7⟩ := C45_matrix true exIndexSort
    exIndexSort_contract 2 (List.range 2) [0] (csrOf [[(0, (1 : ℤ))], [(1, 1)]]) _ (csrOf_hasRows _)
    rfl List.nodup_range (by decide) (by decide) (by decide)
  refine ⟨halo, loc, a', rows', h1, h5, ?_⟩
  refine (C45_solve true exIndexSort exIndexSort_contract 2 [0] _ [[(0, (1 : ℤ))], [(1, 1)]]
    (csrOf_hasRows _) rfl (by decide) (by decide) (by decide) halo loc a' h1 rows' h5 _ ?_ loc
    (List.Perm.refl _) [5, 7] [0, 0] rfl rfl).1
  intro b x hb hx
  refine ⟨hb, ?_⟩
  intro k hk
  obtain ⟨halo', _, _, honto⟩ := h2.onto
  obtain ⟨g, hg, rfl⟩ := (honto k).1 (by omega)
  have hgo : g < 2 := by
    rcases hg with hg | hg
    · exact List.mem_range.1 hg
    · have hall : ∀ g ∈ (csrOf [[(0, (1 : ℤ))], [(1, 1)]]).col, g < 2 := by decide
      exact hall g hg
  have hrow : ∀ i (h : i < 2), (([[(0, (1 : ℤ))], [(1, 1)]] : List (List (ℕ × ℤ)))[i]'h)
      = [(i, 1)] := by
    intro i h; interval_cases i <;> rfl
  have hown : (List.range 2)[g]'(by simpa using hgo) = g := List.getElem_range _
  obtain ⟨h', hp, -⟩ := h7 g (by simpa using hgo)
  simp only [hrow g hgo, List.map_cons, List.map_nil, List.perm_singleton] at hp
  rw [(getElem_congr_idx (congrArg ν hown.symm)).trans hp]
  simp [rowTimes]

end Mfmg
