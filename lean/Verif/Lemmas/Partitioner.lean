import Verif.Spec.Agglomerate
import Mathlib.Tactic.Linarith
import Mathlib.Tactic.Tauto
import Mathlib.Data.Finset.Card
import Mathlib.Data.List.Range
import Mathlib.Order.Interval.Finset.Nat

/-! # Lemmas about the graph partitioner path and boundary agglomerates -/

set_option autoImplicit false

namespace Mfmg

theorem vertexOf_succ (m : GraphMesh) (k : ℕ) :
    vertexOf m (k + 1) = vertexOf m k + if m.owned k then 1 else 0 := by
  simp only [vertexOf, List.range_succ, List.filter_append, List.length_append]
  by_cases h : m.owned k = true <;> simp [h]

theorem vertexOf_mono (m : GraphMesh) {c d : ℕ} (h : c ≤ d) : vertexOf m c ≤ vertexOf m d := by
  induction h with
  | refl => exact le_rfl
  | step _ ih => rw [vertexOf_succ]; omega

theorem vertexOf_lt (m : GraphMesh) {c d : ℕ} (hc : m.owned c = true) (h : c < d) :
    vertexOf m c < vertexOf m d := by
  have h1 := vertexOf_mono m (show c + 1 ≤ d from h)
  rw [vertexOf_succ, if_pos hc] at h1
  omega

theorem vertexOf_le (m : GraphMesh) (c : ℕ) : vertexOf m c ≤ c := by
  have := List.length_filter_le m.owned (List.range c)
  simpa [vertexOf] using this

theorem vertexOf_inj (m : GraphMesh) {c d : ℕ} (hc : m.owned c = true) (hd : m.owned d = true)
    (h : vertexOf m c = vertexOf m d) : c = d := by
  rcases Nat.lt_trichotomy c d with h1 | h1 | h1
  · have := vertexOf_lt m hc h1; omega
  · exact h1
  · have := vertexOf_lt m hd h1; omega

theorem buildIndexMap_spec {m : GraphMesh} (hm : m.Sound) :
    ∀ (j k : ℕ) (im : ℕ × ℕ → Option ℕ), k + j ≤ m.nCells →
    (∀ c, c < k → m.owned c = true → im (m.key c) = some (vertexOf m c)) →
    ∀ c, c < k + j → m.owned c = true →
      buildIndexMap m (List.range' k j) im (vertexOf m k) (m.key c) = some (vertexOf m c)
  | 0, k, im, _, him, c, hc, ho => by
    simpa [buildIndexMap] using him c (by omega) ho
  | j + 1, k, im, hN, him, c, hc, ho => by
    rw [List.range'_succ]
    simp only [buildIndexMap]
    by_cases hk : m.owned k = true
    · rw [if_pos hk]
      have hv : vertexOf m (k + 1) = vertexOf m k + 1 := by rw [vertexOf_succ, if_pos hk]
      rw [← hv]
      refine buildIndexMap_spec hm j (k + 1) _ (by omega) ?_ c (by omega) ho
      intro d hd hod
      rw [Function.update_apply]
      by_cases hkey : m.key d = m.key k
      · have := hm.key_inj d k (by omega) (by omega) hod hk hkey
        subst this
        simp
      · rw [if_neg hkey]
        refine him d ?_ hod
        have : d ≠ k := by rintro rfl; exact hkey rfl
        omega
    · rw [if_neg hk]
      have hv : vertexOf m (k + 1) = vertexOf m k := by rw [vertexOf_succ, if_neg hk]; rfl
      rw [← hv]
      refine buildIndexMap_spec hm j (k + 1) _ (by omega) ?_ c (by omega) ho
      intro d hd hod
      refine him d ?_ hod
      have : d ≠ k := by rintro rfl; exact hk hod
      omega

theorem indexMap_spec {m : GraphMesh} (hm : m.Sound) {c : ℕ} (hc : c < m.nCells)
    (ho : m.owned c = true) : indexMap m (m.key c) = some (vertexOf m c) := by
  unfold indexMap
  rw [List.range_eq_range']
  exact buildIndexMap_spec hm m.nCells 0 _ (by omega) (by intro d hd; omega) c (by omega) ho

theorem addFaces_spec {m : GraphMesh} (hm : m.Sound) {c : ℕ} (hc : c < m.nCells)
    (ho : m.owned c = true) : ∀ (fs : List (Bool × Bool × (ℕ × ℕ))) (es : List (ℕ × ℕ)),
    (∀ f ∈ fs, f ∈ m.faces c) →
    ∃ es', addFaces (indexMap m) (vertexOf m c) fs es = .ok es' ∧ ∀ e, e ∈ es' ↔ e ∈ es ∨
      ∃ d, d < m.nCells ∧ m.owned d = true ∧ (true, false, m.key d) ∈ fs ∧
        (e = (vertexOf m c, vertexOf m d) ∨ e = (vertexOf m d, vertexOf m c))
  | [], es, _ => ⟨es, rfl, by simp⟩
  | (own, ch, k) :: fs, es, h => by
    have h' : ∀ f ∈ fs, f ∈ m.faces c := fun f hf => h f (List.mem_cons_of_mem _ hf)
    simp only [addFaces]
    by_cases hcond : (own && !ch) = true
    · rw [if_pos hcond]
      simp only [Bool.and_eq_true, Bool.not_eq_true'] at hcond
      obtain ⟨rfl, rfl⟩ := hcond
      obtain ⟨d, d1, d2, d3⟩ := hm.face c k hc ho (h _ (by simp))
      subst d3
      simp only [mapAt, indexMap_spec hm d1 d2, Outcome.ok_bind]
      obtain ⟨es', e1, e2⟩ := addFaces_spec hm hc ho fs
        ((vertexOf m d, vertexOf m c) :: (vertexOf m c, vertexOf m d) :: es) h'
      refine ⟨es', e1, fun e => ?_⟩
      rw [e2]
      simp only [List.mem_cons, Prod.mk.injEq, true_and]
      constructor
      · rintro ((rfl | rfl | h1) | ⟨d', q1, q2, q3, q4⟩)
        · exact Or.inr ⟨d, d1, d2, Or.inl rfl, Or.inr rfl⟩
        · exact Or.inr ⟨d, d1, d2, Or.inl rfl, Or.inl rfl⟩
        · exact Or.inl h1
        · exact Or.inr ⟨d', q1, q2, Or.inr q3, q4⟩
      · rintro (h1 | ⟨d', q1, q2, q3 | q3, q4⟩)
        · exact Or.inl (Or.inr (Or.inr h1))
        · have := hm.key_inj d' d q1 d1 q2 d2 q3
          subst this
          tauto
        · exact Or.inr ⟨d', q1, q2, q3, q4⟩
    · rw [if_neg hcond]
      obtain ⟨es', e1, e2⟩ := addFaces_spec hm hc ho fs es h'
      refine ⟨es', e1, fun e => ?_⟩
      rw [e2]
      have hne : ∀ d, (true, false, m.key d) ≠ (own, ch, k) := by
        intro d he
        simp only [Prod.mk.injEq] at he
        obtain ⟨rfl, rfl, _⟩ := he
        simp at hcond
      simp only [List.mem_cons, hne, false_or]

theorem buildGraph_spec {m : GraphMesh} (hm : m.Sound) : ∀ (cs : List ℕ) (es : List (ℕ × ℕ)),
    (∀ c ∈ cs, c < m.nCells) →
    ∃ es', buildGraph m (indexMap m) cs es = .ok es' ∧ ∀ e, e ∈ es' ↔ e ∈ es ∨
      ∃ c ∈ cs, m.owned c = true ∧ ∃ d, d < m.nCells ∧ m.owned d = true ∧
        (c = d ∧ e = (vertexOf m c, vertexOf m d) ∨ adj m c d ∧
        (e = (vertexOf m c, vertexOf m d) ∨ e = (vertexOf m d, vertexOf m c)))
  | [], es, _ => ⟨es, rfl, by simp⟩
  | c :: cs, es, h => by
    have h' : ∀ c ∈ cs, c < m.nCells := fun d hd => h d (List.mem_cons_of_mem _ hd)
    have hc := h c (by simp)
    simp only [buildGraph]
    by_cases ho : m.owned c = true
    · rw [if_pos ho]
      simp only [mapAt, indexMap_spec hm hc ho, Outcome.ok_bind]
      obtain ⟨es1, e1, e2⟩ := addFaces_spec hm hc ho (m.faces c)
        ((vertexOf m c, vertexOf m c) :: es) (fun _ hf => hf)
      obtain ⟨es2, e3, e4⟩ := buildGraph_spec hm cs es1 h'
      refine ⟨es2, by simp [e1, e3], fun e => ?_⟩
      rw [e4, e2]
      simp only [List.mem_cons]
      constructor
      · rintro (((h1 | h1) | ⟨d, d1, d2, d3, d4⟩) | ⟨c', k1, k2⟩)
        · exact Or.inr ⟨c, Or.inl rfl, ho, c, hc, ho, Or.inl ⟨rfl, h1⟩⟩
        · exact Or.inl h1
        · exact Or.inr ⟨c, Or.inl rfl, ho, d, d1, d2, Or.inr ⟨d3, d4⟩⟩
        · exact Or.inr ⟨c', Or.inr k1, k2⟩
      · rintro (h1 | ⟨c', rfl | k1, k2⟩)
        · exact Or.inl (Or.inl (Or.inr h1))
        · obtain ⟨_, d, d1, d2, ⟨rfl, d4⟩ | ⟨d3, d4⟩⟩ := k2
          · exact Or.inl (Or.inl (Or.inl d4))
          · exact Or.inl (Or.inr ⟨d, d1, d2, d3, d4⟩)
        · exact Or.inr ⟨c', k1, k2⟩
    · rw [if_neg ho]
      obtain ⟨es2, e3, e4⟩ := buildGraph_spec hm cs es h'
      refine ⟨es2, e3, fun e => ?_⟩
      rw [e4]
      simp only [List.mem_cons]
      constructor
      · rintro (h1 | ⟨c', k1, k2⟩)
        · exact Or.inl h1
        · exact Or.inr ⟨c', Or.inr k1, k2⟩
      · rintro (h1 | ⟨c', rfl | k1, k2⟩)
        · exact Or.inl h1
        · exact absurd k2.1 ho
        · exact Or.inr ⟨c', k1, k2⟩

/-- Invariant of the renumbering loop: cells below `k` done. -/
structure RenInv (m : GraphMesh) (part : List ℕ) (u0 : UserIndex) (k : ℕ) (u : UserIndex)
    (ren : ℕ → Option ℕ) (n : ℕ) : Prop where
  done : ∀ c, c < k → m.owned c = true → ∃ p, part[vertexOf m c]? = some p ∧ ren p = some (u c)
  range : ∀ p a, ren p = some a → 1 ≤ a ∧ a ≤ n
  inj : ∀ p q a, ren p = some a → ren q = some a → p = q
  hit : ∀ a, 1 ≤ a → a ≤ n → ∃ c, c < k ∧ m.owned c = true ∧ u c = a
  rest : ∀ c, (m.owned c = false ∨ k ≤ c) → u c = u0 c

theorem renumber_spec {m : GraphMesh} (hm : m.Sound) {part : List ℕ} {u0 : UserIndex}
    (hlen : m.nCells ≤ part.length) :
    ∀ (j k : ℕ) (u : UserIndex) (ren : ℕ → Option ℕ) (n : ℕ), k + j ≤ m.nCells →
    RenInv m part u0 k u ren n →
    ∃ u' n' ren', renumber m (indexMap m) part (List.range' k j) u ren n = .ok (u', n') ∧
      RenInv m part u0 (k + j) u' ren' n'
  | 0, k, u, ren, n, _, hi => ⟨u, n, ren, rfl, hi⟩
  | j + 1, k, u, ren, n, hN, hi => by
    have he : k + (j + 1) = (k + 1) + j := by omega
    rw [List.range'_succ, he]
    simp only [renumber]
    by_cases ho : m.owned k = true
    · rw [if_pos ho]
      have hlt : vertexOf m k < part.length := by have := vertexOf_le m k; omega
      obtain ⟨p, hp⟩ : ∃ p, part[vertexOf m k]? = some p := ⟨_, List.getElem?_eq_getElem hlt⟩
      simp only [mapAt, indexMap_spec hm (show k < m.nCells by omega) ho, Outcome.ok_bind,
        Outcome.get, hp]
      cases hr : ren p with
      | none =>
        refine renumber_spec hm hlen j (k + 1) _ _ _ (by omega) ⟨?_, ?_, ?_, ?_, ?_⟩
        · intro c hc hoc
          by_cases hck : c = k
          · subst hck
            exact ⟨p, hp, by simp [UserIndex.set]⟩
          · obtain ⟨q, q1, q2⟩ := hi.done c (by omega) hoc
            refine ⟨q, q1, ?_⟩
            have hqp : q ≠ p := by rintro rfl; rw [hr] at q2; simp at q2
            simp [hqp, UserIndex.set, hck, q2]
        · intro q a hq
          rw [Function.update_apply] at hq
          split at hq
          · have := Option.some.inj hq; omega
          · have := hi.range q a hq; omega
        · intro q q' a h1 h2
          rw [Function.update_apply] at h1 h2
          split at h1 <;> split at h2
          · rename_i e1 e2; rw [e1, e2]
          · have := Option.some.inj h1
            have := hi.range q' a h2; omega
          · have := Option.some.inj h2
            have := hi.range q a h1; omega
          · exact hi.inj q q' a h1 h2
        · intro a h1 h2
          by_cases ha : a = n + 1
          · exact ⟨k, by omega, ho, by simp [UserIndex.set, ha]⟩
          · obtain ⟨c, c1, c2, c3⟩ := hi.hit a h1 (by omega)
            exact ⟨c, by omega, c2, by simp [UserIndex.set,
              show c ≠ k by omega, c3]⟩
        · intro c hc
          have hck : c ≠ k := by
            rintro rfl
            rcases hc with hc | hc
            · rw [ho] at hc; exact absurd hc (by simp)
            · omega
          simp only [UserIndex.set, Function.update_apply, if_neg hck]
          refine hi.rest c ?_
          rcases hc with hc | hc
          · exact Or.inl hc
          · exact Or.inr (by omega)
      | some b =>
        refine renumber_spec hm hlen j (k + 1) _ _ _ (by omega) ⟨?_, hi.range, hi.inj, ?_, ?_⟩
        · intro c hc hoc
          by_cases hck : c = k
          · subst hck
            exact ⟨p, hp, by simp [UserIndex.set, hr]⟩
          · obtain ⟨q, q1, q2⟩ := hi.done c (by omega) hoc
            exact ⟨q, q1, by simp [UserIndex.set, hck, q2]⟩
        · intro a h1 h2
          obtain ⟨c, c1, c2, c3⟩ := hi.hit a h1 h2
          exact ⟨c, by omega, c2, by simp [UserIndex.set,
            show c ≠ k by omega, c3]⟩
        · intro c hc
          have hck : c ≠ k := by
            rintro rfl
            rcases hc with hc | hc
            · rw [ho] at hc; exact absurd hc (by simp)
            · omega
          simp only [UserIndex.set, Function.update_apply, if_neg hck]
          refine hi.rest c ?_
          rcases hc with hc | hc
          · exact Or.inl hc
          · exact Or.inr (by omega)
    · rw [if_neg ho]
      refine renumber_spec hm hlen j (k + 1) _ _ _ (by omega) ⟨?_, hi.range, hi.inj, ?_, ?_⟩
      · intro c hc hoc
        have : c ≠ k := by rintro rfl; exact ho hoc
        exact hi.done c (by omega) hoc
      · intro a h1 h2
        obtain ⟨c, c1, c2⟩ := hi.hit a h1 h2
        exact ⟨c, by omega, c2⟩
      · intro c hc
        refine hi.rest c ?_
        rcases hc with hc | hc
        · exact Or.inl hc
        · exact Or.inr (by omega)

/-- Two functions with the same fibres on a finite set have images of the same size. -/
theorem card_image_eq_of_iff {α β γ : Type} [DecidableEq β] [DecidableEq γ] (s : Finset α)
    (f : α → β) (g : α → γ) (h : ∀ a ∈ s, ∀ b ∈ s, (f a = f b ↔ g a = g b)) :
    (s.image f).card = (s.image g).card := by
  have hch : ∀ y ∈ s.image f, ∃ a, a ∈ s ∧ f a = y := by
    intro y hy; simpa using hy
  choose pre hpre using hch
  refine Finset.card_bij (fun y hy => g (pre y hy)) ?_ ?_ ?_
  · intro y hy
    exact Finset.mem_image_of_mem _ (hpre y hy).1
  · intro y hy y' hy' he
    have := (h _ (hpre y hy).1 _ (hpre y' hy').1).2 he
    rwa [(hpre y hy).2, (hpre y' hy').2] at this
  · intro z hz
    obtain ⟨a, ha, rfl⟩ := Finset.mem_image.1 hz
    have hm : f a ∈ s.image f := Finset.mem_image_of_mem _ ha
    exact ⟨f a, hm, (h _ (hpre _ hm).1 _ ha).1 (hpre _ hm).2⟩

/-! ## Boundary agglomerates -/

theorem mem_setInsert (a x : ℕ) : ∀ l : List ℕ, x ∈ setInsert a l ↔ x = a ∨ x ∈ l
  | [] => by simp [setInsert]
  | b :: l => by
    simp only [setInsert]
    split
    · simp
    · split
      · rename_i h; subst h; simp
      · simp only [List.mem_cons, mem_setInsert a x l]; tauto

theorem setInsert_sorted (a : ℕ) : ∀ l : List ℕ, l.Pairwise (· < ·) →
    (setInsert a l).Pairwise (· < ·)
  | [], _ => by simp [setInsert]
  | b :: l, h => by
    simp only [setInsert]
    have hc := List.pairwise_cons.1 h
    split
    · rename_i hab
      refine List.pairwise_cons.2 ⟨?_, h⟩
      intro x hx
      rcases List.mem_cons.1 hx with rfl | hx
      · exact hab
      · have := hc.1 x hx; omega
    · split
      · exact h
      · refine List.pairwise_cons.2 ⟨?_, setInsert_sorted a l hc.2⟩
        intro x hx
        rcases (mem_setInsert a x l).1 hx with rfl | hx
        · omega
        · exact hc.1 x hx

/-- Invariant of the first loop. -/
structure CollInv (owned : ℕ → Bool) (u : UserIndex) (nAgg k : ℕ) (s : List (List ℕ)) : Prop where
  len : s.length = nAgg
  mem : ∀ a l, s[a]? = some l → l.Pairwise (· < ·) ∧
    ∀ c, c ∈ l ↔ c < k ∧ owned c = true ∧ u c = a + 1

theorem collectCells_spec {owned : ℕ → Bool} {u : UserIndex} {nAgg : ℕ} :
    ∀ (j k : ℕ) (s : List (List ℕ)),
    (∀ c, k ≤ c → c < k + j → owned c = true → 1 ≤ u c ∧ u c ≤ nAgg) →
    CollInv owned u nAgg k s →
    ∃ s', collectCells owned u (List.range' k j) s = .ok s' ∧ CollInv owned u nAgg (k + j) s'
  | 0, k, s, _, hi => ⟨s, rfl, hi⟩
  | j + 1, k, s, h, hi => by
    have he : k + (j + 1) = (k + 1) + j := by omega
    rw [List.range'_succ, he]
    simp only [collectCells]
    by_cases ho : owned k = true
    · rw [if_pos ho]
      have hk := h k le_rfl (by omega) ho
      have hlt : u k - 1 < s.length := by rw [hi.len]; omega
      rw [if_neg (by omega), List.getElem?_eq_getElem hlt]
      simp only
      refine collectCells_spec j (k + 1) _ (fun c h1 h2 => h c (by omega) (by omega)) ⟨?_, ?_⟩
      · simpa using hi.len
      · intro a l hl
        rw [List.getElem?_set] at hl
        split at hl
        · rename_i hua
          subst hua
          obtain rfl := Option.some.inj hl
          have h1 := hi.mem (u k - 1) _ (List.getElem?_eq_getElem hlt)
          refine ⟨setInsert_sorted _ _ h1.1, fun c => ?_⟩
          rw [mem_setInsert, h1.2]
          constructor
          · rintro (rfl | h2)
            · exact ⟨by omega, ho, by omega⟩
            · exact ⟨by omega, h2.2⟩
          · rintro ⟨h2, h3, h4⟩
            by_cases hck : c = k
            · exact Or.inl hck
            · exact Or.inr ⟨by omega, h3, h4⟩
        · rename_i hua
          have h1 := hi.mem a l hl
          refine ⟨h1.1, fun c => ?_⟩
          rw [h1.2]
          constructor
          · rintro ⟨h2, h3⟩; exact ⟨by omega, h3⟩
          · rintro ⟨h2, h3, h4⟩
            have : c ≠ k := by rintro rfl; omega
            exact ⟨by omega, h3, h4⟩
    · rw [if_neg ho]
      refine collectCells_spec j (k + 1) _ (fun c h1 h2 => h c (by omega) (by omega)) ⟨hi.len, ?_⟩
      intro a l hl
      have h1 := hi.mem a l hl
      refine ⟨h1.1, fun c => ?_⟩
      rw [h1.2]
      constructor
      · rintro ⟨h2, h3⟩; exact ⟨by omega, h3⟩
      · rintro ⟨h2, h3, h4⟩
        have : c ≠ k := by rintro rfl; exact ho h3
        exact ⟨by omega, h3, h4⟩

theorem collectCells_ub {owned : ℕ → Bool} {u : UserIndex} :
    ∀ (cs : List ℕ) (s : List (List ℕ)),
    (∃ c ∈ cs, owned c = true ∧ (u c = 0 ∨ s.length < u c)) →
    ∃ w, collectCells owned u cs s = .ub w
  | [], s, ⟨c, hc, _⟩ => by simp at hc
  | d :: cs, s, ⟨c, hc, ho, hu⟩ => by
    simp only [collectCells]
    by_cases hod : owned d = true
    · rw [if_pos hod]
      by_cases hd0 : u d = 0
      · rw [if_pos hd0]; exact ⟨_, rfl⟩
      · rw [if_neg hd0]
        cases hs : s[u d - 1]? with
        | none => exact ⟨_, rfl⟩
        | some set =>
          simp only
          apply collectCells_ub cs
          rcases List.mem_cons.1 hc with rfl | hc
          · exfalso
            have := (List.getElem?_eq_some_iff.1 hs).1
            omega
          · exact ⟨c, hc, ho, by simpa using hu⟩
    · rw [if_neg hod]
      apply collectCells_ub cs
      rcases List.mem_cons.1 hc with rfl | hc
      · exact absurd ho hod
      · exact ⟨c, hc, ho, hu⟩

/-- Has cell `c` a neighbour outside `agg`? -/
def outside (agg : List ℕ) (ds : List ℕ) : Bool := ds.any (fun d => !agg.contains d)

theorem boundaryCell_spec (agg : List ℕ) (c : ℕ) : ∀ (ds int halo : List ℕ) (flag : Bool),
    (boundaryCell agg c ds (int, halo, flag)).1 =
      (if flag = false ∧ outside agg ds = true then int ++ [c] else int) ∧
    (∀ x, x ∈ (boundaryCell agg c ds (int, halo, flag)).2.1 ↔ x ∈ halo ∨ (x ∈ ds ∧ x ∉ agg)) ∧
    (halo.Pairwise (· < ·) →
      (boundaryCell agg c ds (int, halo, flag)).2.1.Pairwise (· < ·))
  | [], int, halo, flag => by simp [boundaryCell, outside]
  | d :: ds, int, halo, flag => by
    simp only [boundaryCell]
    by_cases hd : agg.contains d = false
    · rw [if_pos hd]
      obtain ⟨h1, h2, h3⟩ := boundaryCell_spec agg c ds
        (if flag = false then int ++ [c] else int) (setInsert d halo) true
      have hd' : d ∉ agg := by simpa using hd
      refine ⟨?_, ?_, ?_⟩
      · rw [h1]
        simp [outside, hd']
      · intro x
        rw [h2, mem_setInsert]
        simp only [List.mem_cons]
        constructor
        · rintro ((rfl | h) | h)
          · exact Or.inr ⟨Or.inl rfl, hd'⟩
          · exact Or.inl h
          · exact Or.inr ⟨Or.inr h.1, h.2⟩
        · rintro (h | ⟨rfl | h, h'⟩)
          · exact Or.inl (Or.inr h)
          · exact Or.inl (Or.inl rfl)
          · exact Or.inr ⟨h, h'⟩
      · intro hs
        exact h3 (setInsert_sorted d halo hs)
    · rw [if_neg hd]
      obtain ⟨h1, h2, h3⟩ := boundaryCell_spec agg c ds int halo flag
      have hd' : d ∈ agg := by simpa using hd
      refine ⟨?_, ?_, h3⟩
      · rw [h1]
        simp [outside, hd']
      · intro x
        rw [h2]
        simp only [List.mem_cons]
        constructor
        · rintro (h | h)
          · exact Or.inl h
          · exact Or.inr ⟨Or.inr h.1, h.2⟩
        · rintro (h | ⟨rfl | h, h'⟩)
          · exact Or.inl h
          · exact absurd hd' h'
          · exact Or.inr ⟨h, h'⟩

theorem boundaryAgg_spec (conn : ℕ → List ℕ) (agg : List ℕ) : ∀ (cs int halo : List ℕ),
    (boundaryAgg conn agg cs (int, halo)).1 =
      int ++ cs.filter (fun c => outside agg (conn c)) ∧
    (∀ x, x ∈ (boundaryAgg conn agg cs (int, halo)).2 ↔ x ∈ halo ∨
      ∃ c ∈ cs, x ∈ conn c ∧ x ∉ agg) ∧
    (halo.Pairwise (· < ·) → (boundaryAgg conn agg cs (int, halo)).2.Pairwise (· < ·))
  | [], int, halo => by simp [boundaryAgg]
  | c :: cs, int, halo => by
    obtain ⟨h1, h2, h3⟩ := boundaryCell_spec agg c (conn c) int halo false
    simp only [boundaryAgg]
    obtain ⟨k1, k2, k3⟩ := boundaryAgg_spec conn agg cs
      (boundaryCell agg c (conn c) (int, halo, false)).1
      (boundaryCell agg c (conn c) (int, halo, false)).2.1
    refine ⟨?_, ?_, fun hs => k3 (h3 hs)⟩
    · rw [k1, h1]
      by_cases ho : outside agg (conn c) = true
      · simp [ho]
      · simp [ho]
    · intro x
      rw [k2, h2]
      simp only [List.mem_cons, exists_eq_or_imp, or_assoc]

end Mfmg
