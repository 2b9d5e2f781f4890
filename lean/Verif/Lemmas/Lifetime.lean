import Verif.Spec.Lifetime
import Mathlib.Algebra.BigOperators.Group.Finset.Basic
import Mathlib.Algebra.BigOperators.Ring.Finset
import Mathlib.Algebra.Order.BigOperators.Group.Finset
import Mathlib.Data.List.Basic
import Mathlib.Tactic.Ring
import Mathlib.Tactic.Linarith

/-!
# Reference counts and dangling references
-/

set_option autoImplicit false

namespace Mfmg

namespace Mem

/-- `o` owns `w`, directly or through other objects. -/
def Owns (m : Mem) : ℕ → ℕ → Prop :=
  Relation.ReflTransGen fun x y => y ∈ (m.obj x).strong

/-- How many members of living objects own `a`. -/
def ownersOf (m : Mem) (a : ℕ) : ℕ :=
  ∑ i ∈ Finset.range m.nodes.length, if 0 < m.cnt i then (m.obj i).strong.count a else 0

theorem obj_of_ge {m : Mem} {i : ℕ} (h : m.nodes.length ≤ i) : m.obj i = {} := by
  simp [obj, List.getD, List.getElem?_eq_none h]

theorem cnt_of_ge {m : Mem} {i : ℕ} (h : m.count.length ≤ i) : m.cnt i = 0 := by
  simp [cnt, List.getD, List.getElem?_eq_none h]

theorem cnt_set {m : Mem} {a b v : ℕ} (ha : a < m.count.length) :
    cnt { m with count := m.count.set a v } b = if b = a then v else m.cnt b := by
  unfold cnt
  by_cases h : b = a
  · subst h; simp [List.getD, ha]
  · simp [List.getD, List.getElem?_set_ne (Ne.symm h), h]

/-- What is true between two steps of the release of the references `wl`. -/
structure RefInv (m : Mem) (wl : List ℕ) : Prop where
  len : m.count.length = m.nodes.length
  ordS : ∀ i, ∀ j ∈ (m.obj i).strong, j < i
  ordR : ∀ i, ∀ j ∈ (m.obj i).refs, j < i
  ordU : ∀ i, ∀ j ∈ (m.obj i).uses, j < i
  wat : ∀ i, ∀ j ∈ (m.obj i).watched, j ∈ (m.obj i).refs
  lt : ∀ a ∈ m.held ++ wl, a < m.nodes.length
  counts : ∀ a < m.nodes.length, m.cnt a = (m.held ++ wl).count a + m.ownersOf a
  loc : ∀ i, ∀ j ∈ (m.obj i).strong, (m.obj j).isLocal = false
  locS : ∀ i, (m.obj i).isLocal = true → (m.obj i).strong = []
  locC : ∀ i, (m.obj i).isLocal = true → m.cnt i ≤ 1
  priv : ∀ n, ∀ w ∈ (m.obj n).refs, (m.obj w).isLocal = false → m.cnt n ≤ 1 ∧ n ∉ m.held
  kept : ∀ n, m.Live n → ∀ w ∈ (m.obj n).refs, (m.obj w).isLocal = false →
    ∃ o, m.Owns o w ∧
      ((∃ S, m.Live S ∧ [n, o].Sublist (m.obj S).strong) ∨ [n, o].Sublist wl)

variable {m : Mem} {wl : List ℕ}

theorem RefInv.live_lt (h : RefInv m wl) {a : ℕ} (ha : m.Live a) : a < m.nodes.length := by
  by_contra hc
  have := cnt_of_ge (m := m) (i := a) (by rw [h.len]; omega)
  unfold Live at ha; omega

theorem RefInv.live_mem (h : RefInv m wl) {a : ℕ} (ha : a ∈ m.held ++ wl) : m.Live a := by
  unfold Live
  rw [h.counts a (h.lt a ha)]
  have := List.count_pos_iff.2 ha
  omega

theorem RefInv.live_strong (h : RefInv m wl) {S a : ℕ} (hS : m.Live S) (ha : a ∈ (m.obj S).strong) :
    m.Live a := by
  have hSl := h.live_lt hS
  have hal : a < m.nodes.length := lt_trans (h.ordS S a ha) hSl
  unfold Live
  rw [h.counts a hal]
  have h1 : (if 0 < m.cnt S then (m.obj S).strong.count a else 0) ≤ m.ownersOf a :=
    Finset.single_le_sum (f := fun i => if 0 < m.cnt i then (m.obj i).strong.count a else 0)
      (fun i _ => Nat.zero_le _) (Finset.mem_range.2 hSl)
  have h2 := List.count_pos_iff.2 ha
  unfold Live at hS
  rw [if_pos hS] at h1
  omega

theorem RefInv.live_owns (h : RefInv m wl) {S a : ℕ} (hS : m.Live S) (ha : m.Owns S a) : m.Live a := by
  induction ha with
  | refl => exact hS
  | tail _ hb ih => exact h.live_strong ih hb

/-- No living object refers to a destroyed one, except to an object of the program. -/
theorem RefInv.live_refs (h : RefInv m wl) {n w : ℕ} (hn : m.Live n) (hw : w ∈ (m.obj n).refs)
    (hl : (m.obj w).isLocal = false) : m.Live w := by
  obtain ⟨o, ho, hS | hs⟩ := h.kept n hn w hw hl
  · obtain ⟨S, hS, hsub⟩ := hS
    exact h.live_owns (h.live_strong hS (hsub.subset (by simp))) ho
  · exact h.live_owns (h.live_mem (List.mem_append_right _ (hs.subset (by simp)))) ho

theorem RefInv.not_watched (h : RefInv m wl) {a : ℕ} (ha : m.cnt a = 0)
    (hl : (m.obj a).isLocal = false) : m.isWatched a = false := by
  unfold isWatched
  rw [List.any_eq_false]
  intro n _
  simp only [Bool.and_eq_true, decide_eq_true_eq, List.contains_iff_mem, not_and]
  intro hn hw
  have := h.live_refs (n := n) hn (h.wat n a hw) hl
  unfold Live at this; omega

/-- One reference fewer, the object stays. -/
theorem RefInv.step_keep {a : ℕ} {rest : List ℕ} (h : RefInv m (a :: rest)) (hc : 1 < m.cnt a) :
    RefInv { m with count := m.count.set a (m.cnt a - 1) } rest := by
  have hal : a < m.nodes.length := h.lt a (by simp)
  have hal' : a < m.count.length := by rw [h.len]; exact hal
  set m' : Mem := { m with count := m.count.set a (m.cnt a - 1) } with hm'
  have hcnt : ∀ b, m'.cnt b = if b = a then m.cnt a - 1 else m.cnt b := fun b => cnt_set hal'
  have hobj : ∀ b, m'.obj b = m.obj b := fun b => rfl
  have hlive : ∀ b, m'.Live b ↔ m.Live b := by
    intro b; unfold Live; rw [hcnt]
    split_ifs with hb
    · subst hb; omega
    · rfl
  have how : ∀ b, m'.ownersOf b = m.ownersOf b := by
    intro b
    unfold ownersOf
    refine Finset.sum_congr rfl fun i _ => ?_
    have := hlive i
    unfold Live at this
    simp only [this, hobj]
  refine ⟨by simp [hm', h.len], h.ordS, h.ordR, h.ordU, h.wat, ?_, ?_, h.loc, h.locS, ?_, ?_, ?_⟩
  · intro b hb
    refine h.lt b ?_
    simp only [List.mem_append, List.mem_cons] at hb ⊢
    rcases hb with hb | hb
    · exact Or.inl hb
    · exact Or.inr (Or.inr hb)
  · intro b hb
    have := h.counts b hb
    rw [hcnt, how, show m'.held = m.held from rfl]
    simp only [List.count_append, List.count_cons] at this ⊢
    by_cases hba : b = a
    · subst hba; simp at this ⊢; omega
    · simp [hba, Ne.symm hba] at this ⊢; omega
  · intro i hi
    have := h.locC i hi
    rw [hcnt]; split_ifs with hb
    · subst hb; omega
    · exact this
  · intro n w hw hl
    have := h.priv n w hw hl
    refine ⟨?_, this.2⟩
    rw [hcnt]; split_ifs with hb
    · subst hb; omega
    · exact this.1
  · intro n hn w hw hl
    obtain ⟨o, ho, hS | hs⟩ := h.kept n ((hlive n).1 hn) w hw hl
    · obtain ⟨S, hS, hsub⟩ := hS
      exact ⟨o, ho, Or.inl ⟨S, (hlive S).2 hS, hsub⟩⟩
    · refine ⟨o, ho, Or.inr ?_⟩
      cases hs with
      | cons _ hs => exact hs
      | cons_cons _ hs =>
        have := (h.priv a w hw hl).1
        omega

/-- The last reference goes, the object is destroyed and its members follow. -/
theorem RefInv.step_destroy {a : ℕ} {rest : List ℕ} (h : RefInv m (a :: rest)) (hc : m.cnt a = 1) :
    RefInv { m with count := m.count.set a (m.cnt a - 1) } ((m.obj a).strong ++ rest) := by
  have hal : a < m.nodes.length := h.lt a (by simp)
  have hal' : a < m.count.length := by rw [h.len]; exact hal
  set m' : Mem := { m with count := m.count.set a (m.cnt a - 1) } with hm'
  have hcnt : ∀ b, m'.cnt b = if b = a then 0 else m.cnt b := by
    intro b; rw [hm', cnt_set hal', hc]
  have hobj : ∀ b, m'.obj b = m.obj b := fun b => rfl
  have hlive : ∀ b, m'.Live b ↔ m.Live b ∧ b ≠ a := by
    intro b; unfold Live; rw [hcnt]
    split_ifs with hb
    · simp [hb]
    · simp [hb]
  have how : ∀ b, m.ownersOf b = m'.ownersOf b + (m.obj a).strong.count b := by
    intro b
    unfold ownersOf
    rw [show m'.nodes.length = m.nodes.length from rfl,
      ← Finset.add_sum_erase _ (fun i => if 0 < m.cnt i then (m.obj i).strong.count b else 0)
        (Finset.mem_range.2 hal),
      ← Finset.add_sum_erase _ (fun i => if 0 < m'.cnt i then (m'.obj i).strong.count b else 0)
        (Finset.mem_range.2 hal)]
    have e1 : (∑ x ∈ (Finset.range m.nodes.length).erase a,
        if 0 < m'.cnt x then (m'.obj x).strong.count b else 0) =
        ∑ x ∈ (Finset.range m.nodes.length).erase a,
        if 0 < m.cnt x then (m.obj x).strong.count b else 0 := by
      refine Finset.sum_congr rfl fun i hi => ?_
      rw [hcnt, if_neg (Finset.ne_of_mem_erase hi), hobj]
    rw [e1, hcnt, if_pos rfl, hc]
    simp
    omega
  refine ⟨by simp [hm', h.len], h.ordS, h.ordR, h.ordU, h.wat, ?_, ?_, h.loc, h.locS, ?_, ?_, ?_⟩
  · intro b hb
    simp only [List.mem_append] at hb
    rcases hb with hb | hb | hb
    · exact h.lt b (by simp [show b ∈ m.held from hb])
    · exact lt_trans (h.ordS a b hb) hal
    · exact h.lt b (by simp [hb])
  · intro b hb
    have := h.counts b hb
    have hh := how b
    rw [hcnt]
    simp only [List.count_append, List.count_cons] at this ⊢
    rw [show m'.held = m.held from rfl]
    by_cases hba : b = a
    · subst hba; simp at this ⊢; omega
    · simp [hba, Ne.symm hba] at this ⊢; omega
  · intro i hi
    have := h.locC i hi
    rw [hcnt]; split_ifs with hb <;> omega
  · intro n w hw hl
    have := h.priv n w hw hl
    refine ⟨?_, this.2⟩
    rw [hcnt]; split_ifs with hb
    · omega
    · exact this.1
  · intro n hn w hw hl
    obtain ⟨hn', hna⟩ := (hlive n).1 hn
    obtain ⟨o, ho, hS | hs⟩ := h.kept n hn' w hw hl
    · obtain ⟨S, hS, hsub⟩ := hS
      by_cases hSa : S = a
      · subst hSa
        exact ⟨o, ho, Or.inr (hsub.trans (List.sublist_append_left _ _))⟩
      · exact ⟨o, ho, Or.inl ⟨S, (hlive S).2 ⟨hS, hSa⟩, hsub⟩⟩
    · refine ⟨o, ho, Or.inr ?_⟩
      cases hs with
      | cons _ hs => exact hs.trans (List.sublist_append_right _ _)
      | cons_cons _ hs => exact absurd rfl hna

theorem sum_set_pred : ∀ (l : List ℕ) (a : ℕ), a < l.length → 0 < l.getD a 0 →
    (l.set a (l.getD a 0 - 1)).sum + 1 = l.sum
  | [], a, h, _ => by simp at h
  | x :: l, 0, _, h => by simp at h ⊢; omega
  | x :: l, a + 1, h, hp => by
    have := sum_set_pred l a (by simpa using h) (by simpa using hp)
    simp at this ⊢; omega

/-- Releasing references to objects without a scope always succeeds. -/
theorem releaseFuel_ok (debug : Bool) : ∀ (f : ℕ) (m : Mem) (wl : List ℕ), RefInv m wl →
    (∀ a ∈ wl, (m.obj a).isLocal = false) → m.count.sum ≤ f →
    ∃ m', releaseFuel debug f m wl = .ok m' ∧ RefInv m' [] ∧ m'.nodes = m.nodes ∧
      m'.held = m.held ∧ ∀ b, m'.cnt b ≤ m.cnt b
  | f, m, [], h, _, _ => ⟨m, by cases f <;> rfl, h, rfl, rfl, fun _ => le_rfl⟩
  | f, m, a :: rest, h, hl, hf => by
    have hal : a < m.nodes.length := h.lt a (by simp)
    have hal' : a < m.count.length := by rw [h.len]; exact hal
    have hlive : 0 < m.cnt a := h.live_mem (by simp)
    have hsum := sum_set_pred m.count a hal' hlive
    change (m.count.set a (m.cnt a - 1)).sum + 1 = _ at hsum
    obtain ⟨f, rfl⟩ : ∃ f', f = f' + 1 := ⟨f - 1, by omega⟩
    rw [releaseFuel, if_neg (by omega)]
    simp only
    have hle : ∀ b, cnt { m with count := m.count.set a (m.cnt a - 1) } b ≤ m.cnt b := by
      intro b; rw [cnt_set hal']; split_ifs with hb
      · subst hb; omega
      · exact le_rfl
    by_cases hc : m.cnt a = 1
    · have hI := h.step_destroy hc
      rw [if_pos hc, hI.not_watched (a := a) (by rw [cnt_set hal', if_pos rfl, hc]) (hl a (by simp))]
      simp only [Bool.and_false, Bool.false_eq_true, if_false]
      obtain ⟨m', h1, h2, h3, h4, h5⟩ := releaseFuel_ok debug f _ _ hI
        (by
          intro b hb
          rcases List.mem_append.1 hb with hb | hb
          · exact h.loc a b hb
          · exact hl b (List.mem_cons_of_mem _ hb))
        (by simp only; omega)
      exact ⟨m', h1, h2, h3, h4, fun b => (h5 b).trans (hle b)⟩
    · rw [if_neg hc]
      obtain ⟨m', h1, h2, h3, h4, h5⟩ := releaseFuel_ok debug f _ _ (h.step_keep (by omega))
        (fun b hb => hl b (List.mem_cons_of_mem _ hb)) (by simp only; omega)
      exact ⟨m', h1, h2, h3, h4, fun b => (h5 b).trans (hle b)⟩

/-- Giving up a handle moves it to the references to be released. -/
theorem RefInv.erase (h : RefInv m []) {a : ℕ} (ha : a ∈ m.held) :
    RefInv { m with held := m.held.erase a } [a] := by
  refine ⟨h.len, h.ordS, h.ordR, h.ordU, h.wat, ?_, ?_, h.loc, h.locS, h.locC, ?_, ?_⟩
  · intro b hb
    refine h.lt b ?_
    simp only [List.mem_append, List.mem_singleton] at hb ⊢
    rcases hb with hb | rfl
    · exact Or.inl (List.mem_of_mem_erase hb)
    · exact Or.inl ha
  · intro b hb
    have := h.counts b hb
    change m.cnt b = _ + m.ownersOf b
    rw [this]
    simp only [List.append_nil, List.count_append, List.count_singleton]
    by_cases hba : a = b
    · subst hba
      have := List.count_pos_iff.2 ha
      rw [List.count_erase_self]; simp; omega
    · rw [List.count_erase_of_ne (Ne.symm hba)]; simp [hba]
  · intro n w hw hl
    exact ⟨(h.priv n w hw hl).1, fun hn => (h.priv n w hw hl).2 (List.mem_of_mem_erase hn)⟩
  · intro n hn w hw hl
    obtain ⟨o, ho, hS | hs⟩ := h.kept n hn w hw hl
    · exact ⟨o, ho, Or.inl hS⟩
    · exact absurd hs (by simp)

theorem drop_shared (debug : Bool) (h : RefInv m []) {a : ℕ} (ha : a ∈ m.held)
    (hl : (m.obj a).isLocal = false) :
    ∃ m', m.drop debug a = .ok m' ∧ RefInv m' [] ∧ m'.nodes = m.nodes ∧
      m'.held = m.held.erase a ∧ ∀ b, m'.cnt b ≤ m.cnt b :=
  releaseFuel_ok debug _ _ _ (h.erase ha)
    (fun b hb => by rw [List.mem_singleton.1 hb]; exact hl) le_rfl

open Classical in
theorem drop_local (debug : Bool) (h : RefInv m []) {a : ℕ} (ha : a ∈ m.held)
    (hl : (m.obj a).isLocal = true) :
    m.drop debug a =
      (if debug = true ∧ ∃ n, n ≠ a ∧ m.Live n ∧ a ∈ (m.obj n).watched
       then Outcome.aborted
       else Outcome.ok { m with count := m.count.set a 0, held := m.held.erase a }) ∧
    RefInv { m with count := m.count.set a 0, held := m.held.erase a } [] := by
  have hE := h.erase ha
  have hlive : 0 < m.cnt a := h.live_mem (by simpa using ha)
  have hc : m.cnt a = 1 := by have := h.locC a hl; omega
  have hal : a < m.nodes.length := h.lt a (by simpa using ha)
  have hal' : a < m.count.length := by rw [h.len]; exact hal
  have hD := hE.step_destroy (a := a) (rest := []) hc
  rw [show (({ m with held := m.held.erase a } : Mem).obj a).strong = [] from h.locS a hl] at hD
  have hD' : RefInv { m with count := m.count.set a 0, held := m.held.erase a } [] := by
    have hc' : ({ m with held := m.held.erase a } : Mem).cnt a = 1 := hc
    rw [hc'] at hD
    exact hD
  refine ⟨?_, hD'⟩
  have hsum := sum_set_pred m.count a hal' hlive
  obtain ⟨f, hf⟩ : ∃ f', m.count.sum = f' + 1 := ⟨m.count.sum - 1, by omega⟩
  unfold drop
  rw [hf, releaseFuel]
  have hc' : ({ m with held := m.held.erase a } : Mem).cnt a = 1 := hc
  simp only [hc', if_neg (by omega : ¬ (1 : ℕ) = 0), if_true, Nat.sub_self]
  have hw : isWatched { m with count := m.count.set a 0, held := m.held.erase a } a = true ↔
      ∃ n, n ≠ a ∧ m.Live n ∧ a ∈ (m.obj n).watched := by
    unfold isWatched
    rw [List.any_eq_true]
    have hcn : ∀ n, cnt { m with count := m.count.set a 0, held := m.held.erase a } n =
        if n = a then 0 else m.cnt n := fun n => cnt_set (v := 0) hal'
    constructor
    · rintro ⟨n, _, hn⟩
      simp only [Bool.and_eq_true, decide_eq_true_eq, List.contains_iff_mem, hcn] at hn
      by_cases hna : n = a
      · rw [if_pos hna] at hn; omega
      · rw [if_neg hna] at hn; exact ⟨n, hna, hn.1, hn.2⟩
    · rintro ⟨n, hna, hn, hw⟩
      refine ⟨n, List.mem_range.2 (h.live_lt hn), ?_⟩
      simp only [Bool.and_eq_true, decide_eq_true_eq, List.contains_iff_mem, hcn, if_neg hna]
      exact ⟨hn, hw⟩
  have hend : releaseFuel debug f { m with count := m.count.set a 0, held := m.held.erase a }
      ((obj { m with held := m.held.erase a } a).strong ++ []) =
      .ok { m with count := m.count.set a 0, held := m.held.erase a } := by
    rw [show (({ m with held := m.held.erase a } : Mem).obj a).strong = [] from h.locS a hl]
    cases f <;> rfl
  rw [hend]
  by_cases hd : debug = true ∧ ∃ n, n ≠ a ∧ m.Live n ∧ a ∈ (m.obj n).watched
  · rw [if_pos hd, if_pos]
    rw [Bool.and_eq_true]; exact ⟨hd.1, hw.2 hd.2⟩
  · rw [if_neg hd, if_neg]
    rw [Bool.and_eq_true]; exact fun hh => hd ⟨hh.1, hw.1 hh.2⟩

end Mem

end Mfmg
