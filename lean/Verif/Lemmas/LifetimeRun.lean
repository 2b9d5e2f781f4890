import Verif.Lemmas.LifetimeBuild

/-!
# Every program keeps the invariant of the reference counts; what a use dereferences
-/

set_option autoImplicit false

namespace Mfmg

namespace Mem

variable {m : Mem}

theorem inv_empty : RefInv {} [] := by
  have hz : ∀ i, ({} : Mem).obj i = {} := fun i => obj_of_ge (by simp)
  have hc : ∀ i, ({} : Mem).cnt i = 0 := fun i => cnt_of_ge (by simp)
  refine ⟨rfl, ?_, ?_, ?_, ?_, ?_, ?_, ?_, ?_, ?_, ?_, ?_⟩
  · intro i j hj; rw [hz] at hj; cases hj
  · intro i j hj; rw [hz] at hj; cases hj
  · intro i j hj; rw [hz] at hj; cases hj
  · intro i j hj; rw [hz] at hj; cases hj
  · intro a ha; cases ha
  · intro a ha; simp at ha
  · intro i j hj; rw [hz] at hj; cases hj
  · intro i hi; rw [hz] at hi; cases hi
  · intro i hi; rw [hc]; omega
  · intro n w hw; rw [hz] at hw; cases hw
  · intro n hn; unfold Live at hn; rw [hc] at hn; omega

theorem obj_create {o : Obj} (i : ℕ) :
    (m.create o).obj i = if i = m.nodes.length then o else m.obj i := by
  unfold create obj
  by_cases h : i < m.nodes.length
  · rw [if_neg (by omega)]; simp [List.getD, List.getElem?_append_left h]
  · by_cases h' : i = m.nodes.length
    · subst h'; simp [List.getD]
    · rw [if_neg h']
      simp [List.getD, List.getElem?_eq_none (l := m.nodes ++ [o]) (i := i) (by simp; omega),
        List.getElem?_eq_none (l := m.nodes) (i := i) (by omega)]

theorem cnt_create (hlen : m.count.length = m.nodes.length) {o : Obj} (i : ℕ) :
    (m.create o).cnt i = if i = m.nodes.length then 1 else m.cnt i := by
  unfold create cnt
  by_cases h : i < m.count.length
  · rw [if_neg (by omega)]; simp [List.getD, List.getElem?_append_left h]
  · by_cases h' : i = m.nodes.length
    · rw [if_pos h', ← hlen] at *; subst h'; simp [List.getD]
    · rw [if_neg h']
      simp [List.getD, List.getElem?_eq_none (l := m.count ++ [1]) (i := i) (by simp; omega),
        List.getElem?_eq_none (l := m.count) (i := i) (by omega)]

/-- Owning is about the objects, whatever their counts. -/
theorem owns_mono {m' : Mem} (hobj : ∀ i, i < m.nodes.length → m'.obj i = m.obj i) {o w : ℕ}
    (h : m.Owns o w) : m'.Owns o w := by
  induction h with
  | refl => exact .refl
  | @tail b c _ hb ih =>
    refine .tail ih ?_
    by_cases hlt : b < m.nodes.length
    · rw [hobj b hlt]; exact hb
    · rw [obj_of_ge (by omega)] at hb; cases hb

/-- A new object of the program that owns nothing and refers to objects in scope. -/
theorem RefInv.create (h : RefInv m []) {o : Obj} (hs : o.strong = [])
    (hr : ∀ j ∈ o.refs, j ∈ m.held ∧ (m.obj j).isLocal = true)
    (hu : ∀ j ∈ o.uses, j ∈ o.refs) (hw : ∀ j ∈ o.watched, j ∈ o.refs) :
    RefInv (m.create o) [] := by
  have hlt : ∀ j ∈ m.held, j < m.nodes.length := fun j hj => h.lt j (by simpa using hj)
  have hlen : (m.create o).nodes.length = m.nodes.length + 1 := by simp [Mem.create]
  have hheld : (m.create o).held = m.nodes.length :: m.held := rfl
  have hnl : ∀ j, j < m.nodes.length → (m.create o).obj j = m.obj j := fun j hj => by
    rw [obj_create, if_neg (by omega)]
  have hlive : ∀ j, j < m.nodes.length → ((m.create o).Live j ↔ m.Live j) := fun j hj => by
    unfold Live; rw [cnt_create h.len, if_neg (by omega)]
  refine ⟨by simp [Mem.create, h.len], ?_, ?_, ?_, ?_, ?_, ?_, ?_, ?_, ?_, ?_, ?_⟩
  · intro i j hj
    rw [obj_create] at hj; split_ifs at hj with hi
    · rw [hs] at hj; cases hj
    · exact h.ordS i j hj
  · intro i j hj
    rw [obj_create] at hj; split_ifs at hj with hi
    · rw [hi]; exact hlt j (hr j hj).1
    · exact h.ordR i j hj
  · intro i j hj
    rw [obj_create] at hj; split_ifs at hj with hi
    · rw [hi]; exact hlt j (hr j (hu j hj)).1
    · exact h.ordU i j hj
  · intro i j hj
    rw [obj_create] at hj ⊢; split_ifs at hj ⊢ with hi
    · exact hw j hj
    · exact h.wat i j hj
  · intro a ha
    rw [hheld] at ha
    rw [hlen]
    simp at ha
    rcases ha with rfl | ha
    · omega
    · have := hlt a ha; omega
  · intro a ha
    rw [hlen] at ha
    have how : (m.create o).ownersOf a = m.ownersOf a := by
      unfold ownersOf
      rw [hlen, Finset.sum_range_succ, obj_create, if_pos rfl, hs]
      simp only [List.count_nil, ite_self, add_zero]
      refine Finset.sum_congr rfl fun i hi => ?_
      have hi := Finset.mem_range.1 hi
      have hc := cnt_create h.len (o := o) i
      rw [if_neg (by omega)] at hc
      rw [hnl i hi, hc]
    rw [cnt_create h.len, how, hheld]
    by_cases hae : a = m.nodes.length
    · rw [if_pos hae, hae]
      have h1 : m.held.count m.nodes.length = 0 := by
        rw [List.count_eq_zero]; intro hc; have := hlt _ hc; omega
      have h2 : m.ownersOf m.nodes.length = 0 := by
        unfold ownersOf
        refine Finset.sum_eq_zero fun i hi => ?_
        split_ifs
        · rw [List.count_eq_zero]
          intro hc
          have := h.ordS i _ hc
          have := Finset.mem_range.1 hi
          omega
        · rfl
      rw [h2]
      simp [h1]
    · rw [if_neg hae, h.counts a (by omega)]
      simp [Ne.symm hae]
  · intro i j hj
    rw [obj_create] at hj; split_ifs at hj with hi
    · rw [hs] at hj; cases hj
    · have h1 : i < m.nodes.length := by
        by_contra hc
        rw [obj_of_ge (by omega)] at hj; cases hj
      rw [hnl j (lt_trans (h.ordS i j hj) h1)]
      exact h.loc i j hj
  · intro i hi
    rw [obj_create] at hi ⊢; split_ifs at hi ⊢ with hi'
    · exact hs
    · exact h.locS i hi
  · intro i hi
    rw [cnt_create h.len]; split_ifs with hi'
    · exact le_rfl
    · rw [obj_create, if_neg hi'] at hi; exact h.locC i hi
  · intro n w hw' hl
    rw [obj_create] at hw'; split_ifs at hw' with hi
    · have := hr w hw'
      rw [hnl w (hlt w this.1)] at hl
      rw [this.2] at hl; cases hl
    · have h1 : n < m.nodes.length := by
        by_contra hc
        rw [obj_of_ge (by omega)] at hw'; cases hw'
      rw [hnl w (lt_trans (h.ordR n w hw') h1)] at hl
      have := h.priv n w hw' hl
      rw [cnt_create h.len, if_neg hi, hheld]
      refine ⟨this.1, ?_⟩
      simp only [List.mem_cons, not_or]
      exact ⟨hi, this.2⟩
  · intro n hn w hw' hl
    rw [obj_create] at hw'; split_ifs at hw' with hi
    · have := hr w hw'
      rw [hnl w (hlt w this.1)] at hl
      rw [this.2] at hl; cases hl
    · have h1 : n < m.nodes.length := by
        by_contra hc
        rw [obj_of_ge (by omega)] at hw'; cases hw'
      rw [hnl w (lt_trans (h.ordR n w hw') h1)] at hl
      obtain ⟨o', ho, hS | hs'⟩ := h.kept n ((hlive n h1).1 hn) w hw' hl
      · obtain ⟨S, hS, hsub⟩ := hS
        have hSl := h.live_lt hS
        exact ⟨o', owns_mono hnl ho, Or.inl ⟨S, (hlive S hSl).2 hS, by rw [hnl S hSl]; exact hsub⟩⟩
      · exact absurd hs' (by simp)

/-- A copy of a shared pointer. -/
theorem RefInv.copy (h : RefInv m []) {a : ℕ} (ha : a ∈ m.held) (hl : (m.obj a).isLocal = false) :
    RefInv { m with count := m.count.set a (m.cnt a + 1), held := a :: m.held } [] := by
  have hlt : ∀ j ∈ m.held, j < m.nodes.length := fun j hj => h.lt j (by simpa using hj)
  have hal' : a < m.count.length := by rw [h.len]; exact hlt a ha
  have hpos : 0 < m.cnt a := h.live_mem (by simpa using ha)
  set m' : Mem := { m with count := m.count.set a (m.cnt a + 1), held := a :: m.held } with hm'
  have hcnt : ∀ b, m'.cnt b = if b = a then m.cnt a + 1 else m.cnt b := fun b => cnt_set hal'
  have hlive : ∀ b, m'.Live b ↔ m.Live b := by
    intro b; unfold Live; rw [hcnt]
    split_ifs with hb
    · subst hb; omega
    · rfl
  have how : ∀ b, m'.ownersOf b = m.ownersOf b := by
    intro b
    unfold ownersOf
    refine Finset.sum_congr rfl fun i _ => ?_
    have := hlive i
    unfold Live at this
    simp only [this]
    rfl
  refine ⟨by simp [hm', h.len], h.ordS, h.ordR, h.ordU, h.wat, ?_, ?_, h.loc, h.locS, ?_, ?_, ?_⟩
  · intro b hb
    simp [hm'] at hb
    rcases hb with rfl | hb
    · exact hlt b ha
    · exact hlt b hb
  · intro b hb
    have := h.counts b hb
    rw [hcnt, how, show m'.held = a :: m.held from rfl]
    simp only [List.append_nil] at this ⊢
    by_cases hba : b = a
    · subst hba; simp; omega
    · rw [if_neg hba, this]; simp [Ne.symm hba]
  · intro i hi
    rw [hcnt]; split_ifs with hb
    · subst hb
      have : (m.obj i).isLocal = true := hi
      rw [hl] at this; cases this
    · exact h.locC i hi
  · intro n w hw hl'
    have := h.priv n w hw hl'
    have hna : n ≠ a := fun e => this.2 (e ▸ ha)
    refine ⟨by rw [hcnt, if_neg hna]; exact this.1, ?_⟩
    simp only [hm', List.mem_cons, not_or]
    exact ⟨hna, this.2⟩
  · intro n hn w hw hl'
    obtain ⟨o, ho, hS | hs⟩ := h.kept n ((hlive n).1 hn) w hw hl'
    · obtain ⟨S, hS, hsub⟩ := hS
      exact ⟨o, ho, Or.inl ⟨S, (hlive S).2 hS, hsub⟩⟩
    · exact absurd hs (by simp)

theorem count_flatMap_strong (a : ℕ) : ∀ l : List Obj, (l.flatMap (·.strong)).count a =
    ∑ i ∈ Finset.range l.length, (objAt l i).strong.count a
  | [] => by simp
  | o :: l => by
    rw [List.flatMap_cons, List.count_append, count_flatMap_strong a l, List.length_cons,
      Finset.sum_range_succ']
    rw [add_comm]
    simp [objAt]

/-- The objects of a new hierarchy. -/
theorem RefInv.adopt (h : RefInv m []) {ext : ℕ → Prop} {ns : List Obj}
    (hext : ∀ j, ext j → j < m.nodes.length)
    (hpre : m.nodes <+: ns) (hne : m.nodes.length < ns.length)
    (hP : Part m.nodes.length (fun j => j ∈ m.held ∧ (m.obj j).isLocal = false)
      (fun j => j < m.nodes.length ∧ (m.obj j).isLocal = true) ext ns [ns.length - 1]) :
    RefInv (m.adopt ns) [] := by
  obtain ⟨bs, rfl⟩ := hpre
  set N := m.nodes.length with hNdef
  have hlt : ∀ j ∈ m.held, j < N := fun j hj => h.lt j (by simpa using hj)
  have hlenb : (m.nodes ++ bs).length = N + bs.length := by simp [hNdef]
  have hbpos : 0 < bs.length := by rw [hlenb] at hne; omega
  have hdrop : (m.nodes ++ bs).drop N = bs := by simp [hNdef]
  have hobj : ∀ i, (m.adopt (m.nodes ++ bs)).obj i = objAt (m.nodes ++ bs) i := fun i => rfl
  have hold : ∀ i, i < N → (m.adopt (m.nodes ++ bs)).obj i = m.obj i := fun i hi => by
    rw [hobj, objAt_left hi]; rfl
  have hnodes : (m.adopt (m.nodes ++ bs)).nodes.length = N + bs.length := by
    simp [Mem.adopt, hNdef]
  have hheld : (m.adopt (m.nodes ++ bs)).held = (N + bs.length - 1) :: m.held := by
    simp [Mem.adopt, hNdef]
  have hcnt : ∀ a, a < N + bs.length → (m.adopt (m.nodes ++ bs)).cnt a =
      m.cnt a + (bs.flatMap (·.strong)).count a + (if a + 1 = N + bs.length then 1 else 0) := by
    intro a ha
    unfold Mem.adopt Mem.cnt
    simp only
    rw [hdrop, hlenb]
    simp [List.getD, ha]
  -- what the new objects own of the old ones is held by the program
  have hownOld : ∀ a, a < N → 0 < (bs.flatMap (·.strong)).count a →
      a ∈ m.held ∧ (m.obj a).isLocal = false := by
    intro a ha hc
    obtain ⟨b, hb, hab⟩ := List.mem_flatMap.1 (List.count_pos_iff.1 hc)
    obtain ⟨k, hk, rfl⟩ := List.getElem_of_mem hb
    have : (objAt (m.nodes ++ bs) (N + k)).strong = bs[k].strong := by
      rw [hNdef, objAt_right]; simp [objAt, List.getD, hk]
    rw [← this] at hab
    rcases hP.strong (N + k) (by omega) a hab with h1 | h1
    · omega
    · exact h1
  have hliveOld : ∀ a, a < N → ((m.adopt (m.nodes ++ bs)).Live a ↔ m.Live a) := by
    intro a ha
    unfold Live
    rw [hcnt a (by omega), if_neg (by omega)]
    constructor
    · intro hp
      by_contra hc
      have h0 : m.cnt a = 0 := by omega
      have := (hownOld a ha (by omega)).1
      have := h.live_mem (a := a) (by simpa using this)
      unfold Live at this; omega
    · intro hp; omega
  have hliveNew : ∀ a, N ≤ a → a < N + bs.length → (m.adopt (m.nodes ++ bs)).Live a := by
    intro a h1 h2
    unfold Live
    rw [hcnt a h2]
    rcases hP.owned a h1 (by rw [hlenb]; exact h2) with h3 | ⟨S, h3, h4, h5⟩
    · simp only [List.mem_singleton] at h3
      rw [hlenb] at h3
      rw [if_pos (by omega)]; omega
    · have : 0 < (bs.flatMap (·.strong)).count a := by
        rw [List.count_pos_iff, List.mem_flatMap]
        rw [hlenb] at h4
        obtain ⟨k, rfl⟩ : ∃ k, S = m.nodes.length + k := ⟨S - N, by omega⟩
        have hk : k < bs.length := by omega
        refine ⟨bs[k], List.getElem_mem _, ?_⟩
        rw [objAt_right] at h5
        simpa [objAt, List.getD, hk] using h5
      omega
  have how : ∀ a, (m.adopt (m.nodes ++ bs)).ownersOf a =
      m.ownersOf a + (bs.flatMap (·.strong)).count a := by
    intro a
    rw [count_flatMap_strong]
    unfold ownersOf
    rw [hnodes, Finset.sum_range_add]
    congr 1
    · refine Finset.sum_congr rfl fun i hi => ?_
      have hi := Finset.mem_range.1 hi
      have := hliveOld i hi
      unfold Live at this
      rw [hold i hi]
      simp only [this]
    · refine Finset.sum_congr rfl fun i hi => ?_
      have hi := Finset.mem_range.1 hi
      have := hliveNew (N + i) (by omega) (by omega)
      unfold Live at this
      rw [if_pos this, hobj, hNdef, objAt_right]
  have hz : ∀ i, N + bs.length ≤ i → (m.adopt (m.nodes ++ bs)).obj i = {} := fun i hi => by
    rw [hobj]; exact objAt_ge (by rw [hlenb]; exact hi)
  have hlocOld : ∀ i, ((m.adopt (m.nodes ++ bs)).obj i).isLocal = true →
      i < N ∧ (m.obj i).isLocal = true := by
    intro i hi
    by_cases h1 : i < N
    · rw [hold i h1] at hi; exact ⟨h1, hi⟩
    · rw [hobj, hP.notLocal i (by omega)] at hi; cases hi
  -- a reference to an object without scope
  have hrefs : ∀ n w, w ∈ ((m.adopt (m.nodes ++ bs)).obj n).refs →
      ((m.adopt (m.nodes ++ bs)).obj w).isLocal = false →
      (n < N ∧ w ∈ (m.obj n).refs ∧ (m.obj w).isLocal = false) ∨
      (N ≤ n ∧ w ∈ (objAt (m.nodes ++ bs) n).refs ∧ N ≤ w) := by
    intro n w hw hl
    by_cases h1 : n < N
    · rw [hold n h1] at hw
      rw [hold w (lt_trans (h.ordR n w hw) h1)] at hl
      exact Or.inl ⟨h1, hw, hl⟩
    · rw [hobj] at hw
      rcases hP.refs n (by omega) w hw with h2 | h2
      · exact Or.inr ⟨by omega, hw, h2.1⟩
      · rw [hold w h2.1, h2.2] at hl; cases hl
  refine ⟨by simp [Mem.adopt], ?_, ?_, ?_, ?_, ?_, ?_, ?_, ?_, ?_, ?_, ?_⟩
  · intro i j hj
    by_cases h1 : i < N
    · rw [hold i h1] at hj; exact h.ordS i j hj
    · rcases hP.strong i (by omega) j hj with h2 | h2
      · exact h2.2
      · have := hlt j h2.1; omega
  · intro i j hj
    by_cases h1 : i < N
    · rw [hold i h1] at hj; exact h.ordR i j hj
    · rcases hP.refs i (by omega) j hj with h2 | h2
      · exact h2.2
      · omega
  · intro i j hj
    by_cases h1 : i < N
    · rw [hold i h1] at hj; exact h.ordU i j hj
    · rcases hP.uses i (by omega) j hj with h2 | h2
      · exact h2.2
      · have := hext j h2; omega
  · intro i j hj
    by_cases h1 : i < N
    · rw [hold i h1] at hj ⊢; exact h.wat i j hj
    · exact hP.wat i (by omega) j hj
  · intro a ha
    rw [hheld] at ha
    rw [hnodes]
    simp at ha
    rcases ha with rfl | ha
    · omega
    · have := hlt a ha; omega
  · intro a ha
    rw [hnodes] at ha
    rw [hcnt a ha, how, hheld]
    simp only [List.append_nil, List.count_cons]
    have e : (if (N + bs.length - 1 == a) = true then 1 else 0) =
        (if a + 1 = N + bs.length then 1 else 0) := by
      by_cases hae : a + 1 = N + bs.length
      · rw [if_pos hae, if_pos]; simp; omega
      · rw [if_neg hae, if_neg]; simp; omega
    rw [e]
    by_cases h1 : a < N
    · have := h.counts a h1
      simp only [List.append_nil] at this
      omega
    · have h2 : m.held.count a = 0 := by
        rw [List.count_eq_zero]; intro hc; have := hlt a hc; omega
      have h3 : m.ownersOf a = 0 := by
        unfold ownersOf
        refine Finset.sum_eq_zero fun i hi => ?_
        split_ifs
        · rw [List.count_eq_zero]
          intro hc
          have := h.ordS i _ hc
          have := Finset.mem_range.1 hi
          omega
        · rfl
      have h4 : m.cnt a = 0 := cnt_of_ge (by rw [h.len]; omega)
      omega
  · intro i j hj
    by_cases h1 : i < N
    · rw [hold i h1] at hj
      rw [hold j (lt_trans (h.ordS i j hj) h1)]
      exact h.loc i j hj
    · rcases hP.strong i (by omega) j hj with h2 | h2
      · exact hP.notLocal j h2.1
      · rw [hold j (hlt j h2.1)]; exact h2.2
  · intro i hi
    obtain ⟨h1, h2⟩ := hlocOld i hi
    rw [hold i h1]; exact h.locS i h2
  · intro i hi
    obtain ⟨h1, h2⟩ := hlocOld i hi
    rw [hcnt i (by omega), if_neg (by omega)]
    have h3 := h.locC i h2
    have h4 : (bs.flatMap (·.strong)).count i = 0 := by
      by_contra hc
      have := (hownOld i h1 (by omega)).2
      rw [h2] at this; cases this
    omega
  · intro n w hw hl
    rcases hrefs n w hw hl with ⟨h1, h2, h3⟩ | ⟨h1, h2, h3⟩
    · have hp := h.priv n w h2 h3
      have h4 : (bs.flatMap (·.strong)).count n = 0 := by
        by_contra hc
        exact hp.2 (hownOld n h1 (by omega)).1
      rw [hcnt n (by omega), if_neg (by omega), hheld]
      refine ⟨by omega, ?_⟩
      simp only [List.mem_cons, not_or]
      exact ⟨by omega, hp.2⟩
    · have hp := hP.priv n h1 w h2 h3
      rw [hdrop] at hp
      have hnl : n < N + bs.length := by
        by_contra hc
        rw [objAt_ge (by rw [hlenb]; omega)] at h2; cases h2
      have hnlast : n + 1 ≠ N + bs.length := by
        intro e; apply hp.1; rw [hlenb]; simp; omega
      have h4 : m.cnt n = 0 := cnt_of_ge (by rw [h.len]; omega)
      rw [hcnt n hnl, if_neg hnlast, hheld]
      refine ⟨by omega, ?_⟩
      simp only [List.mem_cons, not_or]
      exact ⟨by omega, fun hc => by have := hlt n hc; omega⟩
  · intro n hn w hw hl
    rcases hrefs n w hw hl with ⟨h1, h2, h3⟩ | ⟨h1, h2, h3⟩
    · obtain ⟨o', ho, hS | hs'⟩ := h.kept n ((hliveOld n h1).1 hn) w h2 h3
      · obtain ⟨S, hS, hsub⟩ := hS
        have hSl := h.live_lt hS
        exact ⟨o', owns_mono hold ho, Or.inl ⟨S, (hliveOld S hSl).2 hS, by
          rw [hold S hSl]; exact hsub⟩⟩
      · exact absurd hs' (by simp)
    · obtain ⟨S, o', h4, h5, h6, h7⟩ := hP.kept n h1 w h2 h3
      rw [hlenb] at h5
      exact ⟨o', h7, Or.inl ⟨S, hliveNew S h4 h5, h6⟩⟩

/-! ### Using an object -/

theorem foldr_ok_iff {f : ℕ → Outcome Unit} : ∀ l : List ℕ,
    l.foldr (fun b k => f b >>= fun _ => k) (.ok ()) = .ok () ↔ ∀ b ∈ l, f b = .ok ()
  | [] => by simp
  | b :: l => by
    simp only [List.foldr_cons, Outcome.bind_eq_ok, foldr_ok_iff l, List.mem_cons,
      forall_eq_or_imp]
    constructor
    · rintro ⟨_, h1, h2⟩; exact ⟨h1, h2⟩
    · rintro ⟨h1, h2⟩; exact ⟨(), h1, h2⟩

theorem foldr_cases {f : ℕ → Outcome Unit} (hf : ∀ b, f b = .ok () ∨ f b =
    .ub "use of a destroyed object") : ∀ l : List ℕ,
    l.foldr (fun b k => f b >>= fun _ => k) (.ok ()) = .ok () ∨
    l.foldr (fun b k => f b >>= fun _ => k) (.ok ()) = .ub "use of a destroyed object"
  | [] => Or.inl rfl
  | b :: l => by
    rw [List.foldr_cons]
    rcases hf b with h | h
    · rw [h]; exact foldr_cases hf l
    · rw [h]; exact Or.inr rfl

theorem useFuel_cases : ∀ (f a : ℕ), m.useFuel f a = .ok () ∨
    m.useFuel f a = .ub "use of a destroyed object"
  | 0, a => Or.inr rfl
  | f + 1, a => by
    rw [useFuel]
    split_ifs
    · exact Or.inr rfl
    · exact foldr_cases (useFuel_cases f) _

theorem useFuel_ok_iff (hU : ∀ i, ∀ j ∈ (m.obj i).uses, j < i) : ∀ (f a : ℕ), a < f →
    (m.useFuel f a = .ok () ↔ ∀ b, m.Reads a b → m.Live b)
  | 0, a, h => by omega
  | f + 1, a, h => by
    rw [useFuel]
    split_ifs with hc
    · constructor
      · intro h'; cases h'
      · intro h'; have := h' a .refl; unfold Live at this; omega
    · rw [foldr_ok_iff]
      constructor
      · intro h' b hb
        rcases Relation.ReflTransGen.cases_head hb with rfl | ⟨c, hc1, hc2⟩
        · unfold Live; omega
        · have := hU a c hc1
          exact (useFuel_ok_iff hU f c (by omega)).1 (h' c hc1) b hc2
      · intro h' c hc1
        have := hU a c hc1
        exact (useFuel_ok_iff hU f c (by omega)).2 fun b hb => h' b (.head hc1 hb)

theorem RefInv.use_iff {wl : List ℕ} (h : RefInv m wl) (a : ℕ) :
    m.use a = .ok () ↔ ∀ b, m.Reads a b → m.Live b :=
  useFuel_ok_iff h.ordU (a + 1) a (by omega)

theorem use_cases (a : ℕ) : m.use a = .ok () ∨ m.use a = .ub "use of a destroyed object" :=
  useFuel_cases _ _

/-! ### Programs -/

/-- What the `build` statement does when it succeeds. -/
theorem exec_build_ok {debug : Bool} {m' : Mem} {e p : ℕ} {t : Option ℕ} {levels : ℕ}
    {amgx : Bool} (hal : (UseStmt.build e p t levels amgx).allowed m = true)
    (h : m.exec debug (.build e p t levels amgx) = .ok m') :
    ∃ r kind, levels = r + 1 ∧ (m.obj e).evaluator = some kind ∧
      (∀ b ∈ (m.obj e).refs, m.use b = .ok ()) ∧ (kind = .matrixFree → r = 1) ∧
      m' = m.adopt ((buildLevels kind amgx e p r m.nodes).1 ++
        [hierarchyObj r (buildLevels kind amgx e p r m.nodes).2 t]) := by
  unfold Mem.exec at h
  rw [hal] at h
  simp only [Bool.not_true, Bool.false_eq_true, if_false] at h
  obtain ⟨_, h1, h2⟩ := Outcome.bind_eq_ok.1 h
  have h1 := (foldr_ok_iff _).1 h1
  cases levels with
  | zero => simp only at h2; split_ifs at h2
  | succ r =>
    cases hk : (m.obj e).evaluator with
    | none => rw [hk] at h2; cases h2
    | some kind =>
      rw [hk] at h2
      simp only at h2
      by_cases hm : kind = .matrixFree ∧ r ≠ 1
      · rw [if_pos hm] at h2; split_ifs at h2
      · rw [if_neg hm] at h2
        refine ⟨r, kind, rfl, rfl, h1, fun e => ?_, ?_⟩
        · by_contra hr; exact hm ⟨e, hr⟩
        · cases h2; rfl

/-- What an evaluator refers to, in every state. -/
structure EvalInv (m : Mem) : Prop where
  handle : ∀ e k, (m.obj e).evaluator = some (.device k) →
    k ∈ (m.obj e).refs
  refsLocal : ∀ e k, (m.obj e).evaluator = some k → ∀ j ∈ (m.obj e).refs,
    (m.obj j).isLocal = true
  notLocal : ∀ e k, (m.obj e).evaluator = some k → (m.obj e).isLocal = false

theorem part_of_build {e p r : ℕ} {t : Option ℕ} {levels : ℕ} {kind : EvalKind} {amgx : Bool}
    (h : RefInv m []) (hE : EvalInv m)
    (hal : (UseStmt.build e p t levels amgx).allowed m = true)
    (hk : (m.obj e).evaluator = some kind) :
    Part m.nodes.length (fun j => j ∈ m.held ∧ (m.obj j).isLocal = false)
      (fun j => j < m.nodes.length ∧ (m.obj j).isLocal = true)
      (fun j => j ∈ t.toList ∨ j ∈ neededRoots kind e (r + 2) amgx)
      ((buildLevels kind amgx e p r m.nodes).1 ++
        [hierarchyObj r (buildLevels kind amgx e p r m.nodes).2 t])
      [(buildLevels kind amgx e p r m.nodes).1.length] ∧
    m.nodes <+: (buildLevels kind amgx e p r m.nodes).1 ∧
      ∃ op ∈ (buildLevels kind amgx e p r m.nodes).2, ∀ k ∈ neededRoots kind e 2 amgx,
        k ∈ (objAt (buildLevels kind amgx e p r m.nodes).1 op).uses := by
  simp only [UseStmt.allowed, Bool.and_eq_true, List.contains_iff_mem, decide_eq_true_eq,
    List.all_eq_true] at hal
  obtain ⟨⟨⟨he, he'⟩, hp, hp'⟩, ht⟩ := hal
  have hlt : ∀ j ∈ m.held, j < m.nodes.length := fun j hj => h.lt j (by simpa using hj)
  have hb := Part.buildLevels (N := m.nodes.length)
    (ok := fun j => j ∈ m.held ∧ (m.obj j).isLocal = false)
    (loc := fun j => j < m.nodes.length ∧ (m.obj j).isLocal = true)
    (ext := fun j => j ∈ t.toList ∨ j ∈ neededRoots kind e (r + 2) amgx)
    (fun j hj => hlt j hj.1) (fun j hj => hj.1) (kind := kind) amgx (e := e) (p := p) (r := r)
    (ns := m.nodes) rfl ⟨hp, by rw [hp']⟩ (fun _ => ⟨he, hE.notLocal e kind hk⟩)
    (fun k hk' => by
      subst hk'
      have h1 := hE.handle e k hk
      exact ⟨⟨lt_trans (h.ordR e k h1) (hlt e he), hE.refsLocal e _ hk k h1⟩,
        Or.inr (by simp [neededRoots])⟩)
    (fun hk' => Or.inr (by subst hk'; simp [neededRoots]))
  refine ⟨Part.hierarchy (fun j hj => hlt j hj.1) hb.1 r (fun j hj => ⟨(ht j hj).1, by rw [(ht j hj).2]⟩)
    fun j hj => Or.inl hj, hb.2⟩

theorem prefix_obj {m' : Mem} (h : m.nodes <+: m'.nodes) {i : ℕ} (hi : i < m.nodes.length) :
    m'.obj i = m.obj i := by
  obtain ⟨bs, hb⟩ := h
  change objAt m'.nodes i = objAt m.nodes i
  rw [← hb, objAt_left hi]

theorem exec_inv {debug : Bool} {m' : Mem} {s : UseStmt} (h : RefInv m []) (hE : EvalInv m)
    (hs : m.exec debug s = .ok m') : RefInv m' [] ∧ EvalInv m' ∧ m.nodes <+: m'.nodes := by
  have hlt : ∀ j ∈ m.held, j < m.nodes.length := fun j hj => h.lt j (by simpa using hj)
  have hElt : ∀ e k, (m.obj e).evaluator = some k → e < m.nodes.length := by
    intro e k he
    by_contra hc
    rw [obj_of_ge (by omega)] at he; cases he
  -- the evaluators of the state before
  have hEold : ∀ (m'' : Mem), m.nodes <+: m''.nodes →
      (∀ e k, m.nodes.length ≤ e → (m''.obj e).evaluator = some k →
        (∀ hd, k = .device hd → hd ∈ (m''.obj e).refs) ∧
        (∀ j ∈ (m''.obj e).refs, (m''.obj j).isLocal = true) ∧ (m''.obj e).isLocal = false) →
      EvalInv m'' := by
    intro m'' hp hnew
    have hold : ∀ e, e < m.nodes.length → m''.obj e = m.obj e := fun e he => prefix_obj hp he
    refine ⟨?_, ?_, ?_⟩
    · intro e k he
      by_cases h1 : e < m.nodes.length
      · rw [hold e h1] at he ⊢; exact hE.handle e k he
      · exact (hnew e _ (by omega) he).1 k rfl
    · intro e k he j hj
      by_cases h1 : e < m.nodes.length
      · rw [hold e h1] at he hj
        rw [hold j (lt_trans (h.ordR e j hj) h1)]
        exact hE.refsLocal e k he j hj
      · exact (hnew e _ (by omega) he).2.1 j hj
    · intro e k he
      by_cases h1 : e < m.nodes.length
      · rw [hold e h1] at he ⊢; exact hE.notLocal e k he
      · exact (hnew e _ (by omega) he).2.2
  by_cases hal : s.allowed m = true
  swap
  · unfold Mem.exec at hs
    simp only [Bool.not_eq_true] at hal
    rw [hal] at hs
    simp at hs
    subst hs
    exact ⟨h, hE, List.prefix_refl _⟩
  cases s with
  | object refs watched =>
    unfold Mem.exec at hs
    rw [hal] at hs
    simp only [Bool.not_true, Bool.false_eq_true, if_false, Outcome.ok.injEq] at hs
    simp only [UseStmt.allowed, Bool.and_eq_true, List.contains_iff_mem, List.all_eq_true] at hal
    subst hs
    refine ⟨h.create rfl (fun j hj => hal.1 j hj) (fun j hj => hj) hal.2,
      hEold _ (List.prefix_append _ _) ?_, List.prefix_append _ _⟩
    intro e k he hk
    rw [obj_create] at hk
    split_ifs at hk
    rw [obj_of_ge he] at hk; cases hk
  | evaluator kind dof cons reads =>
    unfold Mem.exec at hs
    rw [hal] at hs
    simp only [Bool.not_true, Bool.false_eq_true, if_false, Outcome.ok.injEq] at hs
    simp only [UseStmt.allowed, Bool.and_eq_true, List.contains_iff_mem, List.all_eq_true] at hal
    subst hs
    refine ⟨h.create rfl (fun j hj => hal.1 j hj) ?_ (by simp),
      hEold _ (List.prefix_append _ _) ?_, List.prefix_append _ _⟩
    · intro j hj
      rcases List.mem_cons.1 hj with rfl | hj
      · exact List.mem_cons_self
      · exact hal.2 j hj
    · intro e k he hk
      rw [obj_create] at hk
      by_cases he' : e = m.nodes.length
      · subst he'
        rw [if_pos rfl] at hk
        cases hk
        refine ⟨?_, ?_, ?_⟩
        · rintro hd rfl
          rw [obj_create, if_pos rfl]; simp
        · intro j hj
          rw [obj_create, if_pos rfl] at hj
          have := hal.1 j hj
          rw [obj_create, if_neg (by have := hlt j this.1; omega)]
          exact this.2
        · rw [obj_create, if_pos rfl]
      · rw [if_neg he', obj_of_ge he] at hk; cases hk
  | shared =>
    unfold Mem.exec at hs
    rw [hal] at hs
    simp only [Bool.not_true, Bool.false_eq_true, if_false, Outcome.ok.injEq] at hs
    subst hs
    refine ⟨h.create rfl (by simp) (by simp) (by simp),
      hEold _ (List.prefix_append _ _) ?_, List.prefix_append _ _⟩
    intro e k he hk
    rw [obj_create] at hk
    split_ifs at hk
    rw [obj_of_ge he] at hk; cases hk
  | copy a =>
    unfold Mem.exec at hs
    rw [hal] at hs
    simp only [Bool.not_true, Bool.false_eq_true, if_false, Outcome.ok.injEq] at hs
    simp only [UseStmt.allowed, Bool.and_eq_true, List.contains_iff_mem, Bool.not_eq_true'] at hal
    subst hs
    exact ⟨h.copy hal.1 hal.2, ⟨hE.handle, hE.refsLocal, hE.notLocal⟩, List.prefix_refl _⟩
  | drop a =>
    unfold Mem.exec at hs
    rw [hal] at hs
    simp only [Bool.not_true, Bool.false_eq_true, if_false] at hs
    simp only [UseStmt.allowed, List.contains_iff_mem] at hal
    cases hl : (m.obj a).isLocal with
    | false =>
      obtain ⟨m₁, h1, h2, h3, _, _⟩ := drop_shared debug h hal hl
      rw [h1] at hs; cases hs
      refine ⟨h2, hEold _ (by rw [h3]) ?_, by rw [h3]⟩
      intro e k he hk
      rw [obj_of_ge (by rw [h3]; exact he)] at hk; cases hk
    | true =>
      obtain ⟨h1, h2⟩ := drop_local debug h hal hl
      rw [h1] at hs
      split_ifs at hs
      cases hs
      exact ⟨h2, ⟨hE.handle, hE.refsLocal, hE.notLocal⟩, List.prefix_refl _⟩
  | build e p t levels amgx =>
    obtain ⟨r, kind, hr, hk, hu, hmf, rfl⟩ := exec_build_ok hal hs
    obtain ⟨hP, hpre, _⟩ := part_of_build (r := r) h hE hal hk
    have hpre' : m.nodes <+: (buildLevels kind amgx e p r m.nodes).1 ++
        [hierarchyObj r (buildLevels kind amgx e p r m.nodes).2 t] :=
      hpre.trans (List.prefix_append _ _)
    have hlen := hpre.length_le
    have hal' := hal
    simp only [UseStmt.allowed, Bool.and_eq_true, List.contains_iff_mem, decide_eq_true_eq,
      List.all_eq_true] at hal'
    obtain ⟨⟨⟨he, he'⟩, hp, hp'⟩, ht⟩ := hal'
    refine ⟨h.adopt (ext := fun j => j ∈ t.toList ∨ j ∈ neededRoots kind e (r + 2) amgx)
      ?_ hpre' (by simp; omega) (hP.congr (by intro i; simp)), hEold _ hpre' ?_, hpre'⟩
    · rintro j (hj | hj)
      · exact hlt j (ht j hj).1
      · cases kind with
        | matrixBased => simp [neededRoots] at hj
        | matrixFree => simp [neededRoots] at hj; subst hj; exact hlt j he
        | device hd =>
          simp [neededRoots] at hj; subst hj
          exact lt_trans (h.ordR e j (hE.handle e j hk)) (hlt e he)
    · intro e' k he' hk'
      have := hP.noEval e' he'
      cases (show some k = none from hk'.symm.trans this)
  | vmult hh =>
    unfold Mem.exec at hs
    rw [hal] at hs
    simp only [Bool.not_true, Bool.false_eq_true, if_false] at hs
    obtain ⟨_, _, h2⟩ := Outcome.bind_eq_ok.1 hs
    cases h2
    exact ⟨h, hE, List.prefix_refl _⟩

theorem run_inv {debug : Bool} : ∀ (program : List UseStmt) (m m' : Mem), RefInv m [] → EvalInv m →
    m.run debug program = .ok m' → RefInv m' [] ∧ EvalInv m' ∧ m.nodes <+: m'.nodes
  | [], m, m', h, hE, hr => by
    cases hr; exact ⟨h, hE, List.prefix_refl _⟩
  | s :: ss, m, m', h, hE, hr => by
    rw [Mem.run, Outcome.bind_eq_ok] at hr
    obtain ⟨m₁, h1, h2⟩ := hr
    obtain ⟨a, b, c⟩ := exec_inv h hE h1
    obtain ⟨a', b', c'⟩ := run_inv ss m₁ m' a b h2
    exact ⟨a', b', c.trans c'⟩

theorem evalInv_empty : EvalInv {} := by
  have hz : ∀ i, ({} : Mem).obj i = {} := fun i => obj_of_ge (by simp)
  refine ⟨?_, ?_, ?_⟩ <;>
  · intro e k he; rw [hz] at he; cases he

theorem Reached.inv {debug : Bool} (h : m.Reached debug) : RefInv m [] ∧ EvalInv m := by
  obtain ⟨program, hp⟩ := h
  have := run_inv program {} m inv_empty evalInv_empty hp
  exact ⟨this.1, this.2.1⟩

theorem run_append {debug : Bool} : ∀ (p q : List UseStmt) (m : Mem),
    m.run debug (p ++ q) = m.run debug p >>= fun m' => m'.run debug q
  | [], q, m => rfl
  | s :: p, q, m => by
    rw [List.cons_append, Mem.run, Mem.run]
    cases m.exec debug s with
    | ok m' => exact run_append p q m'
    | throws _ => rfl
    | aborted => rfl
    | ub _ => rfl

theorem Reached.exec {debug : Bool} {m' : Mem} {s : UseStmt} (h : m.Reached debug)
    (hs : m.exec debug s = .ok m') : m'.Reached debug := by
  obtain ⟨program, hp⟩ := h
  refine ⟨program ++ [s], ?_⟩
  rw [run_append, hp]
  simp [Mem.run, hs]

theorem Reached.run {debug : Bool} {m' : Mem} {q : List UseStmt} (h : m.Reached debug)
    (hs : m.run debug q = .ok m') : m'.Reached debug := by
  obtain ⟨program, hp⟩ := h
  exact ⟨program ++ q, by rw [run_append, hp]; exact hs⟩

/-- An application of a hierarchy, long after its construction. -/
theorem vmult_iff {debug : Bool} {m₁ m₂ : Mem} {e p levels : ℕ} {t : Option ℕ} {amgx : Bool}
    {kind : EvalKind} {later : List UseStmt} (h : RefInv m []) (hE : EvalInv m)
    (hal : (UseStmt.build e p t levels amgx).allowed m = true)
    (hkind : (m.obj e).evaluator = some kind)
    (hb : m.exec debug (.build e p t levels amgx) = .ok m₁)
    (hl : m₁.run debug later = .ok m₂) (hheld : m₁.nodes.length - 1 ∈ m₂.held) :
    m₂.use (m₁.nodes.length - 1) = .ok () ↔
      ∀ root ∈ neededRoots kind e levels amgx, ∀ b, m₂.Reads root b → m₂.Live b := by
  obtain ⟨hI₁, hE₁, hpre₁⟩ := exec_inv h hE hb
  obtain ⟨hI₂, hE₂, hpre₂⟩ := run_inv later m₁ m₂ hI₁ hE₁ hl
  obtain ⟨r, kind', hr, hk, hu, hmf, hm₁⟩ := exec_build_ok hal hb
  rw [hkind] at hk
  cases hk
  obtain ⟨hP, hpre, op, hop, hroots⟩ := part_of_build (p := p) (r := r) h hE hal hkind
  have hal' := hal
  simp only [UseStmt.allowed, Bool.and_eq_true, List.contains_iff_mem, decide_eq_true_eq,
    List.all_eq_true] at hal'
  obtain ⟨⟨⟨he, he'⟩, hp, hp'⟩, ht⟩ := hal'
  have hlt : ∀ j ∈ m.held, j < m.nodes.length := fun j hj => h.lt j (by simpa using hj)
  obtain ⟨bl, hbl⟩ : ∃ x, x = buildLevels kind amgx e p r m.nodes := ⟨_, rfl⟩
  rw [← hbl] at hm₁ hP hpre hop hroots
  set H := bl.1.length with hH
  have hlen₁ : m₁.nodes.length = H + 1 := by rw [hm₁]; simp [Mem.adopt, hH]
  have hNH : m.nodes.length ≤ H := hpre.length_le
  rw [hlen₁] at hheld ⊢
  simp only [Nat.add_sub_cancel] at hheld ⊢
  -- the objects of the hierarchy are what they were when it was built
  have hobj : ∀ i, i < H + 1 → m₂.obj i = objAt (bl.1 ++ [hierarchyObj r bl.2 t]) i := by
    intro i hi
    rw [prefix_obj hpre₂ (by omega), hm₁]; rfl
  have hobjH : m₂.obj H = hierarchyObj r bl.2 t := by
    rw [hobj H (by omega), hH, show bl.1.length = bl.1.length + 0 from rfl, objAt_right]
    simp [objAt]
  have hobjOp : ∀ i, i < H → m₂.obj i = objAt bl.1 i := by
    intro i hi
    rw [hobj i (by omega), objAt_left hi]
  have hliveH : m₂.Live H := hI₂.live_mem (by simpa using hheld)
  have hlenns : (bl.1 ++ [hierarchyObj r bl.2 t]).length = H + 1 := by simp [hH]
  -- the hierarchy owns all of them
  have hown : ∀ d i, d + i = H → m.nodes.length ≤ i → m₂.Owns H i := by
    intro d
    induction d using Nat.strong_induction_on with
    | _ d ih =>
      intro i hdi hi
      rcases hP.owned i hi (by rw [hlenns]; omega) with h1 | ⟨S, h1, h2, h3⟩
      · simp only [List.mem_singleton] at h1; rw [h1]; exact .refl
      · rw [hlenns] at h2
        have hiS : i < S := by
          rcases hP.strong S h1 i h3 with h4 | h4
          · exact h4.2
          · have := hlt i h4.1; omega
        have hSH := ih (H - S) (by omega) S (by omega) h1
        refine .tail hSH ?_
        rw [hobj S h2]; exact h3
  have hliveNew : ∀ i, m.nodes.length ≤ i → i ≤ H → m₂.Live i := fun i h1 h2 =>
    hI₂.live_owns hliveH (hown (H - i) i (by omega) h1)
  have hliveT : ∀ j ∈ t.toList, m₂.Live j := by
    intro j hj
    refine hI₂.live_strong hliveH ?_
    rw [hobjH]; simp only [hierarchyObj, List.mem_append]; exact Or.inr hj
  have hobjT : ∀ j ∈ t.toList, m₂.obj j = {} := by
    intro j hj
    rw [prefix_obj (hpre₁.trans hpre₂) (hlt j (ht j hj).1)]; exact (ht j hj).2
  rw [hI₂.use_iff]
  by_cases hspecial : r = 0 ∧ amgx = true ∧ ∃ k, kind = .device k
  · -- one level with the AMGX solver
    obtain ⟨rfl, rfl, k, rfl⟩ := hspecial
    have hroots0 : neededRoots (.device k) e levels true = [] := by simp [neededRoots, hr]
    rw [hroots0]
    simp only [List.not_mem_nil, false_imp_iff, implies_true, iff_true]
    have hbl' : bl = (addMatrix [k] m.nodes ++
        [{ strong := [p, m.nodes.length + 1], refs := [k], uses := [m.nodes.length] }],
        [m.nodes.length + 2, m.nodes.length + 1]) := by
      rw [hbl]
      simp [buildLevels, addLevels, addMatrix, addDeviceSolver]
    have hHN : H = m.nodes.length + 3 := by rw [hH, hbl']; simp [addMatrix]
    have o2 : m₂.obj (m.nodes.length + 2) =
        { strong := [p, m.nodes.length + 1], refs := [k], uses := [m.nodes.length] } := by
      rw [hobjOp _ (by omega), hbl', addMatrix, List.append_assoc, objAt_right]
      simp [objAt]
    have o0 : m₂.obj m.nodes.length = {} := by
      rw [hobjOp _ (by omega), hbl', addMatrix, List.append_assoc,
        show m.nodes.length = m.nodes.length + 0 from rfl, objAt_right]
      simp [objAt]
    have hreads : ∀ b, m₂.Reads H b → b = H ∨ b ∈ t.toList ∨ b = m.nodes.length + 2 ∨
        b = m.nodes.length := by
      intro b hb'
      induction hb' with
      | refl => exact Or.inl rfl
      | tail _ hstep ih =>
        rcases ih with rfl | ih | rfl | rfl
        · rw [hobjH] at hstep
          simp only [hierarchyObj, List.mem_append, if_true, hbl', List.take_succ_cons,
            List.take_zero, List.mem_singleton] at hstep
          tauto
        · rw [hobjT _ ih] at hstep; cases hstep
        · rw [o2] at hstep
          simp only [List.mem_singleton] at hstep
          tauto
        · rw [o0] at hstep; cases hstep
    intro b hb'
    rcases hreads b hb' with rfl | hb' | rfl | rfl
    · exact hliveH
    · exact hliveT b hb'
    · exact hliveNew _ (by omega) (by omega)
    · exact hliveNew _ (by omega) (by omega)
  · have hrootsEq : neededRoots kind e levels amgx = neededRoots kind e 2 amgx := by
      cases kind with
      | matrixBased => rfl
      | matrixFree => rfl
      | device k =>
        have : ¬ (r = 0 ∧ amgx = true) := fun hc => hspecial ⟨hc.1, hc.2, k, rfl⟩
        simp only [neededRoots]
        rw [if_neg (by rw [hr]; intro hc; exact this ⟨by omega, hc.2⟩), if_neg (by omega)]
    rw [hrootsEq]
    have hextEq : neededRoots kind e (r + 2) amgx = neededRoots kind e 2 amgx := by
      cases kind <;> simp [neededRoots]
    constructor
    · intro hall root hroot b hb'
      refine hall b (Relation.ReflTransGen.trans ?_ hb')
      by_cases hr0 : r = 0
      · -- one level: the coarse solver uses the handle
        subst hr0
        cases kind with
        | matrixBased => simp [neededRoots] at hroot
        | matrixFree => exact absurd (hmf rfl) (by omega)
        | device k =>
          have hamgx : amgx = false := by
            by_contra hc
            exact hspecial ⟨rfl, by simpa using hc, k, rfl⟩
          subst hamgx
          simp [neededRoots] at hroot
          subst hroot
          have hbl' : bl = (addMatrix [root] m.nodes ++
              [{ strong := [p, m.nodes.length + 1], refs := [root], uses := [m.nodes.length, root] }],
              [m.nodes.length + 2, m.nodes.length + 1]) := by
            rw [hbl]
            simp [buildLevels, addLevels, addMatrix, addDeviceSolver]
          have hHN : H = m.nodes.length + 3 := by rw [hH, hbl']; simp [addMatrix]
          have o2 : m₂.obj (m.nodes.length + 2) =
              { strong := [p, m.nodes.length + 1], refs := [root], uses := [m.nodes.length, root] } := by
            rw [hobjOp _ (by omega), hbl', addMatrix, List.append_assoc, objAt_right]
            simp [objAt]
          refine .head (b := m.nodes.length + 2) ?_ (.single ?_)
          · rw [hobjH]; simp [hierarchyObj, hbl']
          · rw [o2]; simp
      · refine .head (b := op) ?_ (.single ?_)
        · rw [hobjH]
          simp only [hierarchyObj, if_neg hr0, List.mem_append]
          exact Or.inr hop
        · have hopH : op < H := by
            by_contra hc
            have := hroots root hroot
            rw [objAt_ge (by omega)] at this; cases this
          rw [hobjOp op hopH]
          exact hroots root hroot
    · intro hall
      have hreads : ∀ b, m₂.Reads H b → (m.nodes.length ≤ b ∧ b ≤ H) ∨ b ∈ t.toList ∨
          ∃ root ∈ neededRoots kind e 2 amgx, m₂.Reads root b := by
        intro b hb'
        induction hb' with
        | refl => exact Or.inl ⟨hNH, le_rfl⟩
        | @tail x y _ hstep ih =>
          rcases ih with ⟨h1, h2⟩ | ih | ⟨root, h1, h2⟩
          · rw [hobj x (by omega)] at hstep
            rcases hP.uses x h1 y hstep with h3 | h3 | h3
            · left; omega
            · exact Or.inr (Or.inl h3)
            · rw [hextEq] at h3
              exact Or.inr (Or.inr ⟨y, h3, .refl⟩)
          · rw [hobjT _ ih] at hstep; cases hstep
          · exact Or.inr (Or.inr ⟨root, h1, .tail h2 hstep⟩)
      intro b hb'
      rcases hreads b hb' with ⟨h1, h2⟩ | h1 | ⟨root, h1, h2⟩
      · exact hliveNew b h1 h2
      · exact hliveT b h1
      · exact hall root h1 b h2

/-- When the program holds nothing any more, nothing is left. -/
theorem RefInv.no_leak (h : RefInv m []) (hh : m.held = []) (a : ℕ) : ¬ m.Live a := by
  have key : ∀ d a, d + a = m.nodes.length → ¬ m.Live a := by
    intro d
    induction d using Nat.strong_induction_on with
    | _ d ih =>
      intro a ha hl
      have hlt := h.live_lt hl
      unfold Live at hl
      rw [h.counts a hlt, hh] at hl
      simp only [List.append_nil, List.count_nil, zero_add] at hl
      have : m.ownersOf a = 0 := by
        unfold ownersOf
        refine Finset.sum_eq_zero fun i hi => ?_
        have hi := Finset.mem_range.1 hi
        split_ifs with hc
        · rw [List.count_eq_zero]
          intro hmem
          have := h.ordS i a hmem
          exact ih (m.nodes.length - i) (by omega) i (by omega) hc
        · rfl
      omega
  intro hl
  exact key (m.nodes.length - a) a (by have := h.live_lt hl; omega) hl

end Mem

end Mfmg
