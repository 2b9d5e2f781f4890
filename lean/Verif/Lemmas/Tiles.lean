import Verif.Spec.Agglomerate
import Verif.Lemmas.Agglomerate
import Mathlib.Tactic.Linarith
import Mathlib.Data.Finset.Prod
import Mathlib.Data.Finset.Card
import Mathlib.Order.Interval.Finset.Nat

/-! # The block partitioner on a box of cells -/

set_option autoImplicit false

namespace Mfmg

variable {m : Mesh} {dim X Y Z : ℕ} {pos : ℕ → ℕ × ℕ × ℕ}

theorem OwnedBox.forward (hb : OwnedBox m dim X Y Z pos) :
    m.Forward := by
  intro c c' d ho hn ho'
  have hr := hb.range c ho
  cases d with
  | xp =>
    by_cases h : (pos c).1 + 1 < X
    · obtain ⟨e, h1, h2, h3⟩ := hb.xp c ho h
      rw [hn] at h1
      obtain rfl := Option.some.inj h1
      have h4 := hb.order c c' ho ho' (by simp [h3]) (by simp [h3]) (by simp [h3])
      have : c ≠ c' := by rintro rfl; have := congrArg Prod.fst h3; simp at this
      omega
    · have := hb.xend c c' ho (by omega) hn
      rw [ho'] at this; exact absurd this (by simp)
  | yp =>
    by_cases h : (pos c).2.1 + 1 < Y
    · obtain ⟨e, h1, h2, h3⟩ := hb.yp c ho h
      rw [hn] at h1
      obtain rfl := Option.some.inj h1
      have h4 := hb.order c c' ho ho' (by simp [h3]) (by simp [h3]) (by simp [h3])
      have : c ≠ c' := by rintro rfl; have := congrArg (fun p => p.2.1) h3; simp at this
      omega
    · have := hb.yend c c' ho (by omega) hn
      rw [ho'] at this; exact absurd this (by simp)
  | zp =>
    have h3d : dim = 3 := by
      by_contra hne
      rw [(hb.flat hne).2 c] at hn
      exact absurd hn (by simp)
    by_cases h : (pos c).2.2 + 1 < Z
    · obtain ⟨e, h1, h2, h3⟩ := hb.zp h3d c ho h
      rw [hn] at h1
      obtain rfl := Option.some.inj h1
      have h4 := hb.order c c' ho ho' (by simp [h3]) (by simp [h3]) (by simp [h3])
      have : c ≠ c' := by rintro rfl; have := congrArg (fun p => p.2.2) h3; simp at this
      omega
    · have := hb.zend h3d c c' ho (by omega) hn
      rw [ho'] at this; exact absurd this (by simp)

theorem mem_trailX (hb : OwnedBox m dim X Y Z pos) : ∀ (n c : ℕ), m.owned c = true → ∀ d,
    d ∈ trailX m n c ↔ m.owned d = true ∧ (pos c).1 ≤ (pos d).1 ∧ (pos d).1 < (pos c).1 + n ∧
      (pos d).2 = (pos c).2
  | 0, c, ho, d => by
    simp only [trailX, List.not_mem_nil, false_iff]
    rintro ⟨_, h1, h2, _⟩
    omega
  | n + 1, c, ho, d => by
    have hself : ∀ d, m.owned d = true → (pos d).1 = (pos c).1 → (pos d).2 = (pos c).2 → d = c :=
      fun d hd h1 h2 => hb.inj d c hd ho (Prod.ext h1 h2)
    simp only [trailX, List.mem_cons]
    by_cases h : (pos c).1 + 1 < X
    · obtain ⟨c', h1, h2, h3⟩ := hb.xp c ho h
      simp only [h1, h2, if_true]
      rw [mem_trailX hb n c' h2 d]
      constructor
      · rintro (rfl | ⟨k1, k2, k3, k4⟩)
        · exact ⟨ho, le_rfl, by omega, rfl⟩
        · rw [h3] at k2 k3 k4
          simp only at k2 k3 k4
          exact ⟨k1, by omega, by omega, k4⟩
      · rintro ⟨k1, k2, k3, k4⟩
        by_cases he : (pos d).1 = (pos c).1
        · exact Or.inl (hself d k1 he k4)
        · right
          rw [h3]
          exact ⟨k1, by simp only; omega, by simp only; omega, k4⟩
    · have hX : (pos c).1 + 1 = X := by have := hb.range c ho; omega
      have honly : ∀ d, m.owned d = true → (pos c).1 ≤ (pos d).1 → (pos d).2 = (pos c).2 → d = c := by
        intro d hd h1 h2
        have := hb.range d hd
        exact hself d hd (by omega) h2
      have hr : (m.owned d = true ∧ (pos c).1 ≤ (pos d).1 ∧ (pos d).1 < (pos c).1 + (n + 1) ∧
          (pos d).2 = (pos c).2) ↔ d = c := by
        constructor
        · rintro ⟨k1, k2, _, k4⟩; exact honly d k1 k2 k4
        · rintro rfl; exact ⟨ho, le_rfl, by omega, rfl⟩
      rw [hr]
      cases hn : m.nbr .xp c with
      | none => simp
      | some c' =>
        have ho' := hb.xend c c' ho hX hn
        simp only [ho', Bool.false_eq_true, if_false, or_iff_left_iff_imp]
        intro hd
        rw [mem_trailX hb n c ho d] at hd
        exact honly d hd.1 hd.2.1 hd.2.2.2

theorem mem_trailY (hb : OwnedBox m dim X Y Z pos) (nx : ℕ) : ∀ (n c : ℕ), m.owned c = true → ∀ d,
    d ∈ trailY m nx n c ↔ m.owned d = true ∧ (pos c).1 ≤ (pos d).1 ∧ (pos d).1 < (pos c).1 + nx ∧
      (pos c).2.1 ≤ (pos d).2.1 ∧ (pos d).2.1 < (pos c).2.1 + n ∧ (pos d).2.2 = (pos c).2.2
  | 0, c, ho, d => by
    simp only [trailY, List.not_mem_nil, false_iff]
    rintro ⟨_, _, _, h1, h2, _⟩
    omega
  | n + 1, c, ho, d => by
    have hx := mem_trailX hb nx c ho d
    simp only [trailY, List.mem_append, hx]
    by_cases h : (pos c).2.1 + 1 < Y
    · obtain ⟨c', h1, h2, h3⟩ := hb.yp c ho h
      simp only [h1, h2, if_true]
      rw [mem_trailY hb nx n c' h2 d, h3]
      simp only
      constructor
      · rintro (⟨k1, k2, k3, k4⟩ | ⟨k1, k2, k3, k4, k5, k6⟩)
        · exact ⟨k1, k2, k3, by rw [k4], by rw [k4]; omega, by rw [k4]⟩
        · exact ⟨k1, k2, k3, by omega, by omega, k6⟩
      · rintro ⟨k1, k2, k3, k4, k5, k6⟩
        by_cases he : (pos d).2.1 = (pos c).2.1
        · exact Or.inl ⟨k1, k2, k3, Prod.ext he k6⟩
        · exact Or.inr ⟨k1, k2, k3, by omega, by omega, k6⟩
    · have hY : (pos c).2.1 + 1 = Y := by have := hb.range c ho; omega
      have hr : (m.owned d = true ∧ (pos c).1 ≤ (pos d).1 ∧ (pos d).1 < (pos c).1 + nx ∧
          (pos c).2.1 ≤ (pos d).2.1 ∧ (pos d).2.1 < (pos c).2.1 + (n + 1) ∧
          (pos d).2.2 = (pos c).2.2) ↔ (m.owned d = true ∧ (pos c).1 ≤ (pos d).1 ∧
          (pos d).1 < (pos c).1 + nx ∧ (pos d).2 = (pos c).2) := by
        constructor
        · rintro ⟨k1, k2, k3, k4, k5, k6⟩
          have := hb.range d k1
          exact ⟨k1, k2, k3, Prod.ext (by omega) k6⟩
        · rintro ⟨k1, k2, k3, k4⟩
          exact ⟨k1, k2, k3, by rw [k4], by rw [k4]; omega, by rw [k4]⟩
      rw [hr]
      cases hn : m.nbr .yp c with
      | none => simp
      | some c' =>
        have ho' := hb.yend c c' ho hY hn
        simp only [ho', Bool.false_eq_true, if_false, or_iff_left_iff_imp]
        intro hd
        rw [mem_trailY hb nx n c ho d] at hd
        obtain ⟨k1, k2, k3, k4, k5, k6⟩ := hd
        have := hb.range d k1
        exact ⟨k1, k2, k3, Prod.ext (by omega) k6⟩

theorem mem_trailZ (hb : OwnedBox m 3 X Y Z pos) (nx ny : ℕ) :
    ∀ (n c : ℕ), m.owned c = true → ∀ d,
    d ∈ trailZ m 3 nx ny n c ↔ m.owned d = true ∧ (pos c).1 ≤ (pos d).1 ∧
      (pos d).1 < (pos c).1 + nx ∧ (pos c).2.1 ≤ (pos d).2.1 ∧ (pos d).2.1 < (pos c).2.1 + ny ∧
      (pos c).2.2 ≤ (pos d).2.2 ∧ (pos d).2.2 < (pos c).2.2 + n
  | 0, c, ho, d => by
    simp only [trailZ, List.not_mem_nil, false_iff]
    rintro ⟨_, _, _, _, _, h1, h2⟩
    omega
  | n + 1, c, ho, d => by
    have hx := mem_trailY hb nx ny c ho d
    simp only [trailZ, List.mem_append, hx, if_true]
    by_cases h : (pos c).2.2 + 1 < Z
    · obtain ⟨c', h1, h2, h3⟩ := hb.zp rfl c ho h
      simp only [h1, h2, if_true]
      rw [mem_trailZ hb nx ny n c' h2 d, h3]
      simp only
      constructor
      · rintro (⟨k1, k2, k3, k4, k5, k6⟩ | ⟨k1, k2, k3, k4, k5, k6, k7⟩)
        · exact ⟨k1, k2, k3, k4, k5, by omega, by omega⟩
        · exact ⟨k1, k2, k3, k4, k5, by omega, by omega⟩
      · rintro ⟨k1, k2, k3, k4, k5, k6, k7⟩
        by_cases he : (pos d).2.2 = (pos c).2.2
        · exact Or.inl ⟨k1, k2, k3, k4, k5, he⟩
        · exact Or.inr ⟨k1, k2, k3, k4, k5, by omega, by omega⟩
    · have hZ : (pos c).2.2 + 1 = Z := by have := hb.range c ho; omega
      have hr : (m.owned d = true ∧ (pos c).1 ≤ (pos d).1 ∧ (pos d).1 < (pos c).1 + nx ∧
          (pos c).2.1 ≤ (pos d).2.1 ∧ (pos d).2.1 < (pos c).2.1 + ny ∧
          (pos c).2.2 ≤ (pos d).2.2 ∧ (pos d).2.2 < (pos c).2.2 + (n + 1)) ↔
          (m.owned d = true ∧ (pos c).1 ≤ (pos d).1 ∧ (pos d).1 < (pos c).1 + nx ∧
          (pos c).2.1 ≤ (pos d).2.1 ∧ (pos d).2.1 < (pos c).2.1 + ny ∧
          (pos d).2.2 = (pos c).2.2) := by
        constructor
        · rintro ⟨k1, k2, k3, k4, k5, k6, k7⟩
          have := hb.range d k1
          exact ⟨k1, k2, k3, k4, k5, by omega⟩
        · rintro ⟨k1, k2, k3, k4, k5, k6⟩
          exact ⟨k1, k2, k3, k4, k5, by omega, by omega⟩
      rw [hr]
      cases hn : m.nbr .zp c with
      | none => simp
      | some c' =>
        have ho' := hb.zend rfl c c' ho hZ hn
        simp only [ho', Bool.false_eq_true, if_false, or_iff_left_iff_imp]
        intro hd
        rw [mem_trailZ hb nx ny n c ho d] at hd
        obtain ⟨k1, k2, k3, k4, k5, k6, k7⟩ := hd
        have := hb.range d k1
        exact ⟨k1, k2, k3, k4, k5, by omega⟩

theorem mem_aggCells (hb : OwnedBox m dim X Y Z pos) (hdim : dim ≤ 3) {nx ny nz : ℕ} (hx : 1 ≤ nx)
    (hy : 1 ≤ ny) (hz : 1 ≤ nz) {c : ℕ} (ho : m.owned c = true) (d : ℕ) :
    d ∈ aggCells m dim nx ny nz c ↔ m.owned d = true ∧ (pos c).1 ≤ (pos d).1 ∧
      (pos d).1 < (pos c).1 + nx ∧ (pos c).2.1 ≤ (pos d).2.1 ∧ (pos d).2.1 < (pos c).2.1 + ny ∧
      (pos c).2.2 ≤ (pos d).2.2 ∧ (pos d).2.2 < (pos c).2.2 + layers dim nz := by
  simp only [aggCells, List.mem_cons]
  by_cases h3 : dim = 3
  · subst h3
    simp only [Nat.lt_irrefl, if_false, layers, if_true]
    rw [mem_trailZ hb nx ny nz c ho d]
    constructor
    · rintro (rfl | h)
      · exact ⟨ho, by omega, by omega, by omega, by omega, by omega, by omega⟩
      · exact h
    · exact Or.inr
  · have hZ := (hb.flat h3).1
    have hlt : dim < 3 := by omega
    simp only [hlt, if_true, layers, h3, if_false, trailZ, List.append_nil]
    rw [mem_trailY hb nx ny c ho d]
    have hzc := (hb.range c ho).2.2
    constructor
    · rintro (rfl | ⟨k1, k2, k3, k4, k5, k6⟩)
      · exact ⟨ho, by omega, by omega, by omega, by omega, by omega, by omega⟩
      · exact ⟨k1, k2, k3, k4, k5, by omega, by omega⟩
    · rintro ⟨k1, k2, k3, k4, k5, k6, k7⟩
      exact Or.inr ⟨k1, k2, k3, k4, k5, by omega⟩

/-- Lowest position of the tile. -/
def corner (nx ny nz : ℕ) (p : ℕ × ℕ × ℕ) : ℕ × ℕ × ℕ :=
  (p.1 / nx * nx, p.2.1 / ny * ny, p.2.2 / nz * nz)

theorem div_eq_iff_block {n x y : ℕ} (hn : 1 ≤ n) (hx : x / n * n = x) :
    y / n = x / n ↔ x ≤ y ∧ y < x + n := by
  obtain ⟨q, hq⟩ : ∃ q, x / n = q := ⟨_, rfl⟩
  rw [hq] at hx ⊢
  have hm := Nat.div_add_mod y n
  have hl := Nat.mod_lt y (show n > 0 by omega)
  constructor
  · intro h
    rw [h] at hm
    have : n * q = x := by rw [Nat.mul_comm]; exact hx
    omega
  · rintro ⟨h1, h2⟩
    apply Nat.div_eq_of_lt_le
    · omega
    · rw [Nat.add_mul]; omega

theorem corner_tile {nx ny nz : ℕ} {p q : ℕ × ℕ × ℕ} :
    (nx ≥ 1 ∧ ny ≥ 1 ∧ nz ≥ 1) → (corner nx ny nz p = corner nx ny nz q ↔
      tile nx ny nz p = tile nx ny nz q) := by
  rintro ⟨h1, h2, h3⟩
  simp only [corner, tile, Prod.mk.injEq]
  rw [Nat.mul_left_inj (by omega), Nat.mul_left_inj (by omega), Nat.mul_left_inj (by omega)]

section loop

variable (hb : OwnedBox m dim X Y Z pos) (hdim : dim ≤ 3) {nx ny nz : ℕ} (hx : 1 ≤ nx)
  (hy : 1 ≤ ny) (hz : 1 ≤ nz)

set_option linter.unusedSectionVars false
include hx hy hz hdim hb

theorem mem_aggCells_corner {c : ℕ} (ho : m.owned c = true)
    (hc : corner nx ny (layers dim nz) (pos c) = pos c) (d : ℕ) :
    d ∈ aggCells m dim nx ny nz c ↔ m.owned d = true ∧
      tile nx ny (layers dim nz) (pos d) = tile nx ny (layers dim nz) (pos c) := by
  have hl : 1 ≤ layers dim nz := by unfold layers; split <;> omega
  rw [mem_aggCells hb hdim hx hy hz ho]
  have c1 := congrArg (fun p : ℕ × ℕ × ℕ => p.1) hc
  have c2 := congrArg (fun p : ℕ × ℕ × ℕ => p.2.1) hc
  have c3 := congrArg (fun p : ℕ × ℕ × ℕ => p.2.2) hc
  simp only [corner] at c1 c2 c3
  simp only [tile, Prod.mk.injEq, div_eq_iff_block hx c1, div_eq_iff_block hy c2,
    div_eq_iff_block hl c3]
  tauto

/-- Invariant of the cell loop when the cells below `k` have been visited. -/
structure TileInv (m : Mesh) (dim nx ny nz : ℕ) (pos : ℕ → ℕ × ℕ × ℕ) (k : ℕ) (u : UserIndex)
    (a : ℕ) : Prop where
  flagged : ∀ d, m.owned d = true → (u d ≠ 0 ↔ ∃ e, e < k ∧ m.owned e = true ∧
    pos e = corner nx ny (layers dim nz) (pos d))
  small : ∀ d, m.owned d = true → u d < a
  same : ∀ d e, m.owned d = true → m.owned e = true → u d ≠ 0 → u e ≠ 0 →
    (u d = u e ↔ tile nx ny (layers dim nz) (pos d) = tile nx ny (layers dim nz) (pos e))

theorem corner_exists {d : ℕ} (ho : m.owned d = true) : ∃ e, m.owned e = true ∧ e ≤ d ∧
    pos e = corner nx ny (layers dim nz) (pos d) ∧
    corner nx ny (layers dim nz) (pos e) = pos e := by
  have hl : 1 ≤ layers dim nz := by unfold layers; split <;> omega
  have hr := hb.range d ho
  have l1 := Nat.div_mul_le_self (pos d).1 nx
  have l2 := Nat.div_mul_le_self (pos d).2.1 ny
  have l3 := Nat.div_mul_le_self (pos d).2.2 (layers dim nz)
  obtain ⟨e, h1, h2⟩ := hb.surj ((pos d).1 / nx * nx) ((pos d).2.1 / ny * ny)
    ((pos d).2.2 / layers dim nz * layers dim nz) (by omega) (by omega) (by omega)
  refine ⟨e, h1, hb.order e d h1 ho ?_ ?_ ?_, h2, ?_⟩
  · rw [h2]; exact l1
  · rw [h2]; exact l2
  · rw [h2]; exact l3
  · rw [h2]
    simp only [corner, Prod.mk.injEq]
    refine ⟨?_, ?_, ?_⟩
    · rw [Nat.mul_div_cancel _ (by omega)]
    · rw [Nat.mul_div_cancel _ (by omega)]
    · rw [Nat.mul_div_cancel _ (by omega)]

theorem tileInv_step {k a : ℕ} {u : UserIndex} (ha : 1 ≤ a)
    (hi : TileInv m dim nx ny nz pos k u a) (ho : m.owned k = true) (hu : u k = 0) :
    TileInv m dim nx ny nz pos (k + 1) (mark (aggCells m dim nx ny nz k) a u) (a + 1) := by
  have hl : 1 ≤ layers dim nz := by unfold layers; split <;> omega
  -- `k` is the corner of its tile
  obtain ⟨e, e1, e2, e3, e4⟩ := corner_exists hb hdim hx hy hz ho
  have hek : e = k := by
    by_contra hne
    exact (hi.flagged k ho).2 ⟨e, by omega, e1, e3⟩ hu
  rw [hek] at e3 e4
  have hmem := mem_aggCells_corner hb hdim hx hy hz ho e4
  have hold : ∀ d, m.owned d = true → tile nx ny (layers dim nz) (pos d) =
      tile nx ny (layers dim nz) (pos k) → u d = 0 := by
    intro d hd ht
    by_contra h0
    obtain ⟨f, f1, f2, f3⟩ := (hi.flagged d hd).1 h0
    rw [← corner_tile ⟨hx, hy, hl⟩] at ht
    rw [ht, e4] at f3
    have := hb.inj f k f2 ho f3
    omega
  refine ⟨?_, ?_, ?_⟩
  · intro d hd
    by_cases hm : d ∈ aggCells m dim nx ny nz k
    · rw [mark_mem hm]
      have ht := ((hmem d).1 hm).2
      rw [← corner_tile ⟨hx, hy, hl⟩, e4] at ht
      exact ⟨fun _ => ⟨k, by omega, ho, ht.symm⟩, fun _ => by omega⟩
    · rw [mark_not_mem hm, hi.flagged d hd]
      constructor
      · rintro ⟨f, f1, f2, f3⟩; exact ⟨f, by omega, f2, f3⟩
      · rintro ⟨f, f1, f2, f3⟩
        refine ⟨f, ?_, f2, f3⟩
        by_contra hk
        have hfk : f = k := by omega
        subst hfk
        refine hm ((hmem d).2 ⟨hd, ?_⟩)
        rw [← corner_tile ⟨hx, hy, hl⟩, e4, f3]
  · intro d hd
    by_cases hm : d ∈ aggCells m dim nx ny nz k
    · rw [mark_mem hm]; omega
    · rw [mark_not_mem hm]; have := hi.small d hd; omega
  · intro d f hd hf hd0 hf0
    by_cases hm : d ∈ aggCells m dim nx ny nz k <;> by_cases hm' : f ∈ aggCells m dim nx ny nz k
    · rw [mark_mem hm, mark_mem hm', ((hmem d).1 hm).2, ((hmem f).1 hm').2]
      simp
    · rw [mark_mem hm, mark_not_mem hm']
      have := hi.small f hf
      refine ⟨fun h => by omega, fun h => absurd ((hmem f).2 ⟨hf, ?_⟩) hm'⟩
      rw [← h, ((hmem d).1 hm).2]
    · rw [mark_mem hm', mark_not_mem hm]
      have := hi.small d hd
      refine ⟨fun h => by omega, fun h => absurd ((hmem d).2 ⟨hd, ?_⟩) hm⟩
      rw [h, ((hmem f).1 hm').2]
    · rw [mark_not_mem hm] at hd0 ⊢
      rw [mark_not_mem hm'] at hf0 ⊢
      exact hi.same d f hd hf hd0 hf0

theorem tileInv_skip {k a : ℕ} {u : UserIndex}
    (hi : TileInv m dim nx ny nz pos k u a) (hk : m.owned k = false ∨ u k ≠ 0) :
    TileInv m dim nx ny nz pos (k + 1) u a := by
  refine ⟨?_, hi.small, hi.same⟩
  intro d hd
  rw [hi.flagged d hd]
  constructor
  · rintro ⟨f, f1, f2, f3⟩; exact ⟨f, by omega, f2, f3⟩
  · rintro ⟨f, f1, f2, f3⟩
    by_cases hfk : f = k
    · subst hfk
      rcases hk with hk | hk
      · rw [f2] at hk; exact absurd hk (by simp)
      · -- `f` is flagged, so the corner of its tile, which is `f`, came before
        obtain ⟨e, e1, e2, e3⟩ := (hi.flagged f f2).1 hk
        obtain ⟨g, g1, g2, g3, g4⟩ := corner_exists hb hdim hx hy hz hd
        have hgf := hb.inj g f g1 f2 (g3.trans f3.symm)
        subst hgf
        rw [g4] at e3
        have := hb.inj e g e2 g1 e3
        omega
    · exact ⟨f, by omega, f2, f3⟩

theorem tileInv_loop {debug : Bool} : ∀ {j k a a' : ℕ} {u u' : UserIndex}, 1 ≤ a →
    TileInv m dim nx ny nz pos k u a →
    blockLoop m debug dim nx ny nz (List.range' k j) u a = .ok (u', a') →
    TileInv m dim nx ny nz pos (k + j) u' a'
  | 0, k, a, a', u, u', ha, hi, h => by
    obtain ⟨rfl, rfl⟩ := blockLoop_nil h
    exact hi
  | j + 1, k, a, a', u, u', ha, hi, h => by
    rw [List.range'_succ] at h
    have he : k + (j + 1) = (k + 1) + j := by omega
    rw [he]
    rcases blockLoop_cons h with ⟨ho, hu, h1⟩ | ⟨hc, h1⟩
    · exact tileInv_loop (by omega) (tileInv_step hb hdim hx hy hz ha hi ho hu) h1
    · exact tileInv_loop ha (tileInv_skip hb hdim hx hy hz hi hc) h1

theorem block_tiles {debug : Bool} {u u' : UserIndex} {n : ℕ}
    (h0 : ∀ c, m.owned c = true → u c = 0)
    (h : buildAgglomeratesBlock m debug dim nx ny nz u = .ok (u', n)) :
    ∀ c d, m.owned c = true → m.owned d = true →
      (u' c = u' d ↔ tile nx ny (layers dim nz) (pos c) = tile nx ny (layers dim nz) (pos d)) := by
  have h1 := buildBlock_ok h
  rw [List.range_eq_range'] at h1
  have hi : TileInv m dim nx ny nz pos 0 u 1 := by
    refine ⟨?_, ?_, ?_⟩
    · intro d hd
      simp [h0 d hd]
    · intro d hd; rw [h0 d hd]; omega
    · intro d e hd _ hd0; exact absurd (h0 d hd) hd0
  have hf := tileInv_loop hb hdim hx hy hz le_rfl hi h1
  rw [← List.range_eq_range'] at h1
  have hne := (blockLoop_inv le_rfl h1).2.2.2
  intro c d hc hd
  exact hf.same c d hc hd (hne c (List.mem_range.2 (hb.lt c hc)) hc)
    (hne d (List.mem_range.2 (hb.lt d hd)) hd)

end loop

theorem tiles_spec {X n i : ℕ} (hn : 1 ≤ n) : i < tiles X n ↔ ∃ x, x < X ∧ x / n = i := by
  unfold tiles
  constructor
  · intro h
    refine ⟨i * n, ?_, Nat.mul_div_cancel _ (by omega)⟩
    have h1 : (i + 1) * n ≤ X + n - 1 := (Nat.le_div_iff_mul_le (by omega)).1 h
    rw [Nat.add_mul] at h1
    omega
  · rintro ⟨x, hx, rfl⟩
    have : x / n + 1 ≤ (X + n - 1) / n := by
      rw [← Nat.add_div_right x (by omega)]
      exact Nat.div_le_div_right (by omega)
    omega

theorem block_surj (hb : OwnedBox m dim X Y Z pos) {nx ny nz : ℕ} {debug : Bool}
    {u u' : UserIndex} {n : ℕ} (h : buildAgglomeratesBlock m debug dim nx ny nz u = .ok (u', n)) :
    ∀ b, 1 ≤ b → b ≤ n → ∃ c, m.owned c = true ∧ u' c = b := by
  intro b h1 h2
  obtain ⟨c, _, h3⟩ := blockLoop_surj hb.forward List.pairwise_lt_range (buildBlock_ok h) b h1
    (by omega)
  exact ⟨c, h3⟩

theorem block_count (hb : OwnedBox m dim X Y Z pos) (hdim : dim ≤ 3) {nx ny nz : ℕ} (hx : 1 ≤ nx)
    (hy : 1 ≤ ny) (hz : 1 ≤ nz) {debug : Bool} {u u' : UserIndex} {n : ℕ}
    (h0 : ∀ c, m.owned c = true → u c = 0)
    (h : buildAgglomeratesBlock m debug dim nx ny nz u = .ok (u', n)) :
    n = tiles X nx * (tiles Y ny * tiles Z (layers dim nz)) := by
  have hl : 1 ≤ layers dim nz := by unfold layers; split <;> omega
  have hsame := block_tiles hb hdim hx hy hz h0 h
  have hsurj := block_surj hb h
  have hinv := blockLoop_inv le_rfl (buildBlock_ok h)
  have hcard : (Finset.Icc 1 n).card = ((Finset.range (tiles X nx)) ×ˢ
      ((Finset.range (tiles Y ny)) ×ˢ (Finset.range (tiles Z (layers dim nz))))).card := by
    have hch : ∀ b ∈ Finset.Icc 1 n, ∃ c, m.owned c = true ∧ u' c = b := by
      intro b hb'
      rw [Finset.mem_Icc] at hb'
      exact hsurj b hb'.1 hb'.2
    choose f hf using hch
    refine Finset.card_bij (fun b hb' => tile nx ny (layers dim nz) (pos (f b hb'))) ?_ ?_ ?_
    · intro b hb'
      have hr := hb.range _ (hf b hb').1
      simp only [tile, Finset.mem_product, Finset.mem_range, tiles_spec hx, tiles_spec hy,
        tiles_spec hl]
      exact ⟨⟨_, hr.1, rfl⟩, ⟨_, hr.2.1, rfl⟩, ⟨_, hr.2.2, rfl⟩⟩
    · intro b hb1 b' hb2 he
      rw [← hsame _ _ (hf b hb1).1 (hf b' hb2).1, (hf b hb1).2, (hf b' hb2).2] at he
      exact he
    · rintro ⟨i, j, k⟩ hp
      simp only [Finset.mem_product, Finset.mem_range, tiles_spec hx, tiles_spec hy,
        tiles_spec hl] at hp
      obtain ⟨⟨x, hx1, hx2⟩, ⟨y, hy1, hy2⟩, ⟨z, hz1, hz2⟩⟩ := hp
      obtain ⟨c, ho, hc⟩ := hb.surj x y z hx1 hy1 hz1
      have hne := hinv.2.2.2 c (List.mem_range.2 (hb.lt c ho)) ho
      have hbc : u' c ∈ Finset.Icc 1 n := by
        rw [Finset.mem_Icc]
        rcases hinv.2.2.1 c with h1 | h1
        · rw [h0 c ho] at h1; exact absurd h1 hne
        · omega
      refine ⟨u' c, hbc, ?_⟩
      have := (hsame _ c (hf _ hbc).1 ho).1 (hf _ hbc).2
      rw [this, hc]
      simp [tile, hx2, hy2, hz2]
  simpa using hcard

end Mfmg
