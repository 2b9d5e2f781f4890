import Verif.Spec.Agglomerate
import Mathlib.Tactic.Ring
import Mathlib.Tactic.Linarith
import Mathlib.Data.Finset.Card
import Mathlib.Data.List.Range

/-! # Lemmas about the block partitioner -/

set_option autoImplicit false

namespace Mfmg

/-- Flag all cells of a list. -/
def mark (l : List ℕ) (a : ℕ) (u : UserIndex) : UserIndex := fun c => if c ∈ l then a else u c

def trailX (m : Mesh) : ℕ → ℕ → List ℕ
  | 0, _ => []
  | n + 1, c => c :: match m.nbr .xp c with
    | none => []
    | some c' => trailX m n (if m.owned c' then c' else c)

def trailY (m : Mesh) (nx : ℕ) : ℕ → ℕ → List ℕ
  | 0, _ => []
  | n + 1, c => trailX m nx c ++ match m.nbr .yp c with
    | none => []
    | some c' => trailY m nx n (if m.owned c' then c' else c)

def trailZ (m : Mesh) (dim nx ny : ℕ) : ℕ → ℕ → List ℕ
  | 0, _ => []
  | n + 1, c => trailY m nx ny c ++ if dim = 3 then
      match m.nbr .zp c with
      | none => []
      | some c' => trailZ m dim nx ny n (if m.owned c' then c' else c)
    else []

theorem mark_nil (a : ℕ) (u : UserIndex) : mark [] a u = u := by
  funext c; simp [mark]

theorem mark_set (l : List ℕ) (a c : ℕ) (u : UserIndex) :
    mark l a (u.set c a) = mark (c :: l) a u := by
  funext d
  simp only [mark, UserIndex.set, Function.update_apply, List.mem_cons]
  by_cases h : d = c <;> by_cases h' : d ∈ l <;> simp [h, h']

theorem mark_mark (l l' : List ℕ) (a : ℕ) (u : UserIndex) :
    mark l' a (mark l a u) = mark (l ++ l') a u := by
  funext d
  simp only [mark, List.mem_append]
  by_cases h : d ∈ l <;> by_cases h' : d ∈ l' <;> simp [h, h']

theorem walkX_release (m : Mesh) (c0 a : ℕ) : ∀ (n c : ℕ) (u : UserIndex),
    walkX m false c0 a n c u = .ok (mark (trailX m n c) a u)
  | 0, c, u => by simp [walkX, trailX, mark_nil]
  | n + 1, c, u => by
    simp only [walkX, trailX, Bool.false_and, Bool.false_eq_true, if_false]
    cases h : m.nbr .xp c with
    | none => simp [← mark_set, mark_nil]
    | some c' => simp [walkX_release m c0 a n, ← mark_set]

theorem walkX_debug (m : Mesh) (debug : Bool) (c0 a : ℕ) : ∀ (n c : ℕ) (u u' : UserIndex),
    walkX m debug c0 a n c u = .ok u' → walkX m false c0 a n c u = .ok u'
  | 0, c, u, u', h => by simpa [walkX] using h
  | n + 1, c, u, u', h => by
    simp only [walkX, Bool.false_and, Bool.false_eq_true, if_false] at h ⊢
    cases hn : m.nbr .xp c with
    | none => simpa [hn] using h
    | some c' =>
      rw [hn] at h
      simp only at h ⊢
      split at h
      · exact absurd h (by simp)
      · exact walkX_debug m debug c0 a n _ _ _ h

theorem walkX_ok {m : Mesh} {debug : Bool} {c0 a n c : ℕ} {u u' : UserIndex}
    (h : walkX m debug c0 a n c u = .ok u') : u' = mark (trailX m n c) a u := by
  have h1 := walkX_debug m debug c0 a n c u u' h
  rw [walkX_release] at h1
  exact (Outcome.ok.inj h1).symm

theorem walkY_ok {m : Mesh} {debug : Bool} {c0 a nx : ℕ} : ∀ {n c : ℕ} {u u' : UserIndex},
    walkY m debug c0 a nx n c u = .ok u' → u' = mark (trailY m nx n c) a u
  | 0, c, u, u', h => by
    simp only [walkY, Outcome.ok.injEq] at h
    simp [trailY, mark_nil, h]
  | n + 1, c, u, u', h => by
    simp only [walkY, Outcome.bind_eq_ok] at h
    obtain ⟨u1, h1, h2⟩ := h
    have e1 := walkX_ok h1
    simp only [trailY]
    cases hn : m.nbr .yp c with
    | none =>
      rw [hn] at h2
      simp only [Outcome.ok.injEq] at h2
      simp [← h2, e1]
    | some c' =>
      rw [hn] at h2
      simp only at h2 ⊢
      split at h2
      · rename_i ho
        split at h2
        · exact absurd h2 (by simp)
        · rw [walkY_ok h2, e1, mark_mark, if_pos ho]
      · rename_i ho
        rw [walkY_ok h2, e1, mark_mark, if_neg ho]

theorem walkZ_ok {m : Mesh} {debug : Bool} {dim c0 a nx ny : ℕ} :
    ∀ {n c : ℕ} {u u' : UserIndex},
    walkZ m debug dim c0 a nx ny n c u = .ok u' → u' = mark (trailZ m dim nx ny n c) a u
  | 0, c, u, u', h => by
    simp only [walkZ, Outcome.ok.injEq] at h
    simp [trailZ, mark_nil, h]
  | n + 1, c, u, u', h => by
    simp only [walkZ, Outcome.bind_eq_ok] at h
    obtain ⟨u1, h1, h2⟩ := h
    have e1 := walkY_ok h1
    simp only [trailZ]
    by_cases hd : dim = 3
    · rw [if_pos hd] at h2 ⊢
      cases hn : m.nbr .zp c with
      | none =>
        rw [hn] at h2
        simp only [Outcome.ok.injEq] at h2
        simp [← h2, e1]
      | some c' =>
        rw [hn] at h2
        simp only at h2 ⊢
        split at h2
        · rename_i ho
          split at h2
          · exact absurd h2 (by simp)
          · rw [walkZ_ok h2, e1, mark_mark, if_pos ho]
        · rename_i ho
          rw [walkZ_ok h2, e1, mark_mark, if_neg ho]
    · rw [if_neg hd] at h2 ⊢
      simp only [Outcome.ok.injEq] at h2
      simp [← h2, e1]

/-! Totality: release build, or debug build on a mesh without local refinement. -/

theorem walkX_total (m : Mesh) (debug : Bool) (h : debug = true → m.Uniform) (c0 a : ℕ) :
    ∀ (n c : ℕ) (u : UserIndex), ∃ u', walkX m debug c0 a n c u = .ok u'
  | 0, c, u => ⟨u, rfl⟩
  | n + 1, c, u => by
    simp only [walkX]
    cases hn : m.nbr .xp c with
    | none => exact ⟨_, rfl⟩
    | some c' =>
      have hc : (debug && !m.sameLevel c0 c') = false := by
        cases debug with
        | false => rfl
        | true => simp [h rfl c c' .xp hn c0]
      simp only [hc, Bool.false_eq_true, if_false]
      exact walkX_total m debug h c0 a n _ _

theorem walkY_total (m : Mesh) (debug : Bool) (h : debug = true → m.Uniform) (c0 a nx : ℕ) :
    ∀ (n c : ℕ) (u : UserIndex), ∃ u', walkY m debug c0 a nx n c u = .ok u'
  | 0, c, u => ⟨u, rfl⟩
  | n + 1, c, u => by
    obtain ⟨u1, h1⟩ := walkX_total m debug h c0 a nx c u
    simp only [walkY, h1, Outcome.ok_bind]
    cases hn : m.nbr .yp c with
    | none => exact ⟨_, rfl⟩
    | some c' =>
      have hc : (debug && !m.sameLevel c0 c') = false := by
        cases debug with
        | false => rfl
        | true => simp [h rfl c c' .yp hn c0]
      simp only [hc, Bool.false_eq_true, if_false]
      split
      · exact walkY_total m debug h c0 a nx n _ _
      · exact walkY_total m debug h c0 a nx n _ _

theorem walkZ_total (m : Mesh) (debug : Bool) (h : debug = true → m.Uniform) (dim c0 a nx ny : ℕ) :
    ∀ (n c : ℕ) (u : UserIndex), ∃ u', walkZ m debug dim c0 a nx ny n c u = .ok u'
  | 0, c, u => ⟨u, rfl⟩
  | n + 1, c, u => by
    obtain ⟨u1, h1⟩ := walkY_total m debug h c0 a nx ny c u
    simp only [walkZ, h1, Outcome.ok_bind]
    by_cases hd : dim = 3
    · rw [if_pos hd]
      cases hn : m.nbr .zp c with
      | none => exact ⟨_, rfl⟩
      | some c' =>
        have hc : (debug && !m.sameLevel c0 c') = false := by
          cases debug with
          | false => rfl
          | true => simp [h rfl c c' .zp hn c0]
        simp only [hc, Bool.false_eq_true, if_false]
        split
        · exact walkZ_total m debug h dim c0 a nx ny n _ _
        · exact walkZ_total m debug h dim c0 a nx ny n _ _
    · rw [if_neg hd]; exact ⟨_, rfl⟩

theorem blockLoop_total (m : Mesh) (debug : Bool) (h : debug = true → m.Uniform)
    (dim nx ny nz : ℕ) : ∀ (cs : List ℕ) (u : UserIndex) (a : ℕ),
    ∃ r, blockLoop m debug dim nx ny nz cs u a = .ok r
  | [], u, a => ⟨_, rfl⟩
  | c :: cs, u, a => by
    simp only [blockLoop]
    split
    · obtain ⟨u1, h1⟩ := walkZ_total m debug h dim c a nx ny (if dim < 3 then 1 else nz) c (u.set c a)
      rw [h1]
      exact blockLoop_total m debug h dim nx ny nz cs u1 (a + 1)
    · exact blockLoop_total m debug h dim nx ny nz cs u a

/-! Facts about trails. -/

theorem trailX_all (m : Mesh) (P : ℕ → Prop)
    (hP : ∀ c c' d, P c → m.nbr d c = some c' → m.owned c' = true → P c') :
    ∀ (n c : ℕ), P c → ∀ d ∈ trailX m n c, P d
  | 0, c, _, d, hd => by simp [trailX] at hd
  | n + 1, c, hc, d, hd => by
    simp only [trailX, List.mem_cons] at hd
    rcases hd with rfl | hd
    · exact hc
    · cases hn : m.nbr .xp c with
      | none => rw [hn] at hd; simp at hd
      | some c' =>
        rw [hn] at hd
        refine trailX_all m P hP n _ ?_ d hd
        split
        · rename_i ho; exact hP c c' _ hc hn ho
        · exact hc

theorem trailY_all (m : Mesh) (P : ℕ → Prop)
    (hP : ∀ c c' d, P c → m.nbr d c = some c' → m.owned c' = true → P c') (nx : ℕ) :
    ∀ (n c : ℕ), P c → ∀ d ∈ trailY m nx n c, P d
  | 0, c, _, d, hd => by simp [trailY] at hd
  | n + 1, c, hc, d, hd => by
    simp only [trailY, List.mem_append] at hd
    rcases hd with hd | hd
    · exact trailX_all m P hP nx c hc d hd
    · cases hn : m.nbr .yp c with
      | none => rw [hn] at hd; simp at hd
      | some c' =>
        rw [hn] at hd
        refine trailY_all m P hP nx n _ ?_ d hd
        split
        · rename_i ho; exact hP c c' _ hc hn ho
        · exact hc

theorem trailZ_all (m : Mesh) (P : ℕ → Prop)
    (hP : ∀ c c' d, P c → m.nbr d c = some c' → m.owned c' = true → P c') (dim nx ny : ℕ) :
    ∀ (n c : ℕ), P c → ∀ d ∈ trailZ m dim nx ny n c, P d
  | 0, c, _, d, hd => by simp [trailZ] at hd
  | n + 1, c, hc, d, hd => by
    simp only [trailZ, List.mem_append] at hd
    rcases hd with hd | hd
    · exact trailY_all m P hP nx ny c hc d hd
    · by_cases h3 : dim = 3
      · rw [if_pos h3] at hd
        cases hn : m.nbr .zp c with
        | none => rw [hn] at hd; simp at hd
        | some c' =>
          rw [hn] at hd
          refine trailZ_all m P hP dim nx ny n _ ?_ d hd
          split
          · rename_i ho; exact hP c c' _ hc hn ho
          · exact hc
      · rw [if_neg h3] at hd; simp at hd

theorem trailX_length (m : Mesh) : ∀ n c : ℕ, (trailX m n c).length ≤ n
  | 0, c => by simp [trailX]
  | n + 1, c => by
    simp only [trailX, List.length_cons]
    cases m.nbr .xp c with
    | none => simp
    | some c' => simpa using trailX_length m n _

theorem trailY_length (m : Mesh) (nx : ℕ) : ∀ n c : ℕ, (trailY m nx n c).length ≤ n * nx
  | 0, c => by simp [trailY]
  | n + 1, c => by
    simp only [trailY, List.length_append]
    have h1 := trailX_length m nx c
    cases m.nbr .yp c with
    | none => simp only [List.length_nil]; nlinarith
    | some c' =>
      have h2 := trailY_length m nx n (if m.owned c' then c' else c)
      simp only
      nlinarith

theorem trailZ_length (m : Mesh) (dim nx ny : ℕ) :
    ∀ n c : ℕ, (trailZ m dim nx ny n c).length ≤ n * (ny * nx)
  | 0, c => by simp [trailZ]
  | n + 1, c => by
    simp only [trailZ, List.length_append]
    have h1 := trailY_length m nx ny c
    have h3 : 0 ≤ n * (ny * nx) := Nat.zero_le _
    by_cases h : dim = 3
    · rw [if_pos h]
      cases m.nbr .zp c with
      | none => simp only [List.length_nil]; nlinarith
      | some c' =>
        have h2 := trailZ_length m dim nx ny n (if m.owned c' then c' else c)
        simp only
        nlinarith
    · rw [if_neg h]; simp only [List.length_nil]; nlinarith

/-- Cells flagged for one agglomerate started at `c`. -/
def aggCells (m : Mesh) (dim nx ny nz c : ℕ) : List ℕ :=
  c :: trailZ m dim nx ny (if dim < 3 then 1 else nz) c

theorem blockLoop_nil {m : Mesh} {debug : Bool} {dim nx ny nz : ℕ} {u u' : UserIndex} {a a' : ℕ}
    (h : blockLoop m debug dim nx ny nz [] u a = .ok (u', a')) : u' = u ∧ a' = a := by
  simp only [blockLoop, Outcome.ok.injEq, Prod.mk.injEq] at h
  exact ⟨h.1.symm, h.2.symm⟩

theorem blockLoop_cons {m : Mesh} {debug : Bool} {dim nx ny nz : ℕ} {c : ℕ} {cs : List ℕ}
    {u : UserIndex} {a : ℕ} {r : UserIndex × ℕ}
    (h : blockLoop m debug dim nx ny nz (c :: cs) u a = .ok r) :
    (m.owned c = true ∧ u c = 0 ∧
      blockLoop m debug dim nx ny nz cs (mark (aggCells m dim nx ny nz c) a u) (a + 1) = .ok r) ∨
    ((m.owned c = false ∨ u c ≠ 0) ∧ blockLoop m debug dim nx ny nz cs u a = .ok r) := by
  simp only [blockLoop] at h
  split at h
  · rename_i hc
    left
    simp only [Bool.and_eq_true, beq_iff_eq] at hc
    simp only [Outcome.bind_eq_ok] at h
    obtain ⟨u1, h1, h2⟩ := h
    rw [walkZ_ok h1, mark_set] at h2
    exact ⟨hc.1, hc.2, h2⟩
  · rename_i hc
    right
    refine ⟨?_, h⟩
    simp only [Bool.and_eq_true, beq_iff_eq, not_and_or] at hc
    simpa using hc

theorem aggCells_owned {m : Mesh} {dim nx ny nz c : ℕ} (h : m.owned c = true) :
    ∀ d ∈ aggCells m dim nx ny nz c, m.owned d = true := by
  intro d hd
  simp only [aggCells, List.mem_cons] at hd
  rcases hd with rfl | hd
  · exact h
  · exact trailZ_all m (fun c => m.owned c = true) (fun _ _ _ _ _ h => h) dim nx ny _ c h d hd

theorem mark_mem {l : List ℕ} {a c : ℕ} {u : UserIndex} (h : c ∈ l) : mark l a u c = a := by
  simp [mark, h]

theorem mark_not_mem {l : List ℕ} {a c : ℕ} {u : UserIndex} (h : c ∉ l) : mark l a u c = u c := by
  simp [mark, h]

/-- Main invariant of the loop over cells. -/
theorem blockLoop_inv {m : Mesh} {debug : Bool} {dim nx ny nz : ℕ} :
    ∀ {cs : List ℕ} {u u' : UserIndex} {a a' : ℕ}, 1 ≤ a →
    blockLoop m debug dim nx ny nz cs u a = .ok (u', a') →
    a ≤ a' ∧ (∀ c, m.owned c = false → u' c = u c) ∧
    (∀ c, u' c = u c ∨ (a ≤ u' c ∧ u' c < a')) ∧
    (∀ c ∈ cs, m.owned c = true → u' c ≠ 0)
  | [], u, u', a, a', ha, h => by
    obtain ⟨rfl, rfl⟩ := blockLoop_nil h
    simp
  | c :: cs, u, u', a, a', ha, h => by
    rcases blockLoop_cons h with ⟨ho, hu, h1⟩ | ⟨hc, h1⟩
    · obtain ⟨i1, i2, i3, i4⟩ := blockLoop_inv (by omega) h1
      refine ⟨by omega, ?_, ?_, ?_⟩
      · intro d hd
        rw [i2 d hd, mark_not_mem]
        intro hm
        rw [aggCells_owned ho d hm] at hd
        exact absurd hd (by simp)
      · intro d
        by_cases hm : d ∈ aggCells m dim nx ny nz c
        · right
          rcases i3 d with h2 | h2
          · rw [mark_mem hm] at h2; omega
          · omega
        · rcases i3 d with h2 | h2
          · rw [mark_not_mem hm] at h2; exact Or.inl h2
          · right; omega
      · intro d hd hod
        rcases List.mem_cons.1 hd with rfl | hd
        · rcases i3 d with h2 | h2
          · rw [mark_mem (by simp [aggCells])] at h2; omega
          · omega
        · exact i4 d hd hod
    · obtain ⟨i1, i2, i3, i4⟩ := blockLoop_inv ha h1
      refine ⟨i1, i2, i3, ?_⟩
      intro d hd hod
      rcases List.mem_cons.1 hd with rfl | hd
      · rcases hc with hc | hc
        · rw [hc] at hod; exact absurd hod (by simp)
        · rcases i3 d with h2 | h2
          · rwa [h2]
          · omega
      · exact i4 d hd hod

theorem aggCells_ge {m : Mesh} (hf : m.Forward) {dim nx ny nz c : ℕ} (ho : m.owned c = true) :
    ∀ d ∈ aggCells m dim nx ny nz c, c ≤ d := by
  intro d hd
  simp only [aggCells, List.mem_cons] at hd
  rcases hd with rfl | hd
  · exact le_rfl
  · exact (trailZ_all m (fun e => m.owned e = true ∧ c ≤ e)
      (fun e e' f h1 h2 h3 => ⟨h3, le_trans h1.2 (hf e e' f h1.1 h2 h3).le⟩) dim nx ny _ c
      ⟨ho, le_rfl⟩ d hd).2

theorem blockLoop_below {m : Mesh} (hf : m.Forward) {debug : Bool} {dim nx ny nz k : ℕ} :
    ∀ {cs : List ℕ} {u u' : UserIndex} {a a' : ℕ}, (∀ c ∈ cs, k ≤ c) →
    blockLoop m debug dim nx ny nz cs u a = .ok (u', a') → ∀ d < k, u' d = u d
  | [], u, u', a, a', _, h, d, hd => by
    obtain ⟨rfl, rfl⟩ := blockLoop_nil h
    rfl
  | c :: cs, u, u', a, a', hk, h, d, hd => by
    have hk' : ∀ c ∈ cs, k ≤ c := fun e he => hk e (List.mem_cons_of_mem _ he)
    rcases blockLoop_cons h with ⟨ho, hu, h1⟩ | ⟨hc, h1⟩
    · rw [blockLoop_below hf hk' h1 d hd, mark_not_mem]
      intro hm
      have := aggCells_ge hf ho d hm
      have := hk c (by simp)
      omega
    · exact blockLoop_below hf hk' h1 d hd

theorem blockLoop_surj {m : Mesh} (hf : m.Forward) {debug : Bool} {dim nx ny nz : ℕ} :
    ∀ {cs : List ℕ} {u u' : UserIndex} {a a' : ℕ}, cs.Pairwise (· < ·) →
    blockLoop m debug dim nx ny nz cs u a = .ok (u', a') →
    ∀ b, a ≤ b → b < a' → ∃ c ∈ cs, m.owned c = true ∧ u' c = b
  | [], u, u', a, a', _, h, b, h1, h2 => by
    obtain ⟨rfl, rfl⟩ := blockLoop_nil h
    omega
  | c :: cs, u, u', a, a', hs, h, b, hb, hb' => by
    have hs' := (List.pairwise_cons.1 hs)
    rcases blockLoop_cons h with ⟨ho, hu, h1⟩ | ⟨hc, h1⟩
    · by_cases hba : b = a
      · refine ⟨c, by simp, ho, ?_⟩
        rw [blockLoop_below hf (k := c + 1) (fun d hd => hs'.1 d hd) h1 c (by omega),
          mark_mem (by simp [aggCells]), hba]
      · obtain ⟨d, h2, h3⟩ := blockLoop_surj hf hs'.2 h1 b (by omega) hb'
        exact ⟨d, List.mem_cons_of_mem _ h2, h3⟩
    · obtain ⟨d, h2, h3⟩ := blockLoop_surj hf hs'.2 h1 b hb hb'
      exact ⟨d, List.mem_cons_of_mem _ h2, h3⟩

theorem blockLoop_size {m : Mesh} {debug : Bool} {dim nx ny nz : ℕ} :
    ∀ {cs : List ℕ} {u u' : UserIndex} {a a' : ℕ},
    blockLoop m debug dim nx ny nz cs u a = .ok (u', a') →
    ∀ b, a ≤ b → (∀ c, u c ≠ b) → ∃ c, ∀ d, u' d = b → d ∈ aggCells m dim nx ny nz c
  | [], u, u', a, a', h, b, h1, h2 => by
    obtain ⟨rfl, rfl⟩ := blockLoop_nil h
    exact ⟨0, fun d hd => absurd hd (h2 d)⟩
  | c :: cs, u, u', a, a', h, b, hb, hu => by
    rcases blockLoop_cons h with ⟨ho, hu0, h1⟩ | ⟨hc, h1⟩
    · by_cases hba : b = a
      · subst hba
        refine ⟨c, fun d hd => ?_⟩
        by_contra hm
        have h3 : b + 1 ≤ b + 1 := le_rfl
        rcases (blockLoop_inv (by omega) h1).2.2.1 d with h2 | h2
        · rw [mark_not_mem hm] at h2
          exact hu d (h2.symm.trans hd)
        · omega
      · refine blockLoop_size h1 b (by omega) (fun d => ?_)
        by_cases hm : d ∈ aggCells m dim nx ny nz c
        · rw [mark_mem hm]; exact fun h => hba h.symm
        · rw [mark_not_mem hm]; exact hu d
    · exact blockLoop_size h1 b hb hu

theorem blockLoop_noop {m : Mesh} {debug : Bool} {dim nx ny nz : ℕ} :
    ∀ {cs : List ℕ} {u : UserIndex} {a : ℕ},
    (∀ c ∈ cs, m.owned c = true → u c ≠ 0) →
    blockLoop m debug dim nx ny nz cs u a = .ok (u, a)
  | [], u, a, _ => rfl
  | c :: cs, u, a, h => by
    have hc : (m.owned c && u c == 0) = false := by
      by_cases ho : m.owned c = true
      · simp [ho, h c (by simp) ho]
      · simp [ho]
    simp only [blockLoop, hc, Bool.false_eq_true, if_false]
    exact blockLoop_noop (fun d hd => h d (List.mem_cons_of_mem _ hd))

theorem buildBlock_ok {m : Mesh} {debug : Bool} {dim nx ny nz : ℕ} {u u' : UserIndex} {n : ℕ}
    (h : buildAgglomeratesBlock m debug dim nx ny nz u = .ok (u', n)) :
    blockLoop m debug dim nx ny nz (List.range m.nCells) u 1 = .ok (u', n + 1) := by
  simp only [buildAgglomeratesBlock, Outcome.bind_eq_ok] at h
  obtain ⟨⟨u1, a⟩, h1, h2⟩ := h
  simp only [Outcome.pure_eq, Outcome.ok.injEq, Prod.mk.injEq] at h2
  obtain ⟨rfl, rfl⟩ := h2
  have := (blockLoop_inv le_rfl h1).1
  rw [h1]
  congr 2
  omega

end Mfmg
