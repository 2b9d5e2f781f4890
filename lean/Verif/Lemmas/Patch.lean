import Verif.Spec.Agglomerate
import Mathlib.Tactic.Linarith
import Mathlib.Tactic.Tauto
import Mathlib.Tactic.NormNum

/-! # Lemmas about patch selection, dof maps and dispatch -/

set_option autoImplicit false

namespace Mfmg

/-! ## Iterator advance -/

theorem distance_up (wide : Bool) {a b : ℕ} (h : b ≤ a) (ha : a < 2 ^ 31) :
    distance wide a b = (a : ℤ) - b := by
  unfold distance
  have h1 : ((a : ℤ) - b) % 2 ^ 32 = a - b := Int.emod_eq_of_lt (by omega) (by omega)
  simp only [h1]
  cases wide
  · simp only [Bool.false_eq_true, if_false]
    rw [if_pos (by omega)]
  · simp

theorem distance_down {a b : ℕ} (h : a < b) (hb : b < 2 ^ 31) :
    distance true a b = (a : ℤ) - b + 2 ^ 32 ∧ distance false a b = (a : ℤ) - b := by
  unfold distance
  have h1 : ((a : ℤ) - b) % 2 ^ 32 = a - b + 2 ^ 32 := by omega
  simp only [h1]
  refine ⟨by simp, ?_⟩
  simp only [Bool.false_eq_true, if_false]
  rw [if_neg (by omega)]
  omega

theorem distance_false {a b : ℕ} (ha : a < 2 ^ 31) (hb : b < 2 ^ 31) :
    distance false a b = (a : ℤ) - b := by
  by_cases h : b ≤ a
  · exact distance_up false h ha
  · exact (distance_down (by omega) hb).2

theorem advanceLoop_sorted {wide : Bool} {nCells : ℕ} (hN : nCells ≤ 2 ^ 31) :
    ∀ (cs : List ℕ) (prev : ℕ) (acc : List ℕ), (prev :: cs).Pairwise (· < ·) →
    (∀ c ∈ cs, c < nCells) →
    advanceLoop wide nCells prev prev cs acc = .ok (acc ++ cs)
  | [], prev, acc, _, _ => by simp [advanceLoop]
  | c :: cs, prev, acc, hs, hr => by
    have hc := List.pairwise_cons.1 hs
    have hlt := hc.1 c (by simp)
    have hcN := hr c (by simp)
    simp only [advanceLoop]
    rw [distance_up wide hlt.le (by omega)]
    have hadv : advance nCells (prev : ℤ) ((c : ℤ) - prev) = .ok (c : ℤ) := by
      unfold advance
      rw [if_pos (by omega)]
      congr 1
      omega
    rw [hadv]
    simp only [Outcome.ok_bind, Int.toNat_natCast]
    rw [advanceLoop_sorted hN cs c _ hc.2 (fun d hd => hr d (List.mem_cons_of_mem _ hd))]
    simp

theorem advanceLoop_narrow {nCells : ℕ} (hN : nCells ≤ 2 ^ 31) :
    ∀ (cs : List ℕ) (prev : ℕ) (acc : List ℕ), prev < nCells → (∀ c ∈ cs, c < nCells) →
    advanceLoop false nCells prev prev cs acc = .ok (acc ++ cs)
  | [], prev, acc, _, _ => by simp [advanceLoop]
  | c :: cs, prev, acc, hp, hr => by
    have hcN := hr c (by simp)
    simp only [advanceLoop]
    rw [distance_false (by omega) (by omega)]
    have hadv : advance nCells (prev : ℤ) ((c : ℤ) - prev) = .ok (c : ℤ) := by
      unfold advance
      rw [if_pos (by omega)]
      congr 1
      omega
    rw [hadv]
    simp only [Outcome.ok_bind, Int.toNat_natCast]
    rw [advanceLoop_narrow hN cs c _ hcN (fun d hd => hr d (List.mem_cons_of_mem _ hd))]
    simp

theorem advanceLoop_ub {wide : Bool} {nCells : ℕ} (hN : nCells ≤ 2 ^ 31) :
    ∀ (cs : List ℕ) (prev : ℕ) (acc : List ℕ), prev < nCells → (∀ c ∈ cs, c < 2 ^ 31) →
    ((∃ c ∈ cs, nCells ≤ c) ∨ (wide = true ∧ ¬ (prev :: cs).Pairwise (· ≤ ·))) →
    ∃ w, advanceLoop wide nCells prev prev cs acc = .ub w
  | [], prev, acc, _, _, h => by
    rcases h with ⟨c, hc, _⟩ | ⟨_, h⟩
    · simp at hc
    · simp at h
  | c :: cs, prev, acc, hp, hr, h => by
    have hc31 := hr c (by simp)
    simp only [advanceLoop]
    by_cases hbad : nCells ≤ c
    · refine ⟨"iterator outside the mesh", ?_⟩
      have : advance nCells (prev : ℤ) (distance wide c prev) = .ub "iterator outside the mesh" := by
        unfold advance
        rw [distance_up wide (by omega) hc31, if_neg (by omega)]
      rw [this]; rfl
    · by_cases hdown : c < prev ∧ wide = true
      · refine ⟨"iterator outside the mesh", ?_⟩
        have : advance nCells (prev : ℤ) (distance wide c prev) =
            .ub "iterator outside the mesh" := by
          unfold advance
          rw [hdown.2, (distance_down hdown.1 (by omega)).1, if_neg (by omega)]
        rw [this]; rfl
      · have hd : distance wide c prev = (c : ℤ) - prev := by
          cases wide
          · exact distance_false hc31 (by omega)
          · exact distance_up true (by simpa using hdown) hc31
        have hadv : advance nCells (prev : ℤ) (distance wide c prev) = .ok (c : ℤ) := by
          unfold advance
          rw [hd, if_pos (by omega)]
          congr 1
          omega
        rw [hadv]
        simp only [Outcome.ok_bind, Int.toNat_natCast]
        apply advanceLoop_ub hN cs c _ (by omega) (fun d hd => hr d (List.mem_cons_of_mem _ hd))
        rcases h with ⟨e, he, heN⟩ | ⟨hw, hs⟩
        · rcases List.mem_cons.1 he with rfl | he
          · exact absurd heN hbad
          · exact Or.inl ⟨e, he, heN⟩
        · refine Or.inr ⟨hw, fun hs' => hs ?_⟩
          have hpc : prev ≤ c := by
            by_contra hn
            exact hdown ⟨by omega, hw⟩
          refine List.pairwise_cons.2 ⟨?_, hs'⟩
          intro x hx
          rcases List.mem_cons.1 hx with rfl | hx
          · exact hpc
          · exact le_trans hpc ((List.pairwise_cons.1 hs').1 x hx)

/-! ## Dof map -/

theorem writeDofs_spec (g : ℕ → ℕ) : ∀ (as : List ℕ) (m : List ℕ), (∀ a ∈ as, a < m.length) →
    ∃ m', writeDofs as (as.map g) m = .ok m' ∧ m'.length = m.length ∧
      ∀ k, k < m.length → m'[k]? = if k ∈ as then some (g k) else m[k]?
  | [], m, _ => ⟨m, by simp [writeDofs], rfl, by simp⟩
  | a :: as, m, h => by
    have ha := h a (by simp)
    obtain ⟨m', h1, h2, h3⟩ := writeDofs_spec g as (m.set a (g a)) (by
      intro b hb; simpa using h b (List.mem_cons_of_mem _ hb))
    refine ⟨m', by simp [writeDofs, ha, h1], by simpa using h2, ?_⟩
    intro k hk
    rw [h3 k (by simpa using hk)]
    by_cases hk' : k ∈ as
    · simp [hk']
    · by_cases hka : k = a
      · subst hka
        simp [hk', ha]
      · simp [hk', hka, Ne.symm hka]

theorem dofLoop_spec (g : ℕ → ℕ) : ∀ (cells : List (List ℕ)) (m : List ℕ),
    (∀ as ∈ cells, ∀ a ∈ as, a < m.length) →
    ∃ m', dofLoop (cells.map (fun as => (as, some (as.map g)))) m = .ok m' ∧
      m'.length = m.length ∧
      ∀ k, k < m.length → m'[k]? = if (∃ as ∈ cells, k ∈ as) then some (g k) else m[k]?
  | [], m, _ => ⟨m, rfl, rfl, by simp⟩
  | as :: cells, m, h => by
    obtain ⟨m1, h1, h2, h3⟩ := writeDofs_spec g as m (h as (by simp))
    obtain ⟨m2, k1, k2, k3⟩ := dofLoop_spec g cells m1 (by
      intro bs hbs b hb
      rw [h2]
      exact h bs (List.mem_cons_of_mem _ hbs) b hb)
    refine ⟨m2, by simp [dofLoop, h1, k1], k2.trans h2, ?_⟩
    intro k hk
    rw [k3 k (by omega), h3 k hk]
    by_cases hc : ∃ bs ∈ cells, k ∈ bs
    · have : ∃ bs ∈ as :: cells, k ∈ bs := by
        obtain ⟨bs, b1, b2⟩ := hc; exact ⟨bs, List.mem_cons_of_mem _ b1, b2⟩
      rw [if_pos hc, if_pos this]
    · rw [if_neg hc]
      by_cases ha : k ∈ as
      · rw [if_pos ha, if_pos ⟨as, by simp, ha⟩]
      · rw [if_neg ha, if_neg]
        rintro ⟨bs, b1, b2⟩
        rcases List.mem_cons.1 b1 with rfl | b1
        · exact ha b2
        · exact hc ⟨bs, b1, b2⟩

/-- A consistent numbering is given by a function. -/
theorem dofsAgree_fun {cells : List (List ℕ × List ℕ)} (h : DofsAgree cells) :
    ∃ g : ℕ → ℕ, ∀ a gl, (a, gl) ∈ cells → gl = a.map g := by
  classical
  have : ∀ x : ℕ, ∃ y : ℕ, ∀ a gl, (a, gl) ∈ cells → ∀ i : ℕ, a[i]? = some x → gl[i]? = some y := by
    intro x
    by_cases hx : ∃ a gl, ∃ i : ℕ, (a, gl) ∈ cells ∧ a[i]? = some x
    · obtain ⟨a, gl, i, h1, h2⟩ := hx
      have hi : i < gl.length := by
        rw [← h.1 a gl h1]
        exact (List.getElem?_eq_some_iff.1 h2).1
      refine ⟨gl[i], fun a' gl' h1' j h2' => ?_⟩
      rw [← h.2 a gl a' gl' i j x h1 h1' h2 h2']
      exact List.getElem?_eq_getElem hi
    · refine ⟨0, fun a gl h1 i h2 => absurd ⟨a, gl, i, h1, h2⟩ hx⟩
  choose g hg using this
  refine ⟨g, fun a gl hm => ?_⟩
  apply List.ext_getElem?
  intro i
  rw [List.getElem?_map]
  cases hi : a[i]? with
  | none =>
    have : a.length ≤ i := by simpa using hi
    simp only [Option.map_none]
    rw [List.getElem?_eq_none_iff, ← h.1 a gl hm]
    exact this
  | some x => exact hg x a gl hm i hi

theorem dofsAgree_of_fun (cells : List (List ℕ)) (g : ℕ → ℕ) :
    DofsAgree (cells.map (fun as => (as, as.map g))) := by
  refine ⟨?_, ?_⟩
  · intro a gl h
    obtain ⟨as, _, he⟩ := List.mem_map.1 h
    simp only [Prod.mk.injEq] at he
    rw [← he.1, ← he.2]; simp
  · intro a gl a' gl' i j x h h' hi hj
    obtain ⟨as, _, he⟩ := List.mem_map.1 h
    obtain ⟨as', _, he'⟩ := List.mem_map.1 h'
    simp only [Prod.mk.injEq] at he he'
    obtain ⟨rfl, rfl⟩ := he
    obtain ⟨rfl, rfl⟩ := he'
    rw [List.getElem?_map, List.getElem?_map, hi, hj]

/-! ## Letter case -/

theorem lower_toNat (c : Char) : c.toLower.toNat =
    if 65 ≤ c.toNat ∧ c.toNat ≤ 90 then c.toNat + 32 else c.toNat := by
  unfold Char.toLower
  simp only [Char.toNat, ge_iff_le, UInt32.le_iff_toNat_le]
  have h1 : ('A'.val.toNat) = 65 := rfl
  have h2 : ('Z'.val.toNat) = 90 := rfl
  have h3 : (('a'.val - 'A'.val).toNat) = 32 := rfl
  split
  · rename_i h
    rw [h1, h2] at h
    rw [if_pos h]
    simp only [UInt32.toNat_add]
    rw [h3]
    omega
  · rename_i h
    rw [h1, h2] at h
    rw [if_neg h]

theorem upper_toNat (c : Char) : c.toUpper.toNat =
    if 97 ≤ c.toNat ∧ c.toNat ≤ 122 then c.toNat - 32 else c.toNat := by
  unfold Char.toUpper
  simp only [Char.toNat, UInt32.le_iff_toNat_le]
  have h1 : ('a'.val.toNat) = 97 := rfl
  have h2 : ('z'.val.toNat) = 122 := rfl
  have h3 : (('A'.val - 'a'.val).toNat) = 2 ^ 32 - 32 := rfl
  split
  · rename_i h
    rw [h1, h2] at h
    rw [if_pos h]
    simp only [UInt32.toNat_add]
    rw [h3]
    omega
  · rename_i h
    rw [h1, h2] at h
    rw [if_neg h]

theorem lower_eq_iff {c d : Char} (h : 97 ≤ d.toNat ∧ d.toNat ≤ 122) :
    c.toLower = d ↔ c = d ∨ c = d.toUpper := by
  rw [← Char.toNat_inj, ← Char.toNat_inj, ← Char.toNat_inj, lower_toNat, upper_toNat, if_pos h]
  split <;> omega

theorem lower_map_iff (t : List Char) (ht : ∀ d ∈ t, 97 ≤ d.toNat ∧ d.toNat ≤ 122) :
    ∀ s : List Char, s.map Char.toLower = t ↔
      List.Forall₂ (fun c d => c = d ∨ c = d.toUpper) s t := by
  induction t with
  | nil => intro s; simp
  | cons d t ih =>
    intro s
    cases s with
    | nil => simp
    | cons c s =>
      simp only [List.map_cons, List.cons.injEq, List.forall₂_cons,
        lower_eq_iff (ht d (by simp)), ih (fun e he => ht e (List.mem_cons_of_mem _ he))]

theorem lower_eq_caseVariant (s t : String) (ht : ∀ d ∈ t.toList, 97 ≤ d.toNat ∧ d.toNat ≤ 122) :
    String.ofList (s.toList.map Char.toLower) = t ↔ CaseVariant s t := by
  unfold CaseVariant
  rw [← lower_map_iff t.toList ht, ← String.ofList_inj (l₂ := t.toList), String.ofList_toList]

end Mfmg
