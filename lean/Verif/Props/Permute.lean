import Verif.Model.Permute
import Verif.Spec.Permute
import Mathlib.Data.List.Basic
import Mathlib.Data.List.Perm.Basic
import Mathlib.Data.List.Perm.Subperm
import Mathlib.Data.List.Nodup
import Mathlib.Data.Finset.Card
import Mathlib.Data.Finset.Range
import Mathlib.Tactic.Push

/-!
# Permutation utilities (C34, C35)
-/

set_option autoImplicit false

namespace Mfmg

/-! ## C34 -/

theorem lexLess_iff {T : Type} [LinearOrder T] (v₁ v₂ : ℕ → T) (i j : ℕ) :
    lexLess v₁ v₂ i j = true ↔ v₁ i < v₁ j ∨ (v₁ i = v₁ j ∧ v₂ i < v₂ j) := by
  unfold lexLess
  split_ifs with h
  · rw [decide_eq_true_eq]
    exact ⟨Or.inl, fun h' => h'.resolve_right (fun h'' => h h''.1)⟩
  · rw [decide_eq_true_eq]
    push Not at h
    exact ⟨fun h' => Or.inr ⟨h, h'⟩, fun h' => h'.elim (fun h'' => absurd h h''.ne) (·.2)⟩

theorem lexLess_false_iff {T : Type} [LinearOrder T] (v₁ v₂ : ℕ → T) (i j : ℕ) :
    lexLess v₁ v₂ i j = false ↔ lexLE (v₁ j, v₂ j) (v₁ i, v₂ i) := by
  rw [← Bool.not_eq_true, lexLess_iff]
  unfold lexLE
  simp only
  constructor
  · intro h
    push Not at h
    rcases lt_trichotomy (v₁ j) (v₁ i) with h1 | h1 | h1
    · exact Or.inl h1
    · exact Or.inr ⟨h1, h.2 h1.symm⟩
    · exact absurd h1 (not_lt.2 h.1)
  · rintro (h | ⟨h1, h2⟩) (h3 | ⟨h3, h4⟩)
    · exact lt_asymm h h3
    · exact h.ne h3.symm
    · exact h3.ne h1.symm
    · exact not_lt.2 h2 h4

/-- **C34**: the comparison meets the precondition of `std::sort`. -/
theorem C34_strict_weak {T : Type} [LinearOrder T] (v₁ v₂ : ℕ → T) : StrictWeak (lexLess v₁ v₂) where
  irrefl := by
    intro i
    rw [lexLess_false_iff]
    exact Or.inr ⟨rfl, le_refl _⟩
  trans := by
    intro i j k h1 h2
    rw [lexLess_iff] at *
    rcases h1 with h1 | ⟨h1, h1'⟩ <;> rcases h2 with h2 | ⟨h2, h2'⟩
    · exact Or.inl (h1.trans h2)
    · exact Or.inl (h2 ▸ h1)
    · exact Or.inl (h1.symm ▸ h2)
    · exact Or.inr ⟨h1.trans h2, h1'.trans h2'⟩
  incomp := by
    intro i j k h1 h2 h3 h4
    rw [lexLess_false_iff] at *
    unfold lexLE at *
    simp only at *
    have e1 : v₁ i = v₁ j ∧ v₂ i = v₂ j := by
      rcases h1 with h1 | ⟨h1, h1'⟩ <;> rcases h2 with h2 | ⟨h2, h2'⟩
      · exact absurd h1 (lt_asymm h2)
      · exact absurd h1 (by rw [h2]; exact lt_irrefl _)
      · exact absurd h2 (by rw [h1]; exact lt_irrefl _)
      · exact ⟨h2, le_antisymm h2' h1'⟩
    have e2 : v₁ j = v₁ k ∧ v₂ j = v₂ k := by
      rcases h3 with h1 | ⟨h1, h1'⟩ <;> rcases h4 with h2 | ⟨h2, h2'⟩
      · exact absurd h1 (lt_asymm h2)
      · exact absurd h1 (by rw [h2]; exact lt_irrefl _)
      · exact absurd h2 (by rw [h1]; exact lt_irrefl _)
      · exact ⟨h2, le_antisymm h2' h1'⟩
    constructor
    · exact Or.inr (And.intro (e1.1.trans e2.1).symm (e1.2.trans e2.2).symm.le)
    · exact (lexLess_false_iff _ _ _ _).2 (Or.inr ⟨e1.1.trans e2.1, (e1.2.trans e2.2).le⟩)

/-- **C34.** For vectors of the same length and any `std::sort` that meets its contract, the result is
a permutation of the indices and orders the pairs lexicographically, in debug and release builds. -/
theorem C34_sorts {T : Type} [LinearOrder T] [Inhabited T] (debug : Bool)
    (sort : (ℕ → ℕ → Bool) → List ℕ → List ℕ) (hs : SortContract sort) (v₁ v₂ : List T)
    (hlen : v₁.length = v₂.length) :
    ∃ p, sortPermutation debug sort v₁ v₂ = .ok p ∧ p.Perm (List.range v₁.length) ∧
      (p.map (fun i => (v₁.getD i default, v₂.getD i default))).Pairwise lexLE := by
  obtain ⟨h1, h2⟩ := hs _ (List.range v₁.length)
    (C34_strict_weak (fun i => v₁.getD i default) (fun i => v₂.getD i default))
  refine ⟨_, ?_, h1, ?_⟩
  · unfold sortPermutation
    have : Outcome.assert debug (v₁.length == v₂.length) = .ok () := by
      simp [Outcome.assert, hlen]
    rw [this, Outcome.ok_bind, if_neg (by omega)]
    rfl
  · rw [List.pairwise_map]
    exact h2.imp (fun h => (lexLess_false_iff _ _ _ _).1 h)

/-- **C34**: whichever correct `std::sort` is used, the sequence of sorted pairs is the same. -/
theorem C34_unique {T : Type} [LinearOrder T] [Inhabited T] (debug : Bool)
    (sort sort' : (ℕ → ℕ → Bool) → List ℕ → List ℕ) (hs : SortContract sort)
    (hs' : SortContract sort') (v₁ v₂ : List T) (hlen : v₁.length = v₂.length) (p p' : List ℕ)
    (hp : sortPermutation debug sort v₁ v₂ = .ok p)
    (hp' : sortPermutation debug sort' v₁ v₂ = .ok p') :
    p.map (fun i => (v₁.getD i default, v₂.getD i default)) =
      p'.map (fun i => (v₁.getD i default, v₂.getD i default)) := by
  obtain ⟨q, e1, e2, e3⟩ := C34_sorts debug sort hs v₁ v₂ hlen
  obtain ⟨q', e1', e2', e3'⟩ := C34_sorts debug sort' hs' v₁ v₂ hlen
  obtain rfl : q = p := by rw [e1] at hp; injection hp
  obtain rfl : q' = p' := by rw [e1'] at hp'; injection hp'
  refine List.Perm.eq_of_pairwise (le := lexLE) ?_ e3 e3' ((e2.trans e2'.symm).map _)
  rintro ⟨a, b⟩ ⟨c, d⟩ - - h1 h2
  unfold lexLE at h1 h2
  simp only at h1 h2
  rcases h1 with h1 | ⟨h1, h1'⟩ <;> rcases h2 with h2 | ⟨h2, h2'⟩
  · exact absurd h1 (lt_asymm h2)
  · exact absurd h1 (by rw [h2]; exact lt_irrefl _)
  · exact absurd h2 (by rw [h1]; exact lt_irrefl _)
  · rw [h1, le_antisymm h1' h2']

/-- **C34**: a debug build ends the program on vectors of different lengths. -/
theorem C34_mismatch {T : Type} [LinearOrder T] [Inhabited T]
    (sort : (ℕ → ℕ → Bool) → List ℕ → List ℕ) (v₁ v₂ : List T) (h : v₁.length ≠ v₂.length) :
    sortPermutation true sort v₁ v₂ = .aborted := by
  unfold sortPermutation
  have : Outcome.assert true (v₁.length == v₂.length) = .aborted := by
    simp [Outcome.assert, h]
  rw [this, Outcome.aborted_bind]

/-- **C34**: a release build reads out of bounds if the second vector is shorter. -/
theorem C34_mismatch_release {T : Type} [LinearOrder T] [Inhabited T]
    (sort : (ℕ → ℕ → Bool) → List ℕ → List ℕ) (v₁ v₂ : List T) (h : v₂.length < v₁.length) :
    ∃ w, sortPermutation false sort v₁ v₂ = .ub w := by
  refine ⟨"vec_2[i]", ?_⟩
  unfold sortPermutation
  have : Outcome.assert false (v₁.length == v₂.length) = .ok () := by simp [Outcome.assert]
  rw [this, Outcome.ok_bind, if_pos h]

example : ∃ w, sortPermutation false (fun _ l => l) [3, 1] [(2 : ℕ)] = .ub w :=
  C34_mismatch_release _ _ _ (by decide)

example : sortPermutation true (fun _ l => l) [3, 1] [(2 : ℕ)] = .aborted :=
  C34_mismatch _ _ _ (by decide)

/-- An admissible `std::sort`. -/
def exIndexSort (less : ℕ → ℕ → Bool) (l : List ℕ) : List ℕ :=
  l.mergeSort (fun i j => !less j i)

theorem exIndexSort_contract : SortContract exIndexSort := by
  intro less l h
  refine ⟨List.mergeSort_perm _ _, ?_⟩
  have := List.pairwise_mergeSort (le := fun i j => !less j i)
    (by
      intro a b c h1 h2
      simp only [Bool.not_eq_true'] at *
      by_contra hc
      rw [Bool.not_eq_false] at hc
      cases hab : less a b with
      | true => rw [h.trans c a b hc hab] at h2; cases h2
      | false =>
        cases hbc : less b c with
        | true => rw [h.trans b c a hbc hc] at h1; cases h1
        | false =>
          have := (h.incomp a b c hab h1 hbc h2).2
          rw [this] at hc; cases hc)
    (by
      intro a b
      cases hab : less a b with
      | false => simp
      | true =>
        cases hba : less b a with
        | false => simp
        | true => have := h.trans a b a hab hba; rw [h.irrefl] at this; cases this)
    l
  exact this.imp (fun h => by simpa using h)

example : ∃ p, sortPermutation true exIndexSort [3, 1, 3, 1] [2, 9, 1, (4 : ℕ)] = .ok p ∧
    p = [3, 1, 2, 0] := by
  refine ⟨_, rfl, ?_⟩
  simp [exIndexSort, List.range_succ, List.mergeSort, lexLess,
    List.MergeSort.Internal.splitInTwo]

/-! ## C35 -/

section

variable {α : Type}

/-- Read a permutation vector as a function. -/
def permFun (perm : List ℕ) (k : ℕ) : ℕ := perm.getD k 0

theorem cycleWalk_ok (perm : List ℕ) (n i : ℕ) (hpl : perm.length = n)
    (hlt : ∀ k, k < n → permFun perm k < n)
    (hinj : ∀ a b, a < n → b < n → permFun perm a = permFun perm b → a = b)
    (v : List α) (D : ℕ → Prop)
    (hD : ∀ k, k < n → D k → D (permFun perm k)) :
    ∀ (fuel prev j : ℕ) (vec : List α) (done : List Bool) (S : Finset ℕ),
      i ∈ S → prev ∈ S → (∀ k ∈ S, k < n ∧ ¬ D k) → j = permFun perm prev →
      (∀ x ∈ S, x ≠ i → ∃ k ∈ S, k ≠ prev ∧ x = permFun perm k) →
      (∀ k ∈ S, k ≠ prev → permFun perm k ∈ S) →
      n ≤ fuel + S.card →
      vec.length = n → done.length = n →
      (∀ k, k < n → (done.getD k false = true ↔ D k ∨ k ∈ S)) →
      (∀ k ∈ S, k ≠ prev → vec[k]? = v[permFun perm k]?) → vec[prev]? = v[i]? →
      (∀ k, k < n → k ∉ S → (D k → vec[k]? = v[permFun perm k]?) ∧ (¬ D k → vec[k]? = v[k]?)) →
      ∃ (vec' : List α) (done' : List Bool) (S' : Finset ℕ), cycleWalk perm i fuel prev j (vec, done) = some (.ok (vec', done')) ∧
        i ∈ S' ∧ (∀ k ∈ S', k < n) ∧ (∀ k ∈ S', permFun perm k ∈ S') ∧
        vec'.length = n ∧ done'.length = n ∧
        (∀ k, k < n → (done'.getD k false = true ↔ D k ∨ k ∈ S')) ∧
        (∀ k, k < n → (D k ∨ k ∈ S' → vec'[k]? = v[permFun perm k]?) ∧
          (¬ (D k ∨ k ∈ S') → vec'[k]? = v[k]?)) := by
  intro fuel
  induction fuel with
  | zero =>
    intro prev j vec done S hiS hpS hS hj hx hc hcard hvl hdl hd h1 h2 h3
    have hfull : S = Finset.range n := by
      refine Finset.eq_of_subset_of_card_le ?_ (by rw [Finset.card_range]; omega)
      intro k hk
      exact Finset.mem_range.2 (hS k hk).1
    -- the walk has visited everything: `j` is back at `i`
    have hji : i = j := by
      by_contra hne
      have hjS : j ∈ S := by
        rw [hfull, Finset.mem_range, hj]; exact hlt prev (hS prev hpS).1
      obtain ⟨k, hkS, hkp, hk⟩ := hx j hjS (fun h => hne h.symm)
      exact hkp (hinj k prev (hS k hkS).1 (hS prev hpS).1 (hk.symm.trans hj))
    refine ⟨vec, done, S, ?_, hiS, fun k hk => (hS k hk).1, ?_, hvl, hdl, hd, ?_⟩
    · rw [cycleWalk, if_pos hji]
    · intro k hk
      by_cases hkp : k = prev
      · rw [hkp, ← hj, ← hji]; exact hiS
      · exact hc k hk hkp
    · intro k hk
      constructor
      · rintro (hDk | hkS)
        · exact (h3 k hk (fun h => (hS k h).2 hDk)).1 hDk
        · by_cases hkp : k = prev
          · rw [hkp, h2, ← hj, hji]
          · exact h1 k hkS hkp
      · intro hn
        push Not at hn
        exact (h3 k hk hn.2).2 hn.1
  | succ fuel ih =>
    intro prev j vec done S hiS hpS hS hj hx hc hcard hvl hdl hd h1 h2 h3
    by_cases hji : i = j
    · refine ⟨vec, done, S, ?_, hiS, fun k hk => (hS k hk).1, ?_, hvl, hdl, hd, ?_⟩
      · rw [cycleWalk, if_pos hji]
      · intro k hk
        by_cases hkp : k = prev
        · rw [hkp, ← hj, ← hji]; exact hiS
        · exact hc k hk hkp
      · intro k hk
        constructor
        · rintro (hDk | hkS)
          · exact (h3 k hk (fun h => (hS k h).2 hDk)).1 hDk
          · by_cases hkp : k = prev
            · rw [hkp, h2, ← hj, hji]
            · exact h1 k hkS hkp
        · intro hn
          push Not at hn
          exact (h3 k hk hn.2).2 hn.1
    · have hpn : prev < n := (hS prev hpS).1
      have hjn : j < n := by rw [hj]; exact hlt prev hpn
      have hjS : j ∉ S := by
        intro hjS
        obtain ⟨k, hkS, hkp, hk⟩ := hx j hjS (fun h => hji h.symm)
        exact hkp (hinj k prev (hS k hkS).1 hpn (hk.symm.trans hj))
      have hjp : j ≠ prev := fun h => hjS (h ▸ hpS)
      -- `D` is closed under the permutation and its inverse
      have hjD : ¬ D j := by
        intro hDj
        -- the image of `D` below `n` is all of `D`
        classical
        let T : Finset ℕ := (Finset.range n).filter D
        have himg : T.image (permFun perm) = T := by
          refine Finset.eq_of_subset_of_card_le ?_ ?_
          · intro x hx
            obtain ⟨k, hk, rfl⟩ := Finset.mem_image.1 hx
            have hk := Finset.mem_filter.1 hk
            have hkn := Finset.mem_range.1 hk.1
            exact Finset.mem_filter.2 ⟨Finset.mem_range.2 (hlt k hkn), hD k hkn hk.2⟩
          · rw [Finset.card_image_of_injOn]
            intro a ha b hb hab
            have ha := Finset.mem_filter.1 (Finset.mem_coe.1 ha)
            have hb := Finset.mem_filter.1 (Finset.mem_coe.1 hb)
            exact hinj a b (Finset.mem_range.1 ha.1) (Finset.mem_range.1 hb.1) hab
        have hjT : j ∈ T.image (permFun perm) := by
          rw [himg]; exact Finset.mem_filter.2 ⟨Finset.mem_range.2 hjn, hDj⟩
        obtain ⟨k, hk, hkj⟩ := Finset.mem_image.1 hjT
        have hk := Finset.mem_filter.1 hk
        have := hinj k prev (Finset.mem_range.1 hk.1) hpn (hkj.trans hj)
        exact (hS prev hpS).2 (this ▸ hk.2)
      have hpj : perm[j]? = some (permFun perm j) := by
        unfold permFun
        rw [List.getD, List.getElem?_eq_getElem (by omega)]; rfl
      have hgp : vec[prev]? = some vec[prev] := List.getElem?_eq_getElem (by omega)
      have hgj : vec[j]? = some vec[j] := List.getElem?_eq_getElem (by omega)
      have hstep : cycleWalk perm i (fuel + 1) prev j (vec, done) =
          cycleWalk perm i fuel j (permFun perm j)
            ((vec.set prev vec[j]).set j vec[prev], done.set j true) := by
        conv_lhs => rw [cycleWalk]
        simp only [if_neg hji, hgp, hgj, hpj]
      rw [hstep]
      have hget : ∀ k, ((vec.set prev vec[j]).set j vec[prev])[k]? =
          if k = j then vec[prev]? else if k = prev then vec[j]? else vec[k]? := by
        intro k
        by_cases hkj : k = j
        · subst hkj
          rw [if_pos rfl, List.getElem?_set_self (by simp; omega), hgp]
        · rw [if_neg hkj, List.getElem?_set_ne (fun h => hkj h.symm)]
          by_cases hkp : k = prev
          · subst hkp
            rw [if_pos rfl, List.getElem?_set_self (by omega), hgj]
          · rw [if_neg hkp, List.getElem?_set_ne (fun h => hkp h.symm)]
      refine ih j (permFun perm j) _ _ (insert j S) (Finset.mem_insert_of_mem hiS)
        (Finset.mem_insert_self _ _) ?_ rfl ?_ ?_ ?_ (by simpa using hvl) (by simpa using hdl) ?_ ?_ ?_
        ?_
      · intro k hk
        rcases Finset.mem_insert.1 hk with rfl | hk
        · exact ⟨hjn, hjD⟩
        · exact hS k hk
      · intro x hxS hxi
        rcases Finset.mem_insert.1 hxS with rfl | hxS
        · exact ⟨prev, Finset.mem_insert_of_mem hpS, fun h => hjp h.symm, hj⟩
        · obtain ⟨k, hk, hkp, hxk⟩ := hx x hxS hxi
          exact ⟨k, Finset.mem_insert_of_mem hk, fun h => hjS (h ▸ hk), hxk⟩
      · intro k hk hkj
        rcases Finset.mem_insert.1 hk with rfl | hk
        · exact absurd rfl hkj
        · by_cases hkp : k = prev
          · rw [hkp, ← hj]; exact Finset.mem_insert_self _ _
          · exact Finset.mem_insert_of_mem (hc k hk hkp)
      · rw [Finset.card_insert_of_notMem hjS]; omega
      · intro k hk
        rw [List.getD, List.getElem?_set]
        by_cases hkj : j = k
        · subst hkj
          rw [if_pos rfl, if_pos (by omega)]
          simp
        · rw [if_neg hkj]
          have := hd k hk
          rw [List.getD] at this
          rw [this, Finset.mem_insert]
          constructor
          · rintro (h | h)
            · exact Or.inl h
            · exact Or.inr (Or.inr h)
          · rintro (h | h | h)
            · exact Or.inl h
            · exact absurd h.symm hkj
            · exact Or.inr h
      · intro k hk hkj
        rw [hget, if_neg hkj]
        rcases Finset.mem_insert.1 hk with rfl | hk
        · exact absurd rfl hkj
        · by_cases hkp : k = prev
          · rw [if_pos hkp, hkp, ← hj]
            exact (h3 j hjn hjS).2 hjD
          · rw [if_neg hkp]; exact h1 k hk hkp
      · rw [hget, if_pos rfl, h2]
      · intro k hk hkS
        have hkj : k ≠ j := fun h => hkS (h ▸ Finset.mem_insert_self _ _)
        have hkS' : k ∉ S := fun h => hkS (Finset.mem_insert_of_mem h)
        have hkp : k ≠ prev := by
          rintro rfl
          exact hkS' hpS
        rw [hget, if_neg hkj, if_neg hkp]
        exact h3 k hk hkS'

theorem applyLoop_ok (perm : List ℕ) (n : ℕ) (hpl : perm.length = n)
    (hlt : ∀ k, k < n → permFun perm k < n)
    (hinj : ∀ a b, a < n → b < n → permFun perm a = permFun perm b → a = b)
    (v : List α) (fuel : ℕ) (hfuel : n ≤ fuel + 1) :
    ∀ (left i : ℕ) (vec : List α) (done : List Bool) (D : ℕ → Prop), i + left = n →
      vec.length = n → done.length = n →
      (∀ k, k < n → D k → D (permFun perm k)) → (∀ k, k < i → D k) →
      (∀ k, k < n → (done.getD k false = true ↔ D k)) →
      (∀ k, k < n → (D k → vec[k]? = v[permFun perm k]?) ∧ (¬ D k → vec[k]? = v[k]?)) →
      ∃ vec' done', applyLoop perm fuel left i (vec, done) = some (.ok (vec', done')) ∧
        vec'.length = n ∧ ∀ k, k < n → vec'[k]? = v[permFun perm k]? := by
  intro left
  induction left with
  | zero =>
    intro i vec done D hil hvl hdl hD hi hd h
    refine ⟨vec, done, rfl, hvl, fun k hk => (h k hk).1 (hi k (by omega))⟩
  | succ left ih =>
    intro i vec done D hil hvl hdl hD hi hd h
    have hin : i < n := by omega
    rw [applyLoop]
    by_cases hdi : D i
    · have hdt : done.getD i false = true := (hd i hin).2 hdi
      rw [if_neg (by rw [hdt]; simp)]
      refine ih (i + 1) vec done D (by omega) hvl hdl hD ?_ hd h
      intro k hk
      rcases Nat.lt_succ_iff_lt_or_eq.1 hk with hk | rfl
      · exact hi k hk
      · exact hdi
    · have hdf : done.getD i false = false := by
        cases hc : done.getD i false with
        | false => rfl
        | true => exact absurd ((hd i hin).1 hc) hdi
      have hpi : perm[i]? = some (permFun perm i) := by
        unfold permFun
        rw [List.getD, List.getElem?_eq_getElem (by omega)]; rfl
      rw [if_pos hdf, hpi]
      obtain ⟨vec', done', S', e1, e2, e3, e4, e5, e6, e7, e8⟩ :=
        cycleWalk_ok perm n i hpl hlt hinj v D hD fuel i (permFun perm i) vec
          (done.set i true) {i} (by simp) (by simp) (by intro k hk; simp only [Finset.mem_singleton] at hk; subst hk; exact ⟨hin, hdi⟩)
          rfl (by intro x hx hxi; simp only [Finset.mem_singleton] at hx; exact absurd hx hxi)
          (by intro k hk hki; simp only [Finset.mem_singleton] at hk; exact absurd hk hki)
          (by simpa using hfuel) hvl (by simpa using hdl)
          (by
            intro k hk
            rw [List.getD, List.getElem?_set]
            by_cases hki : i = k
            · subst hki
              rw [if_pos rfl, if_pos (by omega)]
              simp
            · rw [if_neg hki]
              have := hd k hk
              rw [List.getD] at this
              rw [this]
              simp only [Finset.mem_singleton]
              exact ⟨Or.inl, fun h => h.elim id (fun h => absurd h.symm hki)⟩)
          (by intro k hk hki; simp only [Finset.mem_singleton] at hk; exact absurd hk hki)
          ((h i hin).2 hdi)
          (by intro k hk _; exact h k hk)
      simp only [e1]
      refine ih (i + 1) vec' done' (fun k => D k ∨ k ∈ S') (by omega) e5 e6 ?_ ?_ e7 e8
      · rintro k hk (hDk | hkS)
        · exact Or.inl (hD k hk hDk)
        · exact Or.inr (e4 k hkS)
      · intro k hk
        rcases Nat.lt_succ_iff_lt_or_eq.1 hk with hk | rfl
        · exact Or.inl (hi k hk)
        · exact Or.inr e2

theorem permFun_mem (perm : List ℕ) (k : ℕ) (hk : k < perm.length) : permFun perm k = perm[k] := by
  unfold permFun
  rw [List.getD, List.getElem?_eq_getElem hk]; rfl

/-- **C35.** For every permutation of the indices and every vector, the call ends (no inner loop runs
more than `n - 1` times) and the new element `i` is the old element `p[i]`. -/
theorem C35_permutes (perm : List ℕ) (v : List α) (hp : perm.Perm (List.range v.length)) (fuel : ℕ)
    (hfuel : v.length ≤ fuel + 1) :
    ∃ r, applyPermutation perm fuel v = some (.ok r) ∧ r.length = v.length ∧
      ∀ (i : ℕ) (k : ℕ), perm[i]? = some k → r[i]? = v[k]? := by
  have hpl : perm.length = v.length := by rw [hp.length_eq, List.length_range]
  have hnd : perm.Nodup := hp.nodup_iff.2 List.nodup_range
  obtain ⟨vec', done', e1, e2, e3⟩ := applyLoop_ok perm v.length hpl
    (by
      intro k hk
      rw [permFun_mem perm k (by omega)]
      exact List.mem_range.1 (hp.subset (List.getElem_mem _)))
    (by
      intro a b ha hb hab
      rw [permFun_mem perm a (by omega), permFun_mem perm b (by omega)] at hab
      exact (List.Nodup.getElem_inj_iff hnd).1 hab)
    v fuel hfuel v.length 0 v (List.replicate v.length false) (fun _ => False) (by omega) rfl
    (by simp) (by simp) (by simp) (by
      intro k hk
      rw [List.getD, List.getElem?_replicate, if_pos hk]
      simp) (by simp)
  refine ⟨vec', ?_, e2, ?_⟩
  · unfold applyPermutation
    rw [e1]
  · intro i k hk
    have hi : i < perm.length := by
      by_contra hc
      rw [List.getElem?_eq_none (by omega)] at hk
      cases hk
    rw [e3 i (by omega), permFun_mem perm i hi]
    rw [List.getElem?_eq_getElem hi] at hk
    rw [Option.some.inj hk]

/-- Along a walk that ends, every index marked is an image of the map. -/
theorem cycleWalk_image (perm : List ℕ) (i : ℕ) : ∀ (fuel prev j : ℕ) (vec : List α)
    (done : List Bool) (s : List α × List Bool), perm[prev]? = some j →
    (∀ k, done.getD k false = true → k = i ∨ k ∈ perm) →
    cycleWalk perm i fuel prev j (vec, done) = some (.ok s) →
    (∀ k, s.2.getD k false = true → k ∈ perm) ∧ s.1.length = vec.length ∧
      s.2.length = done.length ∧ (∀ k, done.getD k false = true → s.2.getD k false = true) := by
  intro fuel
  induction fuel with
  | zero =>
    intro prev j vec done s hj hd h
    rw [cycleWalk] at h
    split_ifs at h with hij
    simp only [Option.some.injEq, Outcome.ok.injEq] at h
    subst h
    refine ⟨?_, rfl, rfl, fun _ h => h⟩
    intro k hk
    rcases hd k hk with rfl | h
    · rw [hij]; exact List.mem_of_getElem? hj
    · exact h
  | succ fuel ih =>
    intro prev j vec done s hj hd h
    rw [cycleWalk] at h
    split_ifs at h with hij
    · simp only [Option.some.injEq, Outcome.ok.injEq] at h
      subst h
      refine ⟨?_, rfl, rfl, fun _ h => h⟩
      intro k hk
      rcases hd k hk with rfl | h
      · rw [hij]; exact List.mem_of_getElem? hj
      · exact h
    · have hset : ∀ k, (done.set j true).getD k false = true →
          k = j ∨ done.getD k false = true := by
        intro k hk
        by_cases hkj : k = j
        · exact Or.inl hkj
        · right
          rw [List.getD, List.getElem?_set_ne (fun h => hkj h.symm)] at hk
          exact hk
      have hmono : ∀ k, done.getD k false = true → (done.set j true).getD k false = true := by
        intro k hk
        rw [List.getD, List.getElem?_set]
        split_ifs with h1 h2
        · rfl
        · subst h1
          rw [List.getD, List.getElem?_eq_none (by omega)] at hk
          exact hk
        · exact hk
      split at h
      · split at h
        · rename_i j' hj'
          obtain ⟨a, b, c, d⟩ := ih j j' _ _ s hj' (by
            intro k hk
            rcases hset k hk with rfl | hk
            · exact Or.inr (List.mem_of_getElem? hj)
            · exact hd k hk) h
          exact ⟨a, by simpa using b, by simpa using c, fun k hk => d k (hmono k hk)⟩
        · simp at h
      · simp at h

theorem applyLoop_image (perm : List ℕ) (fuel n : ℕ) : ∀ (left i : ℕ) (vec : List α)
    (done : List Bool) (s : List α × List Bool), i + left = n → done.length = n →
    (∀ k, done.getD k false = true → k ∈ perm) → (∀ k, k < i → k ∈ perm) →
    applyLoop perm fuel left i (vec, done) = some (.ok s) → ∀ k, k < n → k ∈ perm := by
  intro left
  induction left with
  | zero =>
    intro i vec done s hil hdl hd hi h k hk
    exact hi k (by omega)
  | succ left ih =>
    intro i vec done s hil hdl hd hi h
    rw [applyLoop] at h
    split_ifs at h with hdone
    · split at h
      · rename_i j hj
        split at h
        · rename_i s' hs'
          obtain ⟨a, b, c, d⟩ := cycleWalk_image perm i fuel i j vec (done.set i true) s' hj (by
            intro k hk
            by_cases hki : k = i
            · exact Or.inl hki
            · rw [List.getD, List.getElem?_set_ne (fun h => hki h.symm)] at hk
              exact Or.inr (hd k hk)) hs'
          refine ih (i + 1) s'.1 s'.2 s (by omega) (by simpa [hdl] using c) a ?_ h
          intro k hk
          rcases Nat.lt_succ_iff_lt_or_eq.1 hk with hk | rfl
          · exact hi k hk
          · refine a k (d k ?_)
            rw [List.getD, List.getElem?_set_self (by omega)]
            rfl
        · rename_i r hr
          exact absurd h (hr s)
      · simp at h
    · refine ih (i + 1) vec done s (by omega) hdl hd ?_ h
      intro k hk
      rcases Nat.lt_succ_iff_lt_or_eq.1 hk with hk | rfl
      · exact hi k hk
      · refine hd k ?_
        cases hc : done.getD k false with
        | false => exact absurd hc hdone
        | true => rfl

/-- **C35**, the converse: for an index vector as long as the data, the call ends without an
out-of-range access exactly for the permutations of the indices. -/
theorem C35_returns_iff (perm : List ℕ) (v : List α) (hlen : perm.length = v.length) :
    (∃ fuel r, applyPermutation perm fuel v = some (.ok r)) ↔ perm.Perm (List.range v.length) := by
  constructor
  · rintro ⟨fuel, r, h⟩
    unfold applyPermutation at h
    split at h
    · rename_i s hs
      have hall := applyLoop_image perm fuel v.length v.length 0 v (List.replicate v.length false) s
        (by omega) (by simp)
        (by
          intro k hk
          exfalso
          rw [List.getD, List.getElem?_replicate] at hk
          split_ifs at hk <;> simp at hk)
        (by intro k hk; omega) hs
      have hsub : List.range v.length ⊆ perm := fun k hk => hall k (List.mem_range.1 hk)
      have hsp : List.Subperm (List.range v.length) perm := List.subperm_of_subset List.nodup_range hsub
      exact (hsp.perm_of_length_le (by rw [List.length_range, hlen])).symm
    all_goals simp at h
  · intro h
    obtain ⟨r, hr, -⟩ := C35_permutes perm v h v.length (by omega)
    exact ⟨_, r, hr⟩

/-- **C35**: an index vector with all entries in range that is not a permutation makes the call run
for ever. -/
theorem C35_never_ends (perm : List ℕ) (v : List α) (hlen : perm.length = v.length)
    (hrange : ∀ k ∈ perm, k < v.length) (hnot : ¬ perm.Perm (List.range v.length)) (fuel : ℕ) :
    applyPermutation perm fuel v = none := by
  -- no out-of-range access is possible
  have hwalk : ∀ (i fuel prev j : ℕ) (vec : List α) (done : List Bool), vec.length = v.length →
      prev < v.length → j < v.length →
      (∃ s, cycleWalk perm i fuel prev j (vec, done) = some (.ok s) ∧ s.1.length = v.length) ∨
        cycleWalk perm i fuel prev j (vec, done) = none := by
    intro i fuel
    induction fuel with
    | zero =>
      intro prev j vec done hl hp hj
      rw [cycleWalk]
      split_ifs
      · exact Or.inl ⟨_, rfl, hl⟩
      · exact Or.inr rfl
    | succ fuel ih =>
      intro prev j vec done hl hp hj
      rw [cycleWalk]
      split_ifs
      · exact Or.inl ⟨_, rfl, hl⟩
      · simp only [List.getElem?_eq_getElem (show prev < vec.length by omega),
          List.getElem?_eq_getElem (show j < vec.length by omega),
          List.getElem?_eq_getElem (show j < perm.length by omega)]
        exact ih j perm[j] _ _ (by simpa using hl) hj (hrange _ (List.getElem_mem _))
  have hloop : ∀ (left i : ℕ) (vec : List α) (done : List Bool), i + left = v.length →
      vec.length = v.length →
      (∃ s, applyLoop perm fuel left i (vec, done) = some (.ok s)) ∨
        applyLoop perm fuel left i (vec, done) = none := by
    intro left
    induction left with
    | zero => intro i vec done _ _; exact Or.inl ⟨_, rfl⟩
    | succ left ih =>
      intro i vec done hil hl
      rw [applyLoop]
      split_ifs
      · simp only [List.getElem?_eq_getElem (show i < perm.length by omega)]
        rcases hwalk i fuel i perm[i] vec (done.set i true) hl (by omega)
          (hrange _ (List.getElem_mem _)) with ⟨s, hs, hsl⟩ | hs
        · rw [hs]; exact ih (i + 1) s.1 s.2 (by omega) hsl
        · rw [hs]; exact Or.inr rfl
      · exact ih (i + 1) vec done (by omega) hl
  rcases hloop v.length 0 v (List.replicate v.length false) (by omega) rfl with ⟨s, hs⟩ | hs
  · exfalso
    refine hnot ((C35_returns_iff perm v hlen).1 ⟨fuel, s.1, ?_⟩)
    unfold applyPermutation
    rw [hs]
  · unfold applyPermutation
    rw [hs]

end

example : ([2, 0, 1, 4, 3] : List ℕ).Perm (List.range ["a", "b", "c", "d", "e"].length) ∧
    applyPermutation [2, 0, 1, 4, 3] 5 ["a", "b", "c", "d", "e"]
      = some (.ok ["c", "a", "b", "e", "d"]) := by
  refine ⟨by decide, by decide⟩

example (fuel : ℕ) : applyPermutation [1, 1] fuel ["a", "b"] = none :=
  C35_never_ends [1, 1] ["a", "b"] rfl (by decide) (by decide) fuel

example : applyPermutation [5, 1] 3 ["a", "b"] = some (.ub "vec[j]") := by decide

end Mfmg
