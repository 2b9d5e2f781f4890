import Verif.Lemmas.MultiLevel

/-!
# Example: a chain coarsened by pairs

`m * 2 ^ (L - 1)` unknowns in a row, the matrix `c I + tridiag(-1, 2, -1)`, `L` levels, each of which joins
pairs of neighbours of the level before.
-/

set_option autoImplicit false

namespace Mfmg

variable {K : Type} [Field K]

/-- The matrix `c I + tridiag(-1, 2, -1)`. -/
def pairMatrix (n : ℕ) (c : K) : Matrix (Fin n) (Fin n) K := Matrix.of fun i j =>
  if i = j then c + 2 else if i.val + 1 = j.val ∨ j.val + 1 = i.val then -1 else 0

/-- The number of unknowns of level `l`. -/
def pairDims (m L l : ℕ) : ℕ := m * 2 ^ (L - 1 - l)

/-- Every row joins two neighbours; below the coarsest level the identity. -/
def pairR (m L l : ℕ) : Matrix (Fin (pairDims m L (l + 1))) (Fin (pairDims m L l)) K := Matrix.of fun i j =>
  if l + 1 < L then (if j.val / 2 = i.val then 1 else 0) else if j.val = i.val then 1 else 0

theorem pairDims_fine {m L l : ℕ} (h : l + 1 < L) : pairDims m L l = 2 * pairDims m L (l + 1) := by
  unfold pairDims
  rw [show L - 1 - l = (L - 1 - (l + 1)) + 1 by omega, pow_succ]
  ring

theorem pairDims_coarse {m L l : ℕ} (h : ¬ l + 1 < L) : pairDims m L l = pairDims m L (l + 1) := by
  unfold pairDims
  rw [show L - 1 - l = 0 by omega, show L - 1 - (l + 1) = 0 by omega]

/-- A sum over the two members of a pair. -/
theorem sum_pair {n k : ℕ} (hn : n = 2 * k) (i : Fin k) (f : Fin n → K) :
    ∑ a : Fin n, (if a.val / 2 = i.val then 1 else 0) * f a
      = f ⟨2 * i.val, by omega⟩ + f ⟨2 * i.val + 1, by omega⟩ := by
  have hne : (⟨2 * i.val, by omega⟩ : Fin n) ≠ ⟨2 * i.val + 1, by omega⟩ := by
    intro h
    have := Fin.mk.inj h
    omega
  rw [← Finset.sum_subset (Finset.subset_univ {(⟨2 * i.val, by omega⟩ : Fin n), ⟨2 * i.val + 1, by omega⟩}),
    Finset.sum_pair hne]
  · have h1 : 2 * i.val / 2 = i.val := by omega
    have h2 : (2 * i.val + 1) / 2 = i.val := by omega
    simp [h1, h2]
  · intro a _ ha
    have : ¬ a.val / 2 = i.val := by
      intro h
      apply ha
      rw [Finset.mem_insert, Finset.mem_singleton]
      rcases Nat.mod_two_eq_zero_or_one a.val with h0 | h0
      · left; apply Fin.ext; dsimp only; omega
      · right; apply Fin.ext; dsimp only; omega
    simp [this]

theorem pair_galerkin {m L l : ℕ} (h : l + 1 < L) (c : K) :
    galerkin (pairR m L l) (pairMatrix (pairDims m L l) c) = pairMatrix (pairDims m L (l + 1)) (2 * c) := by
  have hd := pairDims_fine (m := m) h
  ext i j
  set Q := pairR (K := K) m L l with hQ
  have hq : ∀ i a, Q i a = if a.val / 2 = i.val then 1 else 0 := by
    intro i a
    simp only [hQ, pairR, Matrix.of_apply, if_pos h]
  have e1 : ∀ b, (Q * pairMatrix (pairDims m L l) c) i b
      = pairMatrix (pairDims m L l) c ⟨2 * i.val, by omega⟩ b
        + pairMatrix (pairDims m L l) c ⟨2 * i.val + 1, by omega⟩ b := by
    intro b
    rw [Matrix.mul_apply, ← sum_pair hd i fun a => pairMatrix (pairDims m L l) c a b]
    apply Finset.sum_congr rfl
    intro a _
    rw [hq]
  rw [galerkin, Matrix.mul_apply]
  have e2 : ∑ b, (Q * pairMatrix (pairDims m L l) c) i b * Q.transpose b j
      = ∑ b : Fin (pairDims m L l), (if b.val / 2 = j.val then 1 else 0)
        * (Q * pairMatrix (pairDims m L l) c) i b := by
    apply Finset.sum_congr rfl
    intro b _
    rw [Matrix.transpose_apply, hq, mul_comm]
  rw [e2, sum_pair hd j, e1, e1]
  have d : ∀ {n : ℕ} (c : K) (i j : Fin n), i.val = j.val → pairMatrix n c i j = c + 2 := by
    intro n c i j h
    simp only [pairMatrix, Matrix.of_apply]
    rw [if_pos (Fin.ext h)]
  have o : ∀ {n : ℕ} (c : K) (i j : Fin n), (i.val + 1 = j.val ∨ j.val + 1 = i.val) →
      pairMatrix n c i j = -1 := by
    intro n c i j h
    have h' : ¬ i = j := by
      rintro rfl
      omega
    simp only [pairMatrix, Matrix.of_apply]
    rw [if_neg h', if_pos h]
  have z : ∀ {n : ℕ} (c : K) (i j : Fin n), i.val ≠ j.val → i.val + 1 ≠ j.val → j.val + 1 ≠ i.val →
      pairMatrix n c i j = 0 := by
    intro n c i j h h1 h2
    have h' : ¬ i = j := fun e => h (congrArg Fin.val e)
    simp only [pairMatrix, Matrix.of_apply]
    rw [if_neg h', if_neg (by omega)]
  by_cases h1 : i.val = j.val
  · rw [d _ _ _ (show 2 * i.val = 2 * j.val by omega), o _ _ _ (Or.inr (show 2 * j.val + 1 = 2 * i.val + 1 by omega)),
      o _ _ _ (Or.inl (show 2 * i.val + 1 = 2 * j.val + 1 by omega)),
      d _ _ _ (show 2 * i.val + 1 = 2 * j.val + 1 by omega), d _ _ _ h1]
    ring
  by_cases h2 : i.val + 1 = j.val
  · rw [z _ _ _ (show 2 * i.val ≠ 2 * j.val by omega) (show 2 * i.val + 1 ≠ 2 * j.val by omega)
        (show 2 * j.val + 1 ≠ 2 * i.val by omega),
      o _ _ _ (Or.inl (show 2 * i.val + 1 + 1 = 2 * j.val by omega)),
      z _ _ _ (show 2 * i.val ≠ 2 * j.val + 1 by omega) (show 2 * i.val + 1 ≠ 2 * j.val + 1 by omega)
        (show 2 * j.val + 1 + 1 ≠ 2 * i.val by omega),
      z _ _ _ (show 2 * i.val + 1 ≠ 2 * j.val + 1 by omega) (show 2 * i.val + 1 + 1 ≠ 2 * j.val + 1 by omega)
        (show 2 * j.val + 1 + 1 ≠ 2 * i.val + 1 by omega), o _ _ _ (Or.inl h2)]
    ring
  by_cases h3 : j.val + 1 = i.val
  · rw [z _ _ _ (show 2 * i.val ≠ 2 * j.val by omega) (show 2 * i.val + 1 ≠ 2 * j.val by omega)
        (show 2 * j.val + 1 ≠ 2 * i.val by omega),
      z _ _ _ (show 2 * i.val + 1 ≠ 2 * j.val by omega) (show 2 * i.val + 1 + 1 ≠ 2 * j.val by omega)
        (show 2 * j.val + 1 ≠ 2 * i.val + 1 by omega),
      o _ _ _ (Or.inr (show 2 * j.val + 1 + 1 = 2 * i.val by omega)),
      z _ _ _ (show 2 * i.val + 1 ≠ 2 * j.val + 1 by omega) (show 2 * i.val + 1 + 1 ≠ 2 * j.val + 1 by omega)
        (show 2 * j.val + 1 + 1 ≠ 2 * i.val + 1 by omega), o _ _ _ (Or.inr h3)]
    ring
  rw [z _ _ _ (show 2 * i.val ≠ 2 * j.val by omega) (show 2 * i.val + 1 ≠ 2 * j.val by omega)
        (show 2 * j.val + 1 ≠ 2 * i.val by omega),
      z _ _ _ (show 2 * i.val + 1 ≠ 2 * j.val by omega) (show 2 * i.val + 1 + 1 ≠ 2 * j.val by omega)
        (show 2 * j.val + 1 ≠ 2 * i.val + 1 by omega),
      z _ _ _ (show 2 * i.val ≠ 2 * j.val + 1 by omega) (show 2 * i.val + 1 ≠ 2 * j.val + 1 by omega)
        (show 2 * j.val + 1 + 1 ≠ 2 * i.val by omega),
      z _ _ _ (show 2 * i.val + 1 ≠ 2 * j.val + 1 by omega) (show 2 * i.val + 1 + 1 ≠ 2 * j.val + 1 by omega)
        (show 2 * j.val + 1 + 1 ≠ 2 * i.val + 1 by omega), z _ _ _ h1 h2 h3]
  ring

theorem pair_coarse (m L : ℕ) (c : K) (l : ℕ) (hl : l < L) :
    coarseMatrix (pairDims m L) (pairMatrix (pairDims m L 0) c) (pairR m L) l
      = pairMatrix (pairDims m L l) (2 ^ l * c) := by
  induction l with
  | zero => simp [coarseMatrix]
  | succ l ih =>
    rw [coarseMatrix, ih (by omega), pair_galerkin hl, ← mul_assoc, ← pow_succ']

theorem pairR_independent (m L l : ℕ) : IndependentRows (pairR (K := K) m L l) := by
  intro y hy
  funext i
  by_cases h : l + 1 < L
  · have hd := pairDims_fine (m := m) h
    have := congrFun hy ⟨2 * i.val, by omega⟩
    rw [Matrix.mulVec, dotProduct, Finset.sum_eq_single i] at this
    · simpa [pairR, h] using this
    · intro j _ hj
      have : ¬ i.val = j.val := fun h => hj (Fin.ext h.symm)
      simp [pairR, h, this]
    · intro h
      exact absurd (Finset.mem_univ i) h
  · have hd := pairDims_coarse (m := m) h
    have := congrFun hy ⟨i.val, by omega⟩
    rw [Matrix.mulVec, dotProduct, Finset.sum_eq_single i] at this
    · simpa [pairR, h] using this
    · intro j _ hj
      have : ¬ i.val = j.val := fun h => hj (Fin.ext h.symm)
      simp [pairR, h, this]
    · intro h
      exact absurd (Finset.mem_univ i) h

theorem pair_perRow [DecidableEq K] (n : ℕ) (c : K) : AtMostPerRow (pairMatrix n c) 3 := by
  intro i
  have hsub : (Finset.univ.filter fun j => pairMatrix n c i j ≠ 0).image Fin.val
      ⊆ {i.val - 1, i.val, i.val + 1} := by
    intro k hk
    obtain ⟨j, hj, rfl⟩ := Finset.mem_image.1 hk
    have hne := (Finset.mem_filter.1 hj).2
    simp only [Finset.mem_insert, Finset.mem_singleton]
    by_contra hcon
    push Not at hcon
    apply hne
    have h1 : ¬ i = j := fun h => hcon.2.1 (by rw [h])
    have h2 : ¬ (i.val + 1 = j.val ∨ j.val + 1 = i.val) := by
      rintro (h | h)
      · exact hcon.2.2 h.symm
      · exact hcon.1 (by omega)
    simp only [pairMatrix, Matrix.of_apply]
    rw [if_neg h1, if_neg h2]
  rw [← Finset.card_image_of_injective _ Fin.val_injective]
  exact (Finset.card_le_card hsub).trans Finset.card_le_three

theorem pair_symm (n : ℕ) (c : K) : (pairMatrix n c).transpose = pairMatrix n c := by
  ext i j
  simp only [pairMatrix, Matrix.transpose_apply, Matrix.of_apply, eq_comm (a := j) (b := i)]
  by_cases h : i = j
  · rw [if_pos h, if_pos h]; 
  · rw [if_neg h, if_neg h]
    congr 1
    exact propext or_comm

variable [LinearOrder K] [IsStrictOrderedRing K]

theorem pair_energy (n : ℕ) (c : K) (e : Fin n → K) :
    c * ∑ i, e i * e i ≤ energyOf (pairMatrix n c) e := by
  set adj : Fin n → Fin n → Prop := fun i j => i.val + 1 = j.val ∨ j.val + 1 = i.val with hadj
  have hdec : ∀ i j, Decidable (adj i j) := fun i j => inferInstanceAs (Decidable (_ ∨ _))
  have hcard : ∀ i, ((Finset.univ.filter fun j => adj i j).card : K) ≤ 2 := by
    intro i
    have hsub : (Finset.univ.filter fun j => adj i j).image Fin.val ⊆ {i.val - 1, i.val + 1} := by
      intro k hk
      obtain ⟨j, hj, rfl⟩ := Finset.mem_image.1 hk
      have h := (Finset.mem_filter.1 hj).2
      simp only [Finset.mem_insert, Finset.mem_singleton]
      rcases h with h | h <;> omega
    have h1 : (Finset.univ.filter fun j => adj i j).card ≤ 2 := by
      rw [← Finset.card_image_of_injective _ Fin.val_injective]
      exact (Finset.card_le_card hsub).trans Finset.card_le_two
    exact_mod_cast h1
  have hex : energyOf (pairMatrix n c) e = (c + 2) * ∑ i, e i * e i
      - ∑ i, ∑ j, if adj i j then e i * e j else 0 := by
    rw [energyOf, dotProduct, Finset.mul_sum, ← Finset.sum_sub_distrib]
    apply Finset.sum_congr rfl
    intro i _
    rw [Matrix.mulVec, dotProduct, Finset.mul_sum]
    have : ∀ j, e i * (pairMatrix n c i j * e j)
        = (if j = i then (c + 2) * (e i * e i) else 0) - if adj i j then e i * e j else 0 := by
      intro j
      simp only [pairMatrix, Matrix.of_apply]
      by_cases h : i = j
      · subst h
        have : ¬ adj i i := by rintro (h | h) <;> omega
        rw [if_pos rfl, if_pos rfl, if_neg this]
        ring
      · have h' : ¬ j = i := fun h' => h h'.symm
        rw [if_neg h, if_neg h']
        by_cases h2 : adj i j
        · rw [if_pos h2, if_pos h2]; ring
        · rw [if_neg h2, if_neg h2]; ring
    rw [Finset.sum_congr rfl fun j _ => this j, Finset.sum_sub_distrib]
    simp
  have hb : ∑ i, ∑ j, (if adj i j then e i * e j else 0) ≤ 2 * ∑ i, e i * e i := by
    have h1 : ∑ i, ∑ j, (if adj i j then e i * e j else 0)
        ≤ ∑ i, ∑ j, ((if adj i j then e i * e i else 0) + if adj i j then e j * e j else 0) / 2 := by
      apply Finset.sum_le_sum
      intro i _
      apply Finset.sum_le_sum
      intro j _
      split_ifs
      · nlinarith [mul_self_nonneg (e i - e j)]
      · simp
    have h2 : ∑ i, ∑ j, (if adj i j then e j * e j else 0) = ∑ i, ∑ j, if adj i j then e i * e i else 0 := by
      rw [Finset.sum_comm]
      apply Finset.sum_congr rfl
      intro j _
      apply Finset.sum_congr rfl
      intro i _
      have : adj i j ↔ adj j i := or_comm
      simp only [this]
    have h3 : ∑ i, ∑ j, (if adj i j then e i * e i else 0) ≤ 2 * ∑ i, e i * e i := by
      rw [Finset.mul_sum]
      apply Finset.sum_le_sum
      intro i _
      rw [← Finset.sum_filter, Finset.sum_const, nsmul_eq_mul]
      exact mul_le_mul_of_nonneg_right (hcard i) (mul_self_nonneg _)
    have h4 : ∑ i, ∑ j, ((if adj i j then e i * e i else 0) + if adj i j then e j * e j else 0) / 2
        = (∑ i, ∑ j, (if adj i j then e i * e i else 0) + ∑ i, ∑ j, if adj i j then e j * e j else 0) / 2 := by
      simp only [div_eq_mul_inv, ← Finset.sum_mul, ← Finset.sum_add_distrib]
    rw [h4, h2] at h1
    linarith
  rw [hex]
  linarith

theorem pair_spd (n : ℕ) (c : K) (hc : 0 < c) : IsSpd (pairMatrix n c) := by
  refine ⟨pair_symm n c, ?_⟩
  intro v hv
  refine lt_of_lt_of_le ?_ (pair_energy n c v)
  apply mul_pos hc
  obtain ⟨i, hi⟩ := Function.ne_iff.1 hv
  exact Finset.sum_pos' (fun j _ => mul_self_nonneg _) ⟨i, Finset.mem_univ i, mul_self_pos.2 hi⟩

/-- If the energy is at least a share of the diagonal, every restriction approximates strongly. -/
theorem strong_of_diagonal {m n : ℕ} (R : Matrix (Fin m) (Fin n) K) (A : Matrix (Fin n) (Fin n) K)
    (hA : IsSpd A) (kappa : K) (h : ∀ e, ∑ i, A i i * (e i * e i) ≤ kappa * energyOf A e) :
    StronglyApproximates R A kappa := by
  intro e
  refine ⟨0, ?_⟩
  rw [Matrix.mulVec_zero, sub_zero]
  have h1 := weighted_cauchy (fun i => A i i) (A.mulVec e) e (fun i => diag_pos hA i)
  have h2 : A.mulVec e ⬝ᵥ e = energyOf A e := dotProduct_comm _ _
  rw [h2] at h1
  set ρ := ∑ i, A.mulVec e i * A.mulVec e i / A i i with hρ
  have hρ0 : 0 ≤ ρ := diag_inv_sum_nonneg hA Finset.univ (A.mulVec e)
  by_cases he : e = 0
  · subst he
    have : energyOf A (0 : Fin n → K) = 0 := by simp [energyOf]
    rw [this, hρ]
    simp
  · have hpos : 0 < energyOf A e := hA.2 e he
    have h3 := h1.trans (mul_le_mul_of_nonneg_left (h e) hρ0)
    apply le_of_mul_le_mul_right _ hpos
    linarith

/-- The energy is at least a third of the diagonal. -/
theorem pair_diagonal (n l : ℕ) (e : Fin n → K) :
    ∑ i, pairMatrix n (2 ^ l * 1 : K) i i * (e i * e i) ≤ 3 * energyOf (pairMatrix n (2 ^ l * 1)) e := by
  have hp : (1 : K) ≤ 2 ^ l := one_le_pow₀ (by norm_num)
  have h1 := pair_energy n (2 ^ l * 1 : K) e
  have h2 : ∑ i, pairMatrix n (2 ^ l * 1 : K) i i * (e i * e i)
      = (2 ^ l * 1 + 2) * ∑ i, e i * e i := by
    rw [Finset.mul_sum]
    apply Finset.sum_congr rfl
    intro i _
    simp [pairMatrix]
  rw [h2]
  have h3 : (0 : K) ≤ ∑ i, e i * e i := Finset.sum_nonneg fun i _ => mul_self_nonneg _
  nlinarith

theorem pair_strong (m L l : ℕ) :
    StronglyApproximates (pairR (K := K) m L l) (pairMatrix (pairDims m L l) (2 ^ l * 1)) 3 := by
  have hp : (1 : K) ≤ 2 ^ l := one_le_pow₀ (by norm_num)
  exact strong_of_diagonal _ _ (pair_spd _ _ (by linarith)) 3 fun e => pair_diagonal _ l e

end Mfmg
