import Verif.Examples.Pairs

/-!
# Example: the difference matrix `tridiag(-1, 2, -1)` with pairs of neighbours as coarse unknowns

Its condition number grows with the square of the number of unknowns.
-/

set_option autoImplicit false

namespace Mfmg

section

variable {K : Type} [Field K]

/-- The values of a vector, with zeros at both ends. -/
def withEnds {n : ℕ} (e : Fin n → K) : ℕ → K
  | 0 => 0
  | i + 1 => if h : i < n then e ⟨i, h⟩ else 0

theorem withEnds_val {n : ℕ} (e : Fin n → K) (i : Fin n) : withEnds e (i.val + 1) = e i := by
  simp [withEnds]

/-- One row. -/
theorem laplace_row {n : ℕ} (e : Fin n → K) (i : Fin n) : (pairMatrix n (0 : K)).mulVec e i
    = 2 * withEnds e (i.val + 1) - withEnds e i.val - withEnds e (i.val + 2) := by
  rw [Matrix.mulVec, dotProduct]
  have h1 : ∀ j, pairMatrix n (0 : K) i j * e j = (if j = i then 2 * e j else 0)
      - (if j.val + 1 = i.val then e j else 0) - (if j.val = i.val + 1 then e j else 0) := by
    intro j
    simp only [pairMatrix, Matrix.of_apply]
    by_cases h : i = j
    · subst h
      simp
    · have hji : ¬ j = i := fun h' => h h'.symm
      rw [if_neg h, if_neg hji]
      by_cases h2 : i.val + 1 = j.val
      · have h3 : ¬ j.val + 1 = i.val := by omega
        rw [if_pos (Or.inl h2), if_neg h3, if_pos h2.symm]
        ring
      · have h2' : ¬ j.val = i.val + 1 := fun h' => h2 h'.symm
        by_cases h3 : j.val + 1 = i.val
        · rw [if_pos (Or.inr h3), if_pos h3, if_neg h2']
          ring
        · rw [if_neg (by tauto), if_neg h3, if_neg h2']
          ring
  rw [Finset.sum_congr rfl fun j _ => h1 j, Finset.sum_sub_distrib, Finset.sum_sub_distrib]
  congr 1
  · congr 1
    · rw [Finset.sum_ite_eq' Finset.univ i, if_pos (Finset.mem_univ i), withEnds_val]
    · by_cases h : i.val = 0
      · rw [h]
        simp [withEnds]
      · have hi := i.isLt
        rw [Finset.sum_eq_single (⟨i.val - 1, by omega⟩ : Fin n)]
        · have : i.val - 1 + 1 = i.val := by omega
          rw [if_pos this, ← withEnds_val e ⟨i.val - 1, by omega⟩]
          simp only [this]
        · intro j _ hj
          rw [if_neg]
          intro h'
          exact hj (Fin.ext (by simp only []; omega))
        · intro h'
          exact absurd (Finset.mem_univ _) h'
  · by_cases h : i.val + 1 < n
    · rw [Finset.sum_eq_single (⟨i.val + 1, h⟩ : Fin n)]
      · rw [if_pos rfl, ← withEnds_val e ⟨i.val + 1, h⟩]
      · intro j _ hj
        rw [if_neg]
        intro h'
        exact hj (Fin.ext h')
      · intro h'
        exact absurd (Finset.mem_univ _) h'
    · rw [show withEnds e (i.val + 2) = 0 by simp [withEnds, h]]
      apply Finset.sum_eq_zero
      intro j _
      rw [if_neg (by have := j.isLt; omega)]

/-- Summation by parts. -/
theorem laplace_parts (f : ℕ → K) (h0 : f 0 = 0) (n : ℕ) :
    ∑ i ∈ Finset.range n, f (i + 1) * (2 * f (i + 1) - f i - f (i + 2))
      = (∑ i ∈ Finset.range n, (f (i + 1) - f i) * (f (i + 1) - f i)) - f n * (f (n + 1) - f n) := by
  induction n with
  | zero => simp [h0]
  | succ n ih =>
    rw [Finset.sum_range_succ, Finset.sum_range_succ, ih]
    ring

/-- The energy is the sum of the squares of all differences. -/
theorem laplace_energy {n : ℕ} (e : Fin n → K) : energyOf (pairMatrix n (0 : K)) e
    = ∑ i ∈ Finset.range (n + 1), (withEnds e (i + 1) - withEnds e i) * (withEnds e (i + 1) - withEnds e i) := by
  have h1 : energyOf (pairMatrix n (0 : K)) e = ∑ i ∈ Finset.range n, withEnds e (i + 1)
      * (2 * withEnds e (i + 1) - withEnds e i - withEnds e (i + 2)) := by
    rw [energyOf, dotProduct, Finset.sum_range fun i => withEnds e (i + 1)
      * (2 * withEnds e (i + 1) - withEnds e i - withEnds e (i + 2))]
    apply Finset.sum_congr rfl
    intro i _
    rw [laplace_row, withEnds_val]
  rw [h1, laplace_parts _ rfl, Finset.sum_range_succ, show withEnds e (n + 1) = 0 by simp [withEnds]]
  ring

variable [LinearOrder K] [IsStrictOrderedRing K]

theorem laplace_spd (n : ℕ) : IsSpd (pairMatrix n (0 : K)) := by
  refine ⟨pair_symm n 0, fun v hv => ?_⟩
  have h := laplace_energy v
  have hnn : ∀ i ∈ Finset.range (n + 1), 0 ≤ (withEnds v (i + 1) - withEnds v i) * (withEnds v (i + 1) - withEnds v i) :=
    fun i _ => mul_self_nonneg _
  by_contra hle
  have hzero : ∑ i ∈ Finset.range (n + 1), (withEnds v (i + 1) - withEnds v i) * (withEnds v (i + 1) - withEnds v i) = 0 := by
    refine le_antisymm ?_ (Finset.sum_nonneg hnn)
    rw [← h]
    exact not_lt.1 hle
  have hstep : ∀ i, i < n + 1 → withEnds v (i + 1) = withEnds v i := by
    intro i hi
    have := (Finset.sum_eq_zero_iff_of_nonneg hnn).1 hzero i (Finset.mem_range.2 hi)
    exact sub_eq_zero.1 (mul_self_eq_zero.1 this)
  have hall : ∀ i, i ≤ n → withEnds v i = 0 := by
    intro i
    induction i with
    | zero => intro _; rfl
    | succ i ih => intro hi; rw [hstep i (by omega), ih (by omega)]
  apply hv
  funext i
  rw [← withEnds_val v i]
  exact hall _ i.isLt

omit [LinearOrder K] [IsStrictOrderedRing K] in
theorem sum_range_pairs (f : ℕ → K) (m : ℕ) :
    ∑ i ∈ Finset.range (2 * m), f i = ∑ k ∈ Finset.range m, (f (2 * k) + f (2 * k + 1)) := by
  induction m with
  | zero => simp
  | succ m ih =>
    rw [show 2 * (m + 1) = 2 * m + 1 + 1 by ring, Finset.sum_range_succ, Finset.sum_range_succ,
      Finset.sum_range_succ _ m, ih]
    ring

/-- Pairs of neighbours approximate every error with constant 1, for every number of unknowns. -/
theorem laplace_approximates (m : ℕ) :
    Approximates (pairR (K := K) m 2 0) (pairMatrix (pairDims m 2 0) (0 : K)) 1 := by
  intro e
  have hdim : pairDims m 2 0 = 2 * pairDims m 2 1 := pairDims_fine (by norm_num)
  set f := withEnds e with hf
  refine ⟨fun k => (f (2 * k.val + 1) + f (2 * k.val + 2)) / 2, ?_⟩
  set y : ℕ → K := fun k => (f (2 * k + 1) + f (2 * k + 2)) / 2 with hy
  have hpro : ∀ i : Fin (pairDims m 2 0), (pairR (K := K) m 2 0).transpose.mulVec
      (fun k => (f (2 * k.val + 1) + f (2 * k.val + 2)) / 2) i = y (i.val / 2) := by
    intro i
    have hi := i.isLt
    rw [Matrix.mulVec, dotProduct, Finset.sum_eq_single (⟨i.val / 2, by change i.val / 2 < pairDims m 2 1; omega⟩ : Fin (pairDims m 2 (0 + 1)))]
    · simp [pairR, hy]
    · intro k _ hk
      have : ¬ i.val / 2 = k.val := fun h => hk (Fin.ext h.symm)
      simp [pairR, this]
    · intro h'
      exact absurd (Finset.mem_univ _) h'
  have hterm : ∀ i : Fin (pairDims m 2 0), pairMatrix (pairDims m 2 0) (0 : K) i i
      * ((e - (pairR (K := K) m 2 0).transpose.mulVec
          fun k => (f (2 * k.val + 1) + f (2 * k.val + 2)) / 2) i
        * (e - (pairR (K := K) m 2 0).transpose.mulVec
          fun k => (f (2 * k.val + 1) + f (2 * k.val + 2)) / 2) i)
      = 2 * ((f (i.val + 1) - y (i.val / 2)) * (f (i.val + 1) - y (i.val / 2))) := by
    intro i
    rw [Pi.sub_apply, hpro, hf, withEnds_val]
    simp [pairMatrix]
  rw [Finset.sum_congr rfl fun i _ => hterm i,
    ← Finset.sum_range fun i => 2 * ((f (i + 1) - y (i / 2)) * (f (i + 1) - y (i / 2))), one_mul, laplace_energy,
    ← hf, hdim, sum_range_pairs, Finset.sum_range_succ', sum_range_pairs]
  have h0 : 0 ≤ (f (0 + 1) - f 0) * (f (0 + 1) - f 0) := mul_self_nonneg _
  refine le_trans (Finset.sum_le_sum fun k _ => ?_) (le_add_of_nonneg_right h0)
  have e1 : 2 * k / 2 = k := by omega
  have e2 : (2 * k + 1) / 2 = k := by omega
  rw [e1, e2, hy]
  have h1 : 0 ≤ (f (2 * k + 1 + 1 + 1) - f (2 * k + 1 + 1)) * (f (2 * k + 1 + 1 + 1) - f (2 * k + 1 + 1)) :=
    mul_self_nonneg _
  refine le_trans (le_of_eq ?_) (le_add_of_nonneg_right h1)
  ring

end

end Mfmg
