import Verif.Examples.Laplace
import Verif.Lemmas.Numbering

/-!
# Example: alternating errors of the difference matrix

One row on every process makes all smoothers the division by the diagonal, which hardly changes alternating
errors, and neither do the coarse vectors.
-/

set_option autoImplicit false

namespace Mfmg

open Spec

section

variable {K : Type} [Field K]

/-- One row on every process: every smoother divides by the diagonal. -/
theorem relaxVmult_oneRow {n : ℕ} (kind : Relaxation) (A : Matrix (Fin n) (Fin n) K) (hd : ∀ i, A i i ≠ 0)
    (r : Fin n → K) : relaxVmult kind A (oneRowEach n) r = fun i => r i / A i i := by
  funext i
  have ho : [i] ∈ oneRowEach n := List.mem_map.2 ⟨i, List.mem_finRange i, rfl⟩
  rw [relaxVmult_own kind A (oneRowEach_all n) r ho (by simp)]
  have h := hd i
  cases kind
  · simp only [localVmult, List.reverse_singleton, List.singleton_append, List.foldl_cons, List.foldl_nil,
      relaxRow, List.map_cons, List.map_nil, List.sum_cons, List.sum_nil, add_zero, Function.update_self,
      Pi.zero_apply, mul_zero, sub_zero, zero_add]
    rw [mul_div_cancel₀ _ h, sub_self, zero_div, add_zero]
  · simp [localVmult, relaxRow]
  · simp [localVmult]

/-- The absolute values of the alternating error after `k` smoothing steps, with zeros at both ends. -/
def alternatingSize (K : Type) [Field K] (n : ℕ) : ℕ → ℕ → K
  | 0, i => if 1 ≤ i ∧ i ≤ n then 1 else 0
  | k + 1, i => if 1 ≤ i ∧ i ≤ n then (alternatingSize K n k (i - 1) + alternatingSize K n k (i + 1)) / 2 else 0

theorem alternatingSize_off (n k i : ℕ) (h : ¬ (1 ≤ i ∧ i ≤ n)) : alternatingSize K n k i = 0 := by
  cases k <;> simp [alternatingSize, h]

/-- The alternating error. -/
def alternating (K : Type) [Field K] (n : ℕ) : Fin n → K := fun i => (-1) ^ i.val

/-- One step of division by the diagonal. -/
theorem laplace_jacobi {n : ℕ} [CharZero K] (v : Fin n → K) (i : Fin n) :
    v i - (pairMatrix n (0 : K)).mulVec v i / pairMatrix n (0 : K) i i
      = (withEnds v i.val + withEnds v (i.val + 2)) / 2 := by
  have hd : pairMatrix n (0 : K) i i = 2 := by simp [pairMatrix]
  rw [laplace_row, hd, withEnds_val]
  have : (2 : K) ≠ 0 := two_ne_zero
  field_simp
  ring

/-- The alternating error after `k` steps. -/
theorem alternating_steps {n : ℕ} [CharZero K] (J : (Fin n → K) →ₗ[K] (Fin n → K))
    (hJ : ∀ v i, J v i = (withEnds v i.val + withEnds v (i.val + 2)) / 2) (k : ℕ) (i : Fin n) :
    (J ^ k) (alternating K n) i = (-1) ^ k * (-1) ^ i.val * alternatingSize K n k (i.val + 1) := by
  induction k generalizing i with
  | zero =>
    have := i.isLt
    simp [alternating, alternatingSize]
  | succ k ih =>
    have hend : ∀ t, withEnds ((J ^ k) (alternating K n)) t
        = - ((-1) ^ k * (-1) ^ t * alternatingSize K n k t) := by
      intro t
      rcases t with _ | t
      · rw [alternatingSize_off n k 0 (by omega), mul_zero, neg_zero]
        rfl
      · by_cases ht : t < n
        · rw [withEnds_val ((J ^ k) (alternating K n)) ⟨t, ht⟩, ih ⟨t, ht⟩]
          simp only []
          ring
        · rw [alternatingSize_off n k (t + 1) (by omega)]
          simp [withEnds, ht]
    have hi := i.isLt
    rw [pow_succ', Module.End.mul_apply, hJ, hend, hend]
    have : alternatingSize K n (k + 1) (i.val + 1)
        = (alternatingSize K n k i.val + alternatingSize K n k (i.val + 2)) / 2 := by
      rw [alternatingSize, if_pos ⟨by omega, by omega⟩]
      rfl
    rw [this]
    have h2 : (-1 : K) ^ (i.val + 2) = (-1) ^ i.val := by rw [pow_add]; norm_num
    rw [h2, pow_succ]
    ring

variable [LinearOrder K] [IsStrictOrderedRing K]

theorem alternatingSize_bounds (n k i : ℕ) :
    0 ≤ alternatingSize K n k i ∧ alternatingSize K n k i ≤ 1 := by
  induction k generalizing i with
  | zero =>
    rw [alternatingSize]
    split_ifs <;> norm_num
  | succ k ih =>
    rw [alternatingSize]
    split_ifs
    · have h1 := ih (i - 1)
      have h2 := ih (i + 1)
      constructor <;> linarith
    · norm_num

/-- A step takes at most one from the sum. -/
theorem alternatingSize_sum (n k : ℕ) :
    (n : K) - k ≤ ∑ i ∈ Finset.range n, alternatingSize K n k (i + 1) := by
  induction k with
  | zero =>
    apply le_of_eq
    have : ∀ i ∈ Finset.range n, alternatingSize K n 0 (i + 1) = 1 := by
      intro i hi
      have := Finset.mem_range.1 hi
      rw [alternatingSize, if_pos ⟨by omega, by omega⟩]
    rw [Finset.sum_congr rfl this]
    simp
  | succ k ih =>
    set g := alternatingSize K n k with hg
    have h1 : ∑ i ∈ Finset.range n, alternatingSize K n (k + 1) (i + 1)
        = (∑ i ∈ Finset.range n, g i + ∑ i ∈ Finset.range n, g (i + 2)) / 2 := by
      rw [← Finset.sum_add_distrib, Finset.sum_div]
      apply Finset.sum_congr rfl
      intro i hi
      have := Finset.mem_range.1 hi
      rw [alternatingSize, if_pos ⟨by omega, by omega⟩]
      rfl
    have h2 : ∑ i ∈ Finset.range n, g i = ∑ i ∈ Finset.range n, g (i + 1) - g n := by
      have e1 := Finset.sum_range_succ g n
      have e2 := Finset.sum_range_succ' g n
      have h0 : g 0 = 0 := alternatingSize_off n k 0 (by omega)
      linarith
    have h3 : ∑ i ∈ Finset.range n, g (i + 2) = ∑ i ∈ Finset.range n, g (i + 1) - g 1 := by
      have e1 := Finset.sum_range_succ (fun i => g (i + 1)) n
      have e2 := Finset.sum_range_succ' (fun i => g (i + 1)) n
      have h0 : g (n + 1) = 0 := alternatingSize_off n k (n + 1) (by omega)
      have e3 : ∑ i ∈ Finset.range n, g (i + 1 + 1) = ∑ i ∈ Finset.range n, g (i + 2) := rfl
      have e4 : g (0 + 1) = g 1 := rfl
      linarith
    have b1 := (alternatingSize_bounds (K := K) n k n).2
    have b2 := (alternatingSize_bounds (K := K) n k 1).2
    rw [h1, h2, h3]
    push_cast
    rw [← hg] at b1 b2
    linarith

/-- The energy of a vector of `2 m` entries from the differences inside of the pairs. -/
theorem laplace_pairs_energy (m : ℕ) (v : Fin (2 * m) → K) :
    (2 * m + 1) * ((∑ i : Fin (2 * m), (-1) ^ i.val * v i) * ∑ i : Fin (2 * m), (-1) ^ i.val * v i)
      ≤ m * (m + 1) * energyOf (pairMatrix (2 * m) (0 : K)) v := by
  rw [laplace_energy]
  set f := withEnds v with hf
  set W := ∑ i : Fin (2 * m), (-1 : K) ^ i.val * v i with hW
  have hW1 : W = - ∑ k ∈ Finset.range m, (f (2 * k + 2) - f (2 * k + 1)) := by
    have : W = ∑ i ∈ Finset.range (2 * m), (-1 : K) ^ i * f (i + 1) := by
      rw [hW, Finset.sum_range fun i => (-1 : K) ^ i * f (i + 1)]
      apply Finset.sum_congr rfl
      intro i _
      rw [hf, withEnds_val]
    rw [this, sum_range_pairs, ← Finset.sum_neg_distrib]
    apply Finset.sum_congr rfl
    intro k _
    rw [pow_succ, pow_mul]
    norm_num
    ring
  have hsplit : ∀ h : ℕ → K, ∑ i ∈ Finset.range (2 * m + 1), h i
      = ∑ k ∈ Finset.range (m + 1), h (2 * k) + ∑ k ∈ Finset.range m, h (2 * k + 1) := by
    intro h
    rw [Finset.sum_range_succ, sum_range_pairs, Finset.sum_add_distrib, Finset.sum_range_succ _ m]
    ring
  have htel : ∑ i ∈ Finset.range (2 * m + 1), (f (i + 1) - f i) = 0 := by
    rw [Finset.sum_range_sub f]
    have h1 : f (2 * m + 1) = 0 := by simp [hf, withEnds]
    have h0 : f 0 = 0 := rfl
    rw [h1, h0, sub_zero]
  rw [hsplit] at htel
  rw [hsplit fun i => (f (i + 1) - f i) * (f (i + 1) - f i)]
  have c1 := sq_sum_le_card_mul_sum_sq (s := Finset.range m) (f := fun k => f (2 * k + 2) - f (2 * k + 1))
  have c2 := sq_sum_le_card_mul_sum_sq (s := Finset.range (m + 1)) (f := fun k => f (2 * k + 1) - f (2 * k))
  have hb : ∑ k ∈ Finset.range (m + 1), (f (2 * k + 1) - f (2 * k)) = W := by
    rw [hW1]
    have e : ∑ k ∈ Finset.range m, (f (2 * k + 1 + 1) - f (2 * k + 1))
        = ∑ k ∈ Finset.range m, (f (2 * k + 2) - f (2 * k + 1)) := rfl
    rw [e] at htel
    linarith
  have ha : ∑ k ∈ Finset.range m, (f (2 * k + 2) - f (2 * k + 1)) = -W := by rw [hW1, neg_neg]
  simp only [ha, hb, Finset.card_range] at c1 c2
  have e1 : ∑ k ∈ Finset.range m, (f (2 * k + 2) - f (2 * k + 1)) ^ 2
      = ∑ k ∈ Finset.range m, (f (2 * k + 1 + 1) - f (2 * k + 1)) * (f (2 * k + 1 + 1) - f (2 * k + 1)) := by
    apply Finset.sum_congr rfl
    intro k _
    rw [sq]
  have e2 : ∑ k ∈ Finset.range (m + 1), (f (2 * k + 1) - f (2 * k)) ^ 2
      = ∑ k ∈ Finset.range (m + 1), (f (2 * k + 1) - f (2 * k)) * (f (2 * k + 1) - f (2 * k)) := by
    apply Finset.sum_congr rfl
    intro k _
    rw [sq]
  rw [e1] at c1
  rw [e2] at c2
  push_cast at c2
  have hm : (0 : K) ≤ m := Nat.cast_nonneg m
  have c1' := mul_le_mul_of_nonneg_left c1 (show (0 : K) ≤ m + 1 by linarith)
  have c2' := mul_le_mul_of_nonneg_left c2 hm
  nlinarith

/-- The energy of the alternating error. -/
theorem alternating_energy (m : ℕ) (hm : 0 < m) :
    energyOf (pairMatrix (2 * m) (0 : K)) (alternating K (2 * m)) = 8 * m - 2 := by
  rw [laplace_energy]
  set f := withEnds (alternating K (2 * m)) with hf
  have hin : ∀ i, i < 2 * m → f (i + 1) = (-1) ^ i := by
    intro i hi
    rw [hf, withEnds_val (alternating K (2 * m)) ⟨i, hi⟩]
    rfl
  obtain ⟨k, rfl⟩ : ∃ k, m = k + 1 := ⟨m - 1, by omega⟩
  have hlast : f (2 * (k + 1) + 1) = 0 := by simp [hf, withEnds]
  have h0 : f 0 = 0 := rfl
  rw [show 2 * (k + 1) + 1 = (2 * k + 1) + 1 + 1 by ring, Finset.sum_range_succ, Finset.sum_range_succ']
  rw [Finset.sum_congr rfl (g := fun _ => (4 : K)) fun i hi => by
    have hi' := Finset.mem_range.1 hi
    rw [hin (i + 1) (by omega), hin i (by omega), pow_succ]
    have : ((-1 : K) ^ i) * (-1) ^ i = 1 := by rw [← mul_pow]; norm_num
    linear_combination 4 * this]
  rw [show 2 * k + 1 + 1 + 1 = 2 * (k + 1) + 1 by ring, hlast, show 2 * k + 1 + 1 = (2 * k + 1) + 1 by ring,
    hin (2 * k + 1) (by omega), hin 0 (by omega), h0]
  have hs : ((-1 : K) ^ (2 * k + 1)) * (-1) ^ (2 * k + 1) = 1 := by rw [← mul_pow]; norm_num
  rw [zero_sub, neg_mul_neg, hs]
  simp only [Finset.sum_const, Finset.card_range, nsmul_eq_mul]
  push_cast
  ring

/-- The energy that is left of the alternating error after `k` steps and the best correction. -/
theorem alternating_left (m k : ℕ) (hm : 0 < m) (e1 : Fin (2 * m) → K)
    (h1 : ∀ i, e1 i = (-1) ^ k * (-1) ^ i.val * alternatingSize K (2 * m) k (i.val + 1))
    (v : Fin (2 * m) → K)
    (hv : ∑ i : Fin (2 * m), (-1) ^ i.val * v i = ∑ i : Fin (2 * m), (-1) ^ i.val * e1 i) :
    (1 - (k + 1) / m) * energyOf (pairMatrix (2 * m) (0 : K)) (alternating K (2 * m))
      ≤ energyOf (pairMatrix (2 * m) (0 : K)) v := by
  have hm0 : (0 : K) < m := Nat.cast_pos.2 hm
  have hE := laplace_pairs_energy m v
  have hen : 0 ≤ energyOf (pairMatrix (2 * m) (0 : K)) v := by
    rw [laplace_energy]
    exact Finset.sum_nonneg fun _ _ => mul_self_nonneg _
  rw [alternating_energy m hm]
  have hm1 : (1 : K) ≤ m := by exact_mod_cast hm
  by_cases hk : m ≤ k
  · have hk' : (m : K) ≤ k := by exact_mod_cast hk
    have : (1 : K) - (k + 1) / m ≤ 0 := by
      rw [sub_nonpos, one_le_div hm0]
      linarith
    exact (mul_nonpos_of_nonpos_of_nonneg this (by linarith)).trans hen
  · have hk' : (k : K) + 1 ≤ m := by exact_mod_cast (by omega : k + 1 ≤ m)
    have hk0 : (0 : K) ≤ k := Nat.cast_nonneg k
    have hW : (∑ i : Fin (2 * m), (-1 : K) ^ i.val * v i) * (∑ i : Fin (2 * m), (-1 : K) ^ i.val * v i)
        = (∑ i ∈ Finset.range (2 * m), alternatingSize K (2 * m) k (i + 1))
          * ∑ i ∈ Finset.range (2 * m), alternatingSize K (2 * m) k (i + 1) := by
      have : ∑ i : Fin (2 * m), (-1 : K) ^ i.val * v i
          = (-1) ^ k * ∑ i ∈ Finset.range (2 * m), alternatingSize K (2 * m) k (i + 1) := by
        rw [hv, Finset.sum_range fun i => alternatingSize K (2 * m) k (i + 1), Finset.mul_sum]
        apply Finset.sum_congr rfl
        intro i _
        rw [h1]
        have : ((-1 : K) ^ i.val) * (-1) ^ i.val = 1 := by rw [← mul_pow]; norm_num
        linear_combination (-1) ^ k * alternatingSize K (2 * m) k (i.val + 1) * this
      rw [this]
      have hs : ((-1 : K) ^ k) * (-1) ^ k = 1 := by rw [← mul_pow]; norm_num
      linear_combination (∑ i ∈ Finset.range (2 * m), alternatingSize K (2 * m) k (i + 1))
          * (∑ i ∈ Finset.range (2 * m), alternatingSize K (2 * m) k (i + 1)) * hs
    rw [hW] at hE
    have hsum := alternatingSize_sum (K := K) (2 * m) k
    set W := ∑ i ∈ Finset.range (2 * m), alternatingSize K (2 * m) k (i + 1)
    push_cast at hsum
    have hpos : (0 : K) ≤ 2 * m - k := by linarith
    have hsq : (2 * m - k) * (2 * m - k) ≤ W * W := mul_self_le_mul_self hpos hsum
    have h4 : 4 * m * (m - k) ≤ W * W := by nlinarith
    set E := energyOf (pairMatrix (2 * m) (0 : K)) v
    have h5 : (2 * m + 1) * (4 * m * (m - k)) ≤ m * (m + 1) * E :=
      (mul_le_mul_of_nonneg_left h4 (by linarith)).trans hE
    have h6 : ((m : K) - (k + 1)) * (8 * m - 2) * (m + 1) ≤ (2 * m + 1) * (4 * m * (m - k)) := by
      nlinarith [mul_nonneg hm0.le hk0, mul_nonneg (sub_nonneg.2 hm1) hk0, mul_nonneg (sub_nonneg.2 hm1) hm0.le]
    have h7 : (1 - (k + 1) / (m : K)) = (m - (k + 1)) / m := by
      field_simp
    rw [h7, div_mul_eq_mul_div, div_le_iff₀ hm0]
    have h8 : ((m : K) - (k + 1)) * (8 * m - 2) * (m + 1) ≤ E * m * (m + 1) := by linarith
    exact le_of_mul_le_mul_right h8 (by linarith)

end

end Mfmg
