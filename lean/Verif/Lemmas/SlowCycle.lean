import Verif.Props.TwoLevel
import Verif.Lemmas.Splitting

/-!
# What a cycle cannot reduce: lemmas
-/

set_option autoImplicit false

namespace Mfmg

open Spec

variable {K : Type} [Field K] [LinearOrder K] [IsStrictOrderedRing K] {n : ℕ}

/-- The part of the residual a list of rows sees, weighted by the diagonal. -/
def rowWork (A : Matrix (Fin n) (Fin n) K) (r : Fin n → K) (rows : List (Fin n)) : K :=
  (rows.map fun i => r i * r i / A i i).sum

/-- A sweep changes the product with a vector `r` only as far as it takes energy and `r` is large. -/
theorem sweep_work {A : Matrix (Fin n) (Fin n) K} (hA : IsSpd A) (r : Fin n → K) (t : K) (ht : 0 < t)
    (rows : List (Fin n)) (e : Fin n → K) :
    2 * (r ⬝ᵥ (e - rows.foldl (errRow A) e))
      ≤ t * rowWork A r rows + (energyOf A e - energyOf A (rows.foldl (errRow A) e)) / t := by
  induction rows generalizing e with
  | nil => simp [rowWork]
  | cons i rows ih =>
    have h1 := ih (errRow A e i)
    have hpos := diag_pos hA i
    rw [List.foldl_cons]
    set f := rows.foldl (errRow A) (errRow A e i) with hf
    have h2 : r ⬝ᵥ (e - f) = r i * (A.mulVec e i / A i i) + r ⬝ᵥ (errRow A e i - f) := by
      have : e - f = Pi.single i (A.mulVec e i / A i i) + (errRow A e i - f) := by
        rw [errRow]; abel
      rw [this, dotProduct_add, dotProduct_single]
    have h3 := energy_errRow hA e i
    have h4 : rowWork A r (i :: rows) = r i * r i / A i i + rowWork A r rows := rfl
    have h5 : 2 * (r i * (A.mulVec e i / A i i))
        ≤ t * (r i * r i / A i i) + A.mulVec e i * A.mulVec e i / A i i / t := by
      have h6 : 0 ≤ (t * r i - A.mulVec e i) * (t * r i - A.mulVec e i) / (A i i * t) :=
        div_nonneg (mul_self_nonneg _) (mul_pos hpos ht).le
      have h7 : (t * r i - A.mulVec e i) * (t * r i - A.mulVec e i) / (A i i * t)
          = t * (r i * r i / A i i) + A.mulVec e i * A.mulVec e i / A i i / t
            - 2 * (r i * (A.mulVec e i / A i i)) := by
        field_simp
        ring
      linarith
    rw [h2, h4]
    have h8 : (energyOf A e - energyOf A f) / t = A.mulVec e i * A.mulVec e i / A i i / t
        + (energyOf A (errRow A e i) - energyOf A f) / t := by
      rw [h3]; field_simp; ring
    rw [h8]
    linarith

/-- Several sweeps. -/
theorem sweeps_work {A : Matrix (Fin n) (Fin n) K} (hA : IsSpd A) (r : Fin n → K) (t : K) (ht : 0 < t)
    (rows : List (Fin n)) (k : ℕ) (e : Fin n → K) :
    2 * (r ⬝ᵥ (e - (fun e => rows.foldl (errRow A) e)^[k] e))
      ≤ t * (k * rowWork A r rows)
        + (energyOf A e - energyOf A ((fun e => rows.foldl (errRow A) e)^[k] e)) / t := by
  induction k generalizing e with
  | zero => simp
  | succ k ih =>
    rw [Function.iterate_succ_apply]
    have h1 := ih (rows.foldl (errRow A) e)
    have h2 := sweep_work hA r t ht rows e
    set f := (fun e => rows.foldl (errRow A) e)^[k] (rows.foldl (errRow A) e) with hf
    have h3 : e - f = (e - rows.foldl (errRow A) e) + (rows.foldl (errRow A) e - f) := by abel
    have h4 : (energyOf A e - energyOf A f) / t
        = (energyOf A e - energyOf A (rows.foldl (errRow A) e)) / t
          + (energyOf A (rows.foldl (errRow A) e) - energyOf A f) / t := by
      field_simp; ring
    rw [h3, dotProduct_add, h4]
    push_cast
    linarith

/-- A symmetric sweep sees every row twice. -/
theorem rowWork_sweepRows {A : Matrix (Fin n) (Fin n) K} (hA : IsSpd A) (r : Fin n → K) (kind : Relaxation)
    {own : List (Fin n)} (hown : ListsAll own) :
    rowWork A r (sweepRows kind own) ≤ 2 * ∑ i, r i * r i / A i i := by
  have h1 : rowWork A r own = ∑ i, r i * r i / A i i := by
    have huniv : own.toFinset = Finset.univ := by
      ext i
      simp [hown.2 i]
    rw [← huniv, List.sum_toFinset _ hown.1]
    rfl
  have h0 := diag_inv_sum_nonneg hA Finset.univ r
  cases kind
  · change rowWork A r (own ++ own.reverse) ≤ _
    have : rowWork A r (own ++ own.reverse) = rowWork A r own + rowWork A r own := by
      simp [rowWork, List.sum_reverse]
    rw [this, h1]
    linarith
  · change rowWork A r own ≤ _
    rw [h1]; linarith
  · change rowWork A r own ≤ _
    rw [h1]; linarith

/-- An error whose product with the first residual stays large keeps its energy. -/
theorem energy_kept {A : Matrix (Fin n) (Fin n) K} (hA : IsSpd A) (e f : Fin n → K) (t G : K) (ht : 1 ≤ t)
    (hG : t * t * G ≤ energyOf A e)
    (h : 2 * (A.mulVec e ⬝ᵥ (e - f)) ≤ t * G + (energyOf A e - energyOf A f) / t) :
    (1 - 1 / t) ^ 2 * energyOf A e ≤ energyOf A f := by
  have ht0 : 0 < t := by linarith
  by_cases he : e = 0
  · subst he
    have h0 : energyOf A (0 : Fin n → K) = 0 := by simp [energyOf]
    rw [h0, mul_zero]
    by_cases hf : f = 0
    · subst hf; rw [h0]
    · exact (hA.2 f hf).le
  have hE : 0 < energyOf A e := hA.2 e he
  have hf0 : 0 ≤ energyOf A f := by
    by_cases hf : f = 0
    · subst hf; simp [energyOf]
    · exact (hA.2 f hf).le
  have h1 : A.mulVec e ⬝ᵥ (e - f) = energyOf A e - f ⬝ᵥ A.mulVec e := by
    rw [dotProduct_sub, dotProduct_comm, dotProduct_comm _ f]
    rfl
  have h2 : t * G ≤ energyOf A e / t := by
    rw [le_div_iff₀ ht0]
    linarith
  have h3 : (energyOf A e - energyOf A f) / t ≤ energyOf A e / t :=
    div_le_div_of_nonneg_right (by linarith) ht0.le
  have h4 : (1 - 1 / t) * energyOf A e ≤ f ⬝ᵥ A.mulVec e := by
    have : (1 - 1 / t) * energyOf A e = energyOf A e - energyOf A e / t := by ring
    rw [h1] at h
    rw [this]
    linarith
  have h5 : 0 ≤ (1 - 1 / t) * energyOf A e := by
    refine mul_nonneg ?_ hE.le
    rw [sub_nonneg, div_le_one ht0]
    exact ht
  have h6 := mul_le_mul h4 h4 h5 (h5.trans h4)
  have h7 := spd_cauchy hA f e
  have h8 : (1 - 1 / t) ^ 2 * energyOf A e * energyOf A e ≤ energyOf A f * energyOf A e := by
    have : (1 - 1 / t) ^ 2 * energyOf A e * energyOf A e
        = (1 - 1 / t) * energyOf A e * ((1 - 1 / t) * energyOf A e) := by ring
    rw [this]
    exact h6.trans h7
  exact le_of_mul_le_mul_right h8 hE

end Mfmg
