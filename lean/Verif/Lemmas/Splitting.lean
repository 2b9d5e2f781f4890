import Verif.Spec.Ilu
import Verif.Lemmas.Relaxation
import Mathlib.Algebra.Order.Archimedean.Basic
import Mathlib.LinearAlgebra.Matrix.NonsingularInverse
import Mathlib.Tactic.Ring
import Mathlib.Tactic.Linarith
import Mathlib.Tactic.Positivity

/-!
# Regular splittings of Stieltjes matrices
-/

set_option autoImplicit false

namespace Mfmg

variable {K : Type} [Field K] [LinearOrder K] [IsStrictOrderedRing K] {n : ℕ}

/-- A Stieltjes matrix has a nonnegative inverse. -/
theorem stieltjes_nonneg {A : Matrix (Fin n) (Fin n) K} (hA : IsStieltjes A) (y : Fin n → K)
    (hy : ∀ i, 0 ≤ A.mulVec y i) (i : Fin n) : 0 ≤ y i := by
  set m : Fin n → K := fun i => max (-(y i)) 0 with hm
  have hm0 : ∀ i, 0 ≤ m i := fun i => le_max_right _ _
  have hp0 : ∀ i, 0 ≤ y i + m i := fun i => by
    have := le_max_left (-(y i)) 0
    simp only [hm]
    linarith
  have hz : ∀ i, m i * (y i + m i) = 0 := by
    intro i
    rcases le_total (-(y i)) 0 with h | h
    · simp only [hm, max_eq_right h, zero_mul]
    · simp only [hm, max_eq_left h]
      ring
  have h1 : 0 ≤ m ⬝ᵥ A.mulVec y := Finset.sum_nonneg fun i _ => mul_nonneg (hm0 i) (hy i)
  have h2 : m ⬝ᵥ A.mulVec (y + m) ≤ 0 := by
    simp only [dotProduct, Matrix.mulVec, Finset.mul_sum]
    refine Finset.sum_nonpos fun i _ => Finset.sum_nonpos fun j _ => ?_
    rw [Pi.add_apply]
    by_cases hij : i = j
    · subst hij
      rw [mul_left_comm, hz i, mul_zero]
    · exact mul_nonpos_of_nonneg_of_nonpos (hm0 i)
        (mul_nonpos_of_nonpos_of_nonneg (hA.2 i j hij) (hp0 j))
  rw [Matrix.mulVec_add, dotProduct_add] at h2
  have h3 : m = 0 := by
    by_contra h
    have := hA.1.2 m h
    linarith
  have h4 := hp0 i
  rw [h3] at h4
  simpa using h4

/-- For a Stieltjes matrix there is a positive vector with positive image. -/
theorem stieltjes_vector {A : Matrix (Fin n) (Fin n) K} (hA : IsStieltjes A) :
    ∃ v : Fin n → K, ∀ i, 0 < v i ∧ 0 < A.mulVec v i := by
  have hdet := spd_det hA.1
  refine ⟨A⁻¹.mulVec fun _ => 1, fun i => ?_⟩
  have hv : A.mulVec (A⁻¹.mulVec fun _ => 1) = fun _ => (1 : K) := by
    rw [Matrix.mulVec_mulVec, Matrix.mul_nonsing_inv _ (Ne.isUnit hdet), Matrix.one_mulVec]
  set v := A⁻¹.mulVec fun _ => (1 : K)
  have hnn := stieltjes_nonneg hA v (by rw [hv]; intro i; exact zero_le_one)
  refine ⟨lt_of_le_of_ne (hnn i) ?_, by rw [hv]; exact zero_lt_one⟩
  intro h0
  have h1 : A.mulVec v i ≤ 0 := by
    change ∑ j, A i j * v j ≤ 0
    refine Finset.sum_nonpos fun j _ => ?_
    by_cases hij : i = j
    · subst hij
      rw [← h0, mul_zero]
    · exact mul_nonpos_of_nonpos_of_nonneg (hA.2 i j hij) (hnn j)
  rw [hv] at h1
  exact absurd h1 (not_le.2 zero_lt_one)

/-- A positive number below finitely many positive numbers. -/
theorem exists_small (f g : Fin n → K) (hf : ∀ i, 0 < f i) :
    ∃ δ : K, 0 < δ ∧ δ ≤ 1 / 2 ∧ ∀ i, δ * g i ≤ f i := by
  by_cases hn : Nonempty (Fin n)
  · obtain ⟨i0, _, hi0⟩ := Finset.exists_min_image Finset.univ (fun i => f i / (|g i| + 1))
      ⟨hn.some, Finset.mem_univ _⟩
    have hpos : ∀ i, 0 < |g i| + 1 := fun i => by positivity
    refine ⟨min (f i0 / (|g i0| + 1)) (1 / 2), lt_min (div_pos (hf i0) (hpos i0)) (by norm_num),
      min_le_right _ _, ?_⟩
    intro i
    set δ := min (f i0 / (|g i0| + 1)) (1 / 2)
    have h0 : 0 < δ := lt_min (div_pos (hf i0) (hpos i0)) (by norm_num)
    have h1 : δ ≤ f i / (|g i| + 1) := (min_le_left _ _).trans (hi0 i (Finset.mem_univ i))
    rw [le_div_iff₀ (hpos i)] at h1
    have h2 : δ * g i ≤ δ * (|g i| + 1) :=
      mul_le_mul_of_nonneg_left (by linarith [le_abs_self (g i)]) h0.le
    linarith
  · exact ⟨1 / 2, by norm_num, le_refl _, fun i => absurd ⟨i⟩ hn⟩

/-- The inequality of Cauchy and Schwarz for a positive definite matrix. -/
theorem spd_cauchy {M : Matrix (Fin n) (Fin n) K} (hM : IsSpd M) (u w : Fin n → K) :
    (u ⬝ᵥ M.mulVec w) * (u ⬝ᵥ M.mulVec w) ≤ (u ⬝ᵥ M.mulVec u) * (w ⬝ᵥ M.mulVec w) := by
  by_cases hw : w = 0
  · subst hw
    simp
  set c := w ⬝ᵥ M.mulVec w with hc
  set d := u ⬝ᵥ M.mulVec w with hd
  have hc0 : 0 < c := hM.2 w hw
  have hsym : w ⬝ᵥ M.mulVec u = d := by rw [hd, form_symm hM.1]
  have h : 0 ≤ (c • u - d • w) ⬝ᵥ M.mulVec (c • u - d • w) := by
    by_cases h0 : c • u - d • w = 0
    · rw [h0]; simp
    · exact (hM.2 _ h0).le
  rw [Matrix.mulVec_sub, Matrix.mulVec_smul, Matrix.mulVec_smul] at h
  simp only [sub_dotProduct, dotProduct_sub, smul_dotProduct, dotProduct_smul, smul_eq_mul] at h
  rw [hsym, ← hd, ← hc] at h
  have h2 : 0 ≤ c * ((u ⬝ᵥ M.mulVec u) * c - d * d) := by linarith
  have h3 := nonneg_of_mul_nonneg_right h2 hc0
  linarith

/-- **Regular splitting**: if `M` is symmetric positive definite with a nonnegative inverse, `M - A` has no
negative entries and `A` maps some positive vector to a positive vector, then `2 M - A` is positive
definite. -/
theorem regular_splitting [Archimedean K] {A M : Matrix (Fin n) (Fin n) K} (hA : A.transpose = A)
    (hM : IsSpd M) (hinv : ∀ x : Fin n → K, (∀ i, 0 ≤ M.mulVec x i) → ∀ i, 0 ≤ x i)
    (hN : ∀ i j, A i j ≤ M i j) (hv : ∃ v : Fin n → K, ∀ i, 0 < v i ∧ 0 < A.mulVec v i)
    (w : Fin n → K) (hw : w ≠ 0) : w ⬝ᵥ A.mulVec w < 2 * (w ⬝ᵥ M.mulVec w) := by
  obtain ⟨v, hv⟩ := hv
  have hdet := spd_det hM
  set E : (Fin n → K) → Fin n → K := fun x => M⁻¹.mulVec ((M - A).mulVec x) with hE
  have hME : ∀ x, M.mulVec (E x) = (M - A).mulVec x := by
    intro x
    rw [hE]
    simp only
    rw [Matrix.mulVec_mulVec _ M, Matrix.mul_nonsing_inv _ (Ne.isUnit hdet), Matrix.one_mulVec]
  have hNsym : (M - A).transpose = M - A := by rw [Matrix.transpose_sub, hM.1, hA]
  have hEsub : ∀ x y, E (x - y) = E x - E y := by
    intro x y
    simp only [hE, Matrix.mulVec_sub]
  have hEsmul : ∀ (c : K) x, E (c • x) = c • E x := by
    intro c x
    simp only [hE, Matrix.mulVec_smul]
  -- E is monotone
  have hmono0 : ∀ x, (∀ i, 0 ≤ x i) → ∀ i, 0 ≤ E x i := by
    intro x hx
    apply hinv
    intro i
    rw [hME]
    change 0 ≤ ∑ j, (M - A) i j * x j
    exact Finset.sum_nonneg fun j _ => mul_nonneg (by
      rw [Matrix.sub_apply]; linarith [hN i j]) (hx j)
  have hmono : ∀ x y, (∀ i, x i ≤ y i) → ∀ i, E x i ≤ E y i := by
    intro x y hxy i
    have := hmono0 (y - x) (fun i => sub_nonneg.2 (hxy i)) i
    rw [hEsub, Pi.sub_apply] at this
    linarith
  -- E v ≤ (1 - δ) v
  obtain ⟨δ, hδ0, hδ1, hδ⟩ := exists_small (fun i => A.mulVec v i) (fun i => M.mulVec v i)
    fun i => (hv i).2
  have hEv : ∀ i, E v i ≤ (1 - δ) * v i := by
    intro i
    have h := hinv (v - E v - δ • v) (by
      intro i
      rw [Matrix.mulVec_sub, Matrix.mulVec_sub, hME, Matrix.mulVec_smul, Matrix.sub_mulVec]
      simp only [Pi.sub_apply, Pi.smul_apply, smul_eq_mul]
      linarith [hδ i]) i
    simp only [Pi.sub_apply, Pi.smul_apply, smul_eq_mul] at h
    linarith
  have hθ0 : 0 ≤ 1 - δ := by linarith
  have hθ1 : 1 - δ < 1 := by linarith
  -- the powers of E decrease
  obtain ⟨c, hc0, -, hc⟩ := exists_small (fun i => v i) (fun i => |w i|) fun i => (hv i).1
  have hbound : ∀ m i, |c * (E^[m] w) i| ≤ (1 - δ) ^ m * v i := by
    intro m
    induction m with
    | zero =>
      intro i
      rw [Function.iterate_zero, id_eq, pow_zero, one_mul, abs_mul, abs_of_pos hc0]
      exact hc i
    | succ m ih =>
      intro i
      rw [Function.iterate_succ_apply']
      set x := E^[m] w
      have hup := hmono (c • x) ((1 - δ) ^ m • v) (fun i => (abs_le.1 (ih i)).2) i
      have hlo := hmono (-((1 - δ) ^ m) • v) (c • x) (fun i => by
        have := (abs_le.1 (ih i)).1
        simp only [Pi.smul_apply, smul_eq_mul]
        linarith) i
      rw [hEsmul, hEsmul] at hup hlo
      simp only [Pi.smul_apply, smul_eq_mul] at hup hlo
      have h1 : (1 - δ) ^ m * E v i ≤ (1 - δ) ^ m * ((1 - δ) * v i) :=
        mul_le_mul_of_nonneg_left (hEv i) (pow_nonneg hθ0 m)
      rw [abs_le, pow_succ]
      constructor <;> nlinarith
  set a : ℕ → K := fun m => (E^[m] w) ⬝ᵥ M.mulVec (E^[m] w) with ha
  have hann : ∀ m, 0 ≤ a m := by
    intro m
    by_cases h0 : E^[m] w = 0
    · simp only [ha, h0]; simp
    · exact (hM.2 _ h0).le
  have hselfadj : ∀ x y, E x ⬝ᵥ M.mulVec y = x ⬝ᵥ M.mulVec (E y) := by
    intro x y
    rw [form_symm hM.1, hME, hME, form_symm hNsym]
  have hlog : ∀ m, a (m + 1) * a (m + 1) ≤ a m * a (m + 2) := by
    intro m
    have h := spd_cauchy hM (E^[m] w) (E^[m + 2] w)
    have h2 : a (m + 1) = (E^[m] w) ⬝ᵥ M.mulVec (E^[m + 2] w) := by
      simp only [ha]
      rw [Function.iterate_succ_apply' E (m + 1), ← hselfadj, ← Function.iterate_succ_apply' E m]
    rw [h2]
    exact h
  have ha0 : 0 < a 0 := hM.2 w hw
  have hlt : a 1 < a 0 := by
    by_contra hge
    have hge := not_lt.1 hge
    have hgrow : ∀ m, a 0 ≤ a m ∧ a m ≤ a (m + 1) := by
      intro m
      induction m with
      | zero => exact ⟨le_refl _, hge⟩
      | succ m ih =>
        refine ⟨ih.1.trans ih.2, ?_⟩
        have hpos : 0 < a m := lt_of_lt_of_le ha0 ih.1
        have h1 := hlog m
        have h2 : a m * a (m + 1) ≤ a (m + 1) * a (m + 1) :=
          mul_le_mul_of_nonneg_right ih.2 (hann _)
        exact le_of_mul_le_mul_left (h2.trans h1) hpos
    set S : K := ∑ i, ∑ j, v i * (|M i j| * v j) with hS
    have hS0 : 0 ≤ S := Finset.sum_nonneg fun i _ => Finset.sum_nonneg fun j _ =>
      mul_nonneg (hv i).1.le (mul_nonneg (abs_nonneg _) (hv j).1.le)
    have hup : ∀ m, c * c * a m ≤ (1 - δ) ^ m * S := by
      intro m
      have hq1 : (1 - δ) ^ m ≤ 1 := pow_le_one₀ hθ0 hθ1.le
      have hq0 : 0 ≤ (1 - δ) ^ m := pow_nonneg hθ0 m
      have h1 : c * c * a m ≤ (1 - δ) ^ m * (1 - δ) ^ m * S := by
        simp only [ha, hS, dotProduct, Matrix.mulVec, Finset.mul_sum]
        refine Finset.sum_le_sum fun i _ => Finset.sum_le_sum fun j _ => ?_
        set y := E^[m] w
        calc c * c * (y i * (M i j * y j)) = (c * y i) * (M i j * (c * y j)) := by ring
          _ ≤ |(c * y i) * (M i j * (c * y j))| := le_abs_self _
          _ = |c * y i| * (|M i j| * |c * y j|) := by rw [abs_mul, abs_mul (M i j)]
          _ ≤ ((1 - δ) ^ m * v i) * (|M i j| * ((1 - δ) ^ m * v j)) := by
            apply mul_le_mul (hbound m i) _ (by positivity) (mul_nonneg hq0 (hv i).1.le)
            exact mul_le_mul_of_nonneg_left (hbound m j) (abs_nonneg _)
          _ = (1 - δ) ^ m * (1 - δ) ^ m * (v i * (|M i j| * v j)) := by ring
      refine h1.trans (mul_le_mul_of_nonneg_right ?_ hS0)
      calc (1 - δ) ^ m * (1 - δ) ^ m ≤ (1 - δ) ^ m * 1 := mul_le_mul_of_nonneg_left hq1 hq0
        _ = (1 - δ) ^ m := mul_one _
    obtain ⟨m, hm⟩ := exists_pow_lt_of_lt_one (show 0 < c * c * a 0 / (S + 1) by positivity) hθ1
    rw [lt_div_iff₀ (by positivity)] at hm
    have h1 := hup m
    have h2 : c * c * a 0 ≤ c * c * a m := mul_le_mul_of_nonneg_left (hgrow m).1 (by positivity)
    have h3 := pow_nonneg hθ0 m
    nlinarith
  -- conclusion
  have hcs := spd_cauchy hM w (E w)
  rw [hME] at hcs
  have e0 : w ⬝ᵥ M.mulVec w = a 0 := rfl
  have e1 : E w ⬝ᵥ (M - A).mulVec w = a 1 := by
    rw [← hME]
    rfl
  rw [e0, e1] at hcs
  have h1 : a 0 * a 1 < a 0 * a 0 := mul_lt_mul_of_pos_left hlt ha0
  have h2 : w ⬝ᵥ (M - A).mulVec w = a 0 - w ⬝ᵥ A.mulVec w := by
    rw [Matrix.sub_mulVec, dotProduct_sub, e0]
  rw [e0]
  by_contra hge
  have hge := not_lt.1 hge
  rw [h2] at hcs
  nlinarith

end Mfmg
