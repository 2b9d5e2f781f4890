import Verif.Lemmas.Chebyshev
import Verif.Lemmas.ConjugateGradient

/-!
# Lemmas on the rate of convergence of the conjugate gradient method
-/

set_option autoImplicit false

namespace Mfmg

section

variable {n : ℕ}

/-- A symmetric positive definite matrix is a product `S Sᵀ`. -/
theorem spd_factor {M : Matrix (Fin n) (Fin n) ℝ} (hM : IsSpd M) :
    ∃ S : Matrix (Fin n) (Fin n) ℝ, ∀ x, M.mulVec x = S.mulVec (S.transpose.mulVec x) := by
  obtain ⟨v, lam, hpos, -, heig, hv, hspan⟩ := scaled_basis hM (dinv := fun _ => 1) (fun _ => one_pos)
  have hMv : ∀ j, M.mulVec (v j) = lam j • v j := by
    intro j
    funext i
    have := heig j i
    rw [one_mul] at this
    rw [this, Pi.smul_apply, smul_eq_mul]
  have hort : ∀ j k, v j ⬝ᵥ v k = if j = k then 1 else 0 := by
    intro j k
    have h := hv j k
    rw [hMv, dotProduct_smul, smul_eq_mul] at h
    have hk := (hpos k).ne'
    by_cases hjk : j = k
    · subst hjk
      rw [if_pos rfl] at h ⊢
      exact (mul_eq_left₀ hk).1 h
    · rw [if_neg hjk] at h ⊢
      exact (mul_eq_zero.1 h).resolve_left hk
  refine ⟨Matrix.of fun i j => Real.sqrt (lam j) * v j i, fun x => ?_⟩
  have h1 : ∀ j, (Matrix.of fun i j => Real.sqrt (lam j) * v j i).transpose.mulVec x j
      = Real.sqrt (lam j) * (v j ⬝ᵥ x) := by
    intro j
    simp only [Matrix.mulVec, dotProduct, Matrix.transpose_apply, Matrix.of_apply, Finset.mul_sum, mul_assoc]
  have h2 : (Matrix.of fun i j => Real.sqrt (lam j) * v j i).mulVec
      ((Matrix.of fun i j => Real.sqrt (lam j) * v j i).transpose.mulVec x) = ∑ j, (lam j * (v j ⬝ᵥ x)) • v j := by
    funext i
    rw [Finset.sum_apply, Matrix.mulVec, dotProduct]
    apply Finset.sum_congr rfl
    intro j _
    rw [h1, Matrix.of_apply, Pi.smul_apply, smul_eq_mul]
    have := Real.mul_self_sqrt (hpos j).le
    linear_combination (v j ⬝ᵥ x * v j i) * this
  rw [h2]
  obtain ⟨c, rfl⟩ := hspan x
  rw [Matrix.mulVec_sum]
  apply Finset.sum_congr rfl
  intro j _
  rw [Matrix.mulVec_smul, hMv, dotProduct_sum]
  simp only [dotProduct_smul, hort, smul_eq_mul, mul_ite, mul_one, mul_zero, Finset.sum_ite_eq, Finset.mem_univ,
    if_true, smul_smul]
  rw [mul_comm]

/-- For two symmetric positive definite matrices there is a basis of eigenvectors of the product, orthogonal in
energy. -/
theorem product_basis {A M : Matrix (Fin n) (Fin n) ℝ} (hA : IsSpd A) (hM : IsSpd M) :
    ∃ (v : Fin n → Fin n → ℝ) (lam : Fin n → ℝ), (∀ j, 0 < lam j) ∧ (∀ j, v j ≠ 0) ∧
      (∀ j, M.mulVec (A.mulVec (v j)) = lam j • v j) ∧
      (∀ j k, v j ⬝ᵥ A.mulVec (v k) = if j = k then lam j else 0) ∧
      ∀ e : Fin n → ℝ, ∃ c : Fin n → ℝ, e = ∑ j, c j • v j := by
  obtain ⟨S, hS⟩ := spd_factor hM
  have hdet := spd_det hM
  have hsurj : ∀ e, ∃ w, S.mulVec w = e := by
    intro e
    refine ⟨S.transpose.mulVec (M⁻¹.mulVec e), ?_⟩
    rw [← hS]
    exact mulVec_inv hdet e
  have hinj : ∀ w, S.mulVec w = 0 → w = 0 := by
    have h1 : Function.Surjective (Matrix.mulVecLin S) := hsurj
    have h2 := LinearMap.injective_iff_surjective.2 h1
    intro w hw
    exact h2 (by rw [map_zero]; exact hw)
  have hB : ∀ u w, u ⬝ᵥ (S.transpose * A * S).mulVec w = S.mulVec u ⬝ᵥ A.mulVec (S.mulVec w) := by
    intro u w
    rw [Matrix.mul_assoc, ← Matrix.mulVec_mulVec, ← Matrix.mulVec_mulVec, Matrix.dotProduct_mulVec,
      Matrix.vecMul_transpose]
  have hspd : IsSpd (S.transpose * A * S) := by
    refine ⟨?_, fun w hw => ?_⟩
    · rw [Matrix.transpose_mul, Matrix.transpose_mul, Matrix.transpose_transpose, hA.1, Matrix.mul_assoc]
    · rw [hB]
      exact hA.2 _ fun h => hw (hinj w h)
  obtain ⟨w, lam, hpos, hne, heig, hw, hspan⟩ := scaled_basis hspd (dinv := fun _ => 1) (fun _ => one_pos)
  refine ⟨fun j => S.mulVec (w j), lam, hpos, fun j h => hne j (hinj _ h), ?_, ?_, ?_⟩
  · intro j
    have : (S.transpose * A * S).mulVec (w j) = lam j • w j := by
      funext i
      have := heig j i
      rw [one_mul] at this
      rw [this, Pi.smul_apply, smul_eq_mul]
    change M.mulVec (A.mulVec (S.mulVec (w j))) = lam j • S.mulVec (w j)
    rw [hS, ← Matrix.mulVec_smul, ← this, Matrix.mul_assoc, ← Matrix.mulVec_mulVec, ← Matrix.mulVec_mulVec]
  · intro j k
    rw [← hB]
    exact hw j k
  · intro e
    obtain ⟨u, rfl⟩ := hsurj e
    obtain ⟨c, hc⟩ := hspan u
    refine ⟨c, ?_⟩
    conv_lhs => rw [hc]
    rw [Matrix.mulVec_sum]
    apply Finset.sum_congr rfl
    intro j _
    rw [Matrix.mulVec_smul]

/-- Chebyshev polynomials are products. -/
theorem chebT_product (k : ℕ) : ∃ (r : ℕ → ℝ) (a : ℝ), (∀ j, r j ≤ 1) ∧
    ∀ x, chebT k x = a * ∏ j ∈ Finset.range k, (x - r j) := by
  set r : ℕ → ℝ := fun j => Real.cos ((2 * j + 1) * Real.pi / (2 * k)) with hr
  have hnod := Polynomial.Chebyshev.roots_T_real_nodup k
  have hinj : Set.InjOn r (Finset.range k) := (Finset.range k).nodup_map_iff_injOn.1 hnod
  have hroots : (Polynomial.Chebyshev.T ℝ (k : ℤ)).roots = (Finset.range k).val.map r := by
    rw [Polynomial.Chebyshev.roots_T_real]
    exact Finset.image_val_of_injOn hinj
  have hcard : Multiset.card (Polynomial.Chebyshev.T ℝ (k : ℤ)).roots
      = (Polynomial.Chebyshev.T ℝ (k : ℤ)).natDegree := by
    rw [hroots, Polynomial.Chebyshev.natDegree_T]
    simp
  have hp := Polynomial.C_leadingCoeff_mul_prod_multiset_X_sub_C hcard
  refine ⟨r, (Polynomial.Chebyshev.T ℝ (k : ℤ)).leadingCoeff, fun j => Real.cos_le_one _, fun x => ?_⟩
  unfold chebT
  conv_lhs => rw [← hp]
  rw [Polynomial.eval_mul, Polynomial.eval_C, hroots, Multiset.map_map, Polynomial.eval_multiset_prod,
    Multiset.map_map]
  simp only [Function.comp_def, Polynomial.eval_sub, Polynomial.eval_X, Polynomial.eval_C]
  rfl

/-- Growth outside the interval. -/
theorem chebT_ge_pow (k : ℕ) {ρ : ℝ} (hρ : 0 < ρ) :
    chebT k ((ρ + ρ⁻¹) / 2) = (ρ ^ k + (ρ⁻¹) ^ k) / 2 := by
  have key : ∀ k, chebT k ((ρ + ρ⁻¹) / 2) = (ρ ^ k + (ρ⁻¹) ^ k) / 2 ∧
      chebT (k + 1) ((ρ + ρ⁻¹) / 2) = (ρ ^ (k + 1) + (ρ⁻¹) ^ (k + 1)) / 2 := by
    intro k
    induction k with
    | zero => simp [chebT_zero, chebT_one]
    | succ k ih =>
      refine ⟨ih.2, ?_⟩
      rw [chebT_add_two, ih.1, ih.2]
      have h : ρ * ρ⁻¹ = 1 := mul_inv_cancel₀ hρ.ne'
      rw [pow_succ ρ (k + 1), pow_succ (ρ⁻¹) (k + 1), pow_succ ρ k, pow_succ (ρ⁻¹) k]
      linear_combination (ρ ^ k + ρ⁻¹ ^ k) / 2 * h
  exact (key k).1

/-- Step lengths for `k` steps that reduce every component with an eigenvalue between `1 / c` and `1`. -/
theorem step_lengths (k : ℕ) {c : ℝ} (hc : 1 < c) : ∃ ω : ℕ → ℝ, ∀ lam : ℝ, 1 / c ≤ lam → lam ≤ 1 →
    |∏ j ∈ Finset.range k, (1 - ω j * lam)| ≤ 2 * ((Real.sqrt c - 1) / (Real.sqrt c + 1)) ^ k := by
  obtain ⟨r, a, hr, hprod⟩ := chebT_product k
  have hc0 : 0 < c := by linarith
  have hc1 : 0 < c - 1 := by linarith
  set x₀ : ℝ := (c + 1) / (c - 1) with hx₀
  have hx1 : 1 < x₀ := by
    rw [hx₀, lt_div_iff₀ hc1]
    linarith
  set q : ℝ := (Real.sqrt c - 1) / (Real.sqrt c + 1) with hq
  have hs1 : 1 < Real.sqrt c := by
    rw [Real.lt_sqrt (by norm_num)]
    linarith
  have hss : Real.sqrt c * Real.sqrt c = c := Real.mul_self_sqrt hc0.le
  have hq0 : 0 < q := div_pos (by linarith) (by linarith)
  have hρ : x₀ = (q⁻¹ + q⁻¹⁻¹) / 2 := by
    rw [inv_inv, hq, inv_div, hx₀]
    generalize Real.sqrt c = w at hss hs1
    have h1 : w - 1 ≠ 0 := by linarith
    have h2 : w + 1 ≠ 0 := by linarith
    have h3 : w * w - 1 ≠ 0 := by
      rw [show w * w - 1 = (w - 1) * (w + 1) by ring]
      exact mul_ne_zero h1 h2
    rw [← hss, div_add_div _ _ h1 h2, div_div, div_eq_div_iff h3 (mul_ne_zero (mul_ne_zero h1 h2) two_ne_zero)]
    ring
  have hT : 1 / 2 * (q⁻¹) ^ k ≤ chebT k x₀ := by
    rw [hρ, chebT_ge_pow k (inv_pos.2 hq0), inv_inv]
    have : 0 < q ^ k := pow_pos hq0 k
    linarith
  have hTpos : 0 < chebT k x₀ := lt_of_lt_of_le (by positivity) hT
  refine ⟨fun j => 2 * c / ((c - 1) * (x₀ - r j)), fun lam hl hu => ?_⟩
  set x : ℝ := x₀ - 2 * c / (c - 1) * lam with hx
  have hxr : ∀ j, x - r j = (x₀ - r j) * (1 - 2 * c / ((c - 1) * (x₀ - r j)) * lam) := by
    intro j
    have h1 : x₀ - r j ≠ 0 := by linarith [hr j]
    rw [hx]
    have := hc1.ne'
    field_simp
    ring
  have hval : chebT k x = chebT k x₀ * ∏ j ∈ Finset.range k, (1 - 2 * c / ((c - 1) * (x₀ - r j)) * lam) := by
    rw [hprod, hprod, mul_assoc, ← Finset.prod_mul_distrib]
    congr 1
    exact Finset.prod_congr rfl fun j _ => hxr j
  have habs : |chebT k x| ≤ 1 := by
    refine Polynomial.Chebyshev.abs_eval_T_real_le_one k ?_
    rw [div_le_iff₀ hc0] at hl
    have e : x = (c + 1 - 2 * c * lam) / (c - 1) := by
      rw [hx, hx₀]
      ring
    rw [e, abs_le, le_div_iff₀ hc1, div_le_iff₀ hc1]
    constructor <;> nlinarith
  rw [hval, abs_mul, abs_of_pos hTpos] at habs
  refine le_of_mul_le_mul_left ?_ hTpos
  refine habs.trans ?_
  have h1 := mul_le_mul_of_nonneg_right hT (show 0 ≤ 2 * q ^ k by positivity)
  have h2 : 1 / 2 * q⁻¹ ^ k * (2 * q ^ k) = 1 := by
    rw [inv_pow]
    field_simp
  linarith

/-- The error after `k` steps with given step lengths, in a basis of eigenvectors. -/
theorem steps_combination {A M : Matrix (Fin n) (Fin n) ℝ} {v : Fin n → Fin n → ℝ} {lam : Fin n → ℝ}
    (heig : ∀ j, M.mulVec (A.mulVec (v j)) = lam j • v j) {b xs : Fin n → ℝ} (hxs : A.mulVec xs = b)
    {y : ℕ → Fin n → ℝ} {ω : ℕ → ℝ} (hy : ∀ j, y (j + 1) = y j + ω j • M.mulVec (b - A.mulVec (y j)))
    {c : Fin n → ℝ} (hc : xs - y 0 = ∑ i, c i • v i) (k : ℕ) :
    xs - y k = ∑ i, (c i * ∏ j ∈ Finset.range k, (1 - ω j * lam i)) • v i := by
  induction k with
  | zero => simpa using hc
  | succ k ih =>
    have e : xs - y (k + 1) = (xs - y k) - ω k • M.mulVec (A.mulVec (xs - y k)) := by
      rw [hy, Matrix.mulVec_sub A, hxs]
      abel
    rw [e, ih, Matrix.mulVec_sum, Matrix.mulVec_sum, Finset.smul_sum, ← Finset.sum_sub_distrib]
    apply Finset.sum_congr rfl
    intro i _
    rw [Matrix.mulVec_smul, Matrix.mulVec_smul, heig, smul_smul, smul_smul, ← sub_smul, Finset.prod_range_succ]
    congr 1
    ring

/-- Some sequence of step lengths reduces the error of every start with the rate of the Chebyshev polynomials. -/
theorem best_steps {A M : Matrix (Fin n) (Fin n) ℝ} (hA : IsSpd A) (hM : IsSpd M) {c : ℝ} (hc : 1 < c)
    (hlow : ∀ u, energyOf A u ≤ c * (A.mulVec u ⬝ᵥ M.mulVec (A.mulVec u)))
    (hup : ∀ u, A.mulVec u ⬝ᵥ M.mulVec (A.mulVec u) ≤ energyOf A u) (k : ℕ) :
    ∃ ω : ℕ → ℝ, ∀ (b xs : Fin n → ℝ), A.mulVec xs = b → ∀ y : ℕ → Fin n → ℝ,
      (∀ j, y (j + 1) = y j + ω j • M.mulVec (b - A.mulVec (y j))) →
      energyOf A (xs - y k) ≤ 4 * (((Real.sqrt c - 1) / (Real.sqrt c + 1)) ^ 2) ^ k * energyOf A (xs - y 0) := by
  obtain ⟨v, lam, hpos, hne, heig, hv, hspan⟩ := product_basis hA hM
  obtain ⟨ω, hω⟩ := step_lengths k hc
  refine ⟨ω, fun b xs hxs y hy => ?_⟩
  have hlam : ∀ i, 1 / c ≤ lam i ∧ lam i ≤ 1 := by
    intro i
    have he := hA.2 _ (hne i)
    have e1 : A.mulVec (v i) ⬝ᵥ M.mulVec (A.mulVec (v i)) = lam i * energyOf A (v i) := by
      rw [heig, dotProduct_smul, smul_eq_mul, dotProduct_comm]
      rfl
    have h1 := hlow (v i)
    have h2 := hup (v i)
    rw [e1] at h1 h2
    have he' : 0 < energyOf A (v i) := he
    constructor
    · rw [div_le_iff₀ (by linarith)]
      nlinarith
    · nlinarith
  obtain ⟨d, hd⟩ := hspan (xs - y 0)
  rw [steps_combination heig hxs hy hd k, hd, energy_combination hv, energy_combination hv, Finset.mul_sum]
  apply Finset.sum_le_sum
  intro i _
  have h := hω (lam i) (hlam i).1 (hlam i).2
  have h2 : (∏ j ∈ Finset.range k, (1 - ω j * lam i)) ^ 2
      ≤ (2 * ((Real.sqrt c - 1) / (Real.sqrt c + 1)) ^ k) ^ 2 :=
    sq_le_sq' (abs_le.1 h).1 (abs_le.1 h).2
  have h3 : (2 * ((Real.sqrt c - 1) / (Real.sqrt c + 1)) ^ k) ^ 2
      = 4 * (((Real.sqrt c - 1) / (Real.sqrt c + 1)) ^ 2) ^ k := by
    rw [mul_pow, ← pow_mul, ← pow_mul, mul_comm k 2]
    norm_num
  rw [h3] at h2
  have h4 : 0 ≤ lam i * (d i * d i) := mul_nonneg (hpos i).le (mul_self_nonneg _)
  have := mul_le_mul_of_nonneg_left h2 h4
  linarith

end

end Mfmg
