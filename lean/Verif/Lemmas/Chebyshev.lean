import Verif.Model.Chebyshev
import Verif.Spec.Chebyshev
import Verif.Props.TwoLevel
import Mathlib.Analysis.SpecialFunctions.Trigonometric.Chebyshev.RootsExtrema
import Mathlib.Analysis.Matrix.Spectrum

/-!
# Lemmas on the Chebyshev smoother
-/

set_option autoImplicit false

namespace Mfmg

open Spec

/-- The value of the Chebyshev polynomial of degree `k`. -/
noncomputable def chebT (k : ℕ) (x : ℝ) : ℝ := (Polynomial.Chebyshev.T ℝ (k : ℤ)).eval x

theorem chebT_zero (x : ℝ) : chebT 0 x = 1 := by simp [chebT]

theorem chebT_one (x : ℝ) : chebT 1 x = x := by simp [chebT]

theorem chebT_add_two (k : ℕ) (x : ℝ) : chebT (k + 2) x = 2 * x * chebT (k + 1) x - chebT k x := by
  have h := Polynomial.Chebyshev.T_add_two ℝ (k : ℤ)
  unfold chebT
  push_cast
  rw [h]
  simp

theorem chebT_abs (k : ℕ) (x : ℝ) : |chebT k x| = |chebT k (abs x)| := by
  rcases abs_cases x with ⟨h, _⟩ | ⟨h, _⟩
  · rw [h]
  · rw [h, chebT, chebT, Polynomial.Chebyshev.T_eval_neg, abs_mul]
    rcases Int.even_or_odd (k : ℤ) with he | ho
    · rw [Int.negOnePow_even _ he]; simp
    · rw [Int.negOnePow_odd _ ho]; simp

theorem chebT_lt (k : ℕ) {x y : ℝ} (hx : 1 ≤ x) (hxy : x < y) : chebT (k + 1) x < chebT (k + 1) y := by
  have hy : 1 ≤ y := by linarith
  have ex := Real.cosh_arcosh hx
  have ey := Real.cosh_arcosh hy
  have h0 := Real.arcosh_nonneg hx
  have h1 := Real.arcosh_nonneg hy
  have hlt : Real.arcosh x < Real.arcosh y := by
    by_contra h
    have := Real.cosh_le_cosh.2 (show |Real.arcosh y| ≤ |Real.arcosh x| by
      rw [abs_of_nonneg h0, abs_of_nonneg h1]; exact not_lt.1 h)
    rw [ex, ey] at this
    linarith
  unfold chebT
  rw [← ex, ← ey, Polynomial.Chebyshev.T_real_cosh, Polynomial.Chebyshev.T_real_cosh]
  apply Real.cosh_lt_cosh.2
  have hk : (0 : ℝ) < ((k + 1 : ℕ) : ℤ) := by exact_mod_cast Nat.succ_pos k
  rw [abs_mul, abs_mul, abs_of_nonneg h0, abs_of_nonneg h1, abs_of_pos hk]
  exact mul_lt_mul_of_pos_left hlt hk

theorem chebT_one_le (k : ℕ) {y : ℝ} (hy : 1 ≤ y) : 1 ≤ chebT k y :=
  Polynomial.Chebyshev.one_le_eval_T_real _ hy

/-- Outside the interval the Chebyshev polynomial grows, inside it is bounded. -/
theorem chebT_abs_lt (k : ℕ) {x y : ℝ} (hy : 1 < y) (hxy : |x| < y) :
    |chebT (k + 1) x| < chebT (k + 1) y := by
  by_cases hx : |x| ≤ 1
  · refine lt_of_le_of_lt (Polynomial.Chebyshev.abs_eval_T_real_le_one _ hx) ?_
    have := chebT_lt k (le_refl (1 : ℝ)) hy
    refine lt_of_le_of_lt ?_ this
    exact chebT_one_le (k + 1) (le_refl 1)
  · rw [chebT_abs]
    have hx' : 1 ≤ |x| := le_of_lt (not_le.1 hx)
    rw [abs_of_nonneg (by linarith [chebT_one_le (k + 1) hx'])]
    exact chebT_lt k hx' hxy

theorem chebT_abs_gt (k : ℕ) {x y : ℝ} (hy : 1 ≤ y) (hxy : y < |x|) :
    chebT (k + 1) y < |chebT (k + 1) x| := by
  rw [chebT_abs]
  have hx' : 1 ≤ |x| := by linarith
  rw [abs_of_nonneg (by linarith [chebT_one_le (k + 1) hx'])]
  exact chebT_lt k hy hxy

theorem chebT_abs_eq (k : ℕ) {x y : ℝ} (hy : 1 ≤ y) (hxy : |x| = y) : |chebT k x| = chebT k y := by
  rw [chebT_abs, hxy, abs_of_nonneg (by linarith [chebT_one_le k hy])]

section

variable {n : ℕ}

/-- The loop on an eigenvector. -/
theorem chebyshevLoop_eigen {A P : (Fin n → ℝ) → Fin n → ℝ} (hA : ∀ (c : ℝ) v, A (c • v) = c • A v)
    (hP : ∀ (c : ℝ) v, P (c • v) = c • P v) {v : Fin n → ℝ} {lam : ℝ} (hv : P (A v) = lam • v) {delta theta : ℝ}
    (hd : 0 < delta) (hs : delta < theta) (m k : ℕ) (xold x : Fin n → ℝ) (rho : ℝ)
    (hold : xold = (1 - chebT k ((theta - lam) / delta) / chebT k (theta / delta)) • v)
    (hx : x = (1 - chebT (k + 1) ((theta - lam) / delta) / chebT (k + 1) (theta / delta)) • v)
    (hrho : rho = chebT k (theta / delta) / chebT (k + 1) (theta / delta)) :
    chebyshevLoop A P (A v) delta (theta / delta) m xold x rho
      = (1 - chebT (k + 1 + m) ((theta - lam) / delta) / chebT (k + 1 + m) (theta / delta)) • v := by
  have hσ : 1 ≤ theta / delta := by rw [le_div_iff₀ hd]; linarith
  have hpos : ∀ j, 0 < chebT j (theta / delta) := fun j => by linarith [chebT_one_le j hσ]
  induction m generalizing k xold x rho with
  | zero => exact hx
  | succ m ih =>
    rw [chebyshevLoop]
    have hr' : 1 / (2 * (theta / delta) - rho) = chebT (k + 1) (theta / delta) / chebT (k + 2) (theta / delta) := by
      rw [hrho, chebT_add_two, eq_div_iff (by rw [← chebT_add_two]; exact (hpos _).ne')]
      have h1 := (hpos (k + 1)).ne'
      have h2 := (hpos (k + 2)).ne'
      rw [chebT_add_two] at h2
      have h3 : 2 * (theta / delta) - chebT k (theta / delta) / chebT (k + 1) (theta / delta)
          = (2 * (theta / delta) * chebT (k + 1) (theta / delta) - chebT k (theta / delta))
            / chebT (k + 1) (theta / delta) := by
        rw [eq_div_iff h1, sub_mul, div_mul_cancel₀ _ h1]
      rw [h3, one_div_div, div_mul_cancel₀ _ h2]
    have := ih (k + 1) x (x + (1 / (2 * (theta / delta) - rho) * rho) • (x - xold)
      + (2 * (1 / (2 * (theta / delta) - rho)) / delta) • P (A v - A x)) (1 / (2 * (theta / delta) - rho)) hx ?_ hr'
    · rw [this]
      congr 4 <;> omega
    · set a := chebT k (theta / delta) with ha
      set b := chebT (k + 1) (theta / delta) with hb
      set c := chebT (k + 2) (theta / delta) with hc
      have hab : c = 2 * (theta / delta) * b - a := chebT_add_two k _
      set a' := chebT k ((theta - lam) / delta) with ha'
      set b' := chebT (k + 1) ((theta - lam) / delta) with hb'
      have hc' : chebT (k + 2) ((theta - lam) / delta) = 2 * ((theta - lam) / delta) * b' - a' :=
        chebT_add_two k _
      have h1 : a ≠ 0 := (hpos k).ne'
      have h2 : b ≠ 0 := (hpos (k + 1)).ne'
      have h3 : c ≠ 0 := (hpos (k + 2)).ne'
      have hd' : delta ≠ 0 := hd.ne'
      rw [hr', hrho, hx, hold, hA]
      have hsub : A v - (1 - b' / b) • A v = (b' / b) • A v := by
        rw [sub_smul, one_smul, sub_sub_cancel]
      rw [hsub, hP, hv]
      change _ = (1 - chebT (k + 2) ((theta - lam) / delta) / c) • v
      rw [hc']
      simp only [← sub_smul, smul_smul, ← add_smul]
      congr 1
      have hθ : theta = delta * (c + a) / (2 * b) := by
        rw [eq_div_iff (by positivity), hab]
        field_simp
        ring
      rw [hθ]
      field_simp
      ring

/-- The factor by which one smoothing step multiplies the error in the direction of an eigenvector. -/
noncomputable def chebFactor (deg : ℕ) (delta theta lam : ℝ) : ℝ :=
  if deg < 2 ∨ |delta| < 1 / 10 ^ 40 then 1 - lam / theta
  else chebT deg ((theta - lam) / delta) / chebT deg (theta / delta)

theorem chebFactor_lt (deg : ℕ) {delta theta lam : ℝ} (hd : 0 ≤ delta) (hs : delta < theta)
    (h0 : 0 < lam) (h1 : lam < 2 * theta) : |chebFactor deg delta theta lam| < 1 := by
  have ht : 0 < theta := by linarith
  unfold chebFactor
  split_ifs with h
  · rw [abs_lt]
    constructor
    · have : lam / theta < 2 := by rw [div_lt_iff₀ ht]; linarith
      linarith
    · have : 0 < lam / theta := div_pos h0 ht
      linarith
  · push Not at h
    have hd' : 0 < delta := by
      rw [abs_of_nonneg hd] at h
      exact lt_of_lt_of_le (by positivity) h.2
    have hσ : 1 < theta / delta := by rw [lt_div_iff₀ hd']; linarith
    obtain ⟨k, rfl⟩ : ∃ k, deg = k + 1 := ⟨deg - 1, by omega⟩
    have hpos : 0 < chebT (k + 1) (theta / delta) := by linarith [chebT_one_le (k + 1) hσ.le]
    rw [abs_div, abs_of_pos hpos, div_lt_one hpos]
    apply chebT_abs_lt k hσ
    rw [abs_div, abs_of_pos hd', div_lt_div_iff_of_pos_right hd', abs_lt]
    constructor <;> linarith

theorem chebFactor_ge (deg : ℕ) {delta theta lam : ℝ} (hd : 0 ≤ delta) (hs : delta < theta)
    (h1 : 2 * theta ≤ lam) : 1 ≤ |chebFactor deg delta theta lam| := by
  have ht : 0 < theta := by linarith
  unfold chebFactor
  split_ifs with h
  · rw [le_abs]
    right
    have : 2 ≤ lam / theta := by rw [le_div_iff₀ ht]; linarith
    linarith
  · push Not at h
    have hd' : 0 < delta := by
      rw [abs_of_nonneg hd] at h
      exact lt_of_lt_of_le (by positivity) h.2
    have hσ : 1 < theta / delta := by rw [lt_div_iff₀ hd']; linarith
    obtain ⟨k, rfl⟩ : ∃ k, deg = k + 1 := ⟨deg - 1, by omega⟩
    have hpos : 0 < chebT (k + 1) (theta / delta) := by linarith [chebT_one_le (k + 1) hσ.le]
    rw [abs_div, abs_of_pos hpos, le_div_iff₀ hpos, one_mul]
    have hx : |(theta - lam) / delta| = (lam - theta) / delta := by
      rw [abs_div, abs_of_pos hd', abs_of_nonpos (by linarith), neg_sub]
    rcases lt_or_eq_of_le h1 with hlt | heq
    · apply le_of_lt
      apply chebT_abs_gt k hσ.le
      rw [hx, div_lt_div_iff_of_pos_right hd']
      linarith
    · rw [chebT_abs_eq (k + 1) hσ.le]
      rw [hx, ← heq]
      congr 1
      ring

theorem chebFactor_gt (deg : ℕ) {delta theta lam : ℝ} (hd : 0 ≤ delta) (hs : delta < theta)
    (h1 : 2 * theta < lam) : 1 < |chebFactor deg delta theta lam| := by
  have ht : 0 < theta := by linarith
  unfold chebFactor
  split_ifs with h
  · rw [lt_abs]
    right
    have : 2 < lam / theta := by rw [lt_div_iff₀ ht]; linarith
    linarith
  · push Not at h
    have hd' : 0 < delta := by
      rw [abs_of_nonneg hd] at h
      exact lt_of_lt_of_le (by positivity) h.2
    have hσ : 1 < theta / delta := by rw [lt_div_iff₀ hd']; linarith
    obtain ⟨k, rfl⟩ : ∃ k, deg = k + 1 := ⟨deg - 1, by omega⟩
    have hpos : 0 < chebT (k + 1) (theta / delta) := by linarith [chebT_one_le (k + 1) hσ.le]
    rw [abs_div, abs_of_pos hpos, lt_div_iff₀ hpos, one_mul]
    have hx : |(theta - lam) / delta| = (lam - theta) / delta := by
      rw [abs_div, abs_of_pos hd', abs_of_nonpos (by linarith), neg_sub]
    apply chebT_abs_gt k hσ.le
    rw [hx, div_lt_div_iff_of_pos_right hd']
    linarith

/-- The degree that is used. -/
def effectiveDegree (s : ChebyshevSettings ℝ) (auto : ℕ) : ℕ :=
  if s.degree = 2 ^ 32 - 1 then auto else s.degree

theorem chebyshevLoop_linear {A P : (Fin n → ℝ) → Fin n → ℝ} (hA : ∀ (c d : ℝ) u v, A (c • u + d • v)
    = c • A u + d • A v) (hP : ∀ (c d : ℝ) u v, P (c • u + d • v) = c • P u + d • P v) (delta sigma : ℝ)
    (m : ℕ) (c d : ℝ) (r r' xo xo' x x' : Fin n → ℝ) (rho : ℝ) :
    chebyshevLoop A P (c • r + d • r') delta sigma m (c • xo + d • xo') (c • x + d • x') rho
      = c • chebyshevLoop A P r delta sigma m xo x rho + d • chebyshevLoop A P r' delta sigma m xo' x' rho := by
  induction m generalizing xo xo' x x' rho with
  | zero => rfl
  | succ m ih =>
    simp only [chebyshevLoop]
    rw [← ih]
    congr 1
    have h1 : c • r + d • r' - A (c • x + d • x') = c • (r - A x) + d • (r' - A x') := by
      rw [hA]
      module
    rw [h1, hP]
    module

theorem chebyshevVmult_linear (s : ChebyshevSettings ℝ) (auto : ℕ) (ritz : List ℝ)
    {A : (Fin n → ℝ) → Fin n → ℝ} (hA : ∀ (c d : ℝ) u v, A (c • u + d • v) = c • A u + d • A v)
    (dinv : Fin n → ℝ) (c d : ℝ) (r r' : Fin n → ℝ) :
    chebyshevVmult s auto ritz A dinv (c • r + d • r')
      = c • chebyshevVmult s auto ritz A dinv r + d • chebyshevVmult s auto ritz A dinv r' := by
  have hP : ∀ (c d : ℝ) (u v : Fin n → ℝ), (fun i => dinv i * (c • u + d • v) i)
      = c • (fun i => dinv i * u i) + d • (fun i => dinv i * v i) := by
    intro c d u v
    funext i
    simp only [Pi.add_apply, Pi.smul_apply, smul_eq_mul]
    ring
  simp only [chebyshevVmult]
  have hx : ∀ t : ℝ, (1 / t) • (fun i => dinv i * (c • r + d • r') i)
      = c • ((1 / t) • fun i => dinv i * r i) + d • ((1 / t) • fun i => dinv i * r' i) := by
    intro t
    rw [hP]
    module
  split_ifs with h1 h2 h2
  all_goals first
    | exact hx _
    | (rw [hx]
       have h := chebyshevLoop_linear hA (P := fun (v : Fin n → ℝ) (i : Fin n) => dinv i * v i) hP
       have h0 : (0 : Fin n → ℝ) = c • 0 + d • 0 := by simp
       conv_lhs => rw [h0]
       exact h _ _ _ c d r r' 0 0 _ _ _)

theorem chebyshevVmult_eigen (s : ChebyshevSettings ℝ) (auto : ℕ) (ritz : List ℝ)
    {A : (Fin n → ℝ) → Fin n → ℝ} (hA : ∀ (c : ℝ) v, A (c • v) = c • A v) (dinv : Fin n → ℝ) {v : Fin n → ℝ}
    {lam alpha lmax : ℝ} (hint : chebyshevInterval s ritz = (alpha, lmax)) (hv : ∀ i, dinv i * A v i = lam * v i)
    (ha : 0 < alpha) (hl : alpha ≤ lmax) :
    v - chebyshevVmult s auto ritz A dinv (A v)
      = chebFactor (effectiveDegree s auto) ((lmax - alpha) / 2) ((lmax + alpha) / 2) lam • v := by
  have hP : (fun i => dinv i * A v i) = lam • v := funext hv
  have ht : (lmax + alpha) / 2 ≠ 0 := by linarith
  rw [sub_eq_iff_eq_add]
  simp only [chebyshevVmult, hint]
  unfold chebFactor effectiveDegree
  generalize (if s.degree = 2 ^ 32 - 1 then auto else s.degree) = deg
  split_ifs with h
  · rw [hP, smul_smul, ← add_smul]
    have : 1 - lam / ((lmax + alpha) / 2) + 1 / ((lmax + alpha) / 2) * lam = 1 := by
      field_simp
      ring
    rw [this, one_smul]
  · push Not at h
    have hd : 0 < (lmax - alpha) / 2 := by
      have h2 := h.2
      rw [abs_of_nonneg (by linarith)] at h2
      exact lt_of_lt_of_le (by positivity) h2
    obtain ⟨k, rfl⟩ : ∃ k, deg = k + 1 := ⟨deg - 1, by omega⟩
    have := chebyshevLoop_eigen (A := A) (P := fun (v : Fin n → ℝ) (i : Fin n) => dinv i * v i) hA
      (by intro c v; funext i; simp only [Pi.smul_apply, smul_eq_mul]; ring) (v := v) hP hd
      (theta := (lmax + alpha) / 2) (by linarith) k 0 0
      ((1 / ((lmax + alpha) / 2)) • fun i => dinv i * A v i) (((lmax - alpha) / 2) / ((lmax + alpha) / 2))
      (by rw [chebT_zero, chebT_zero]; simp) (by
        rw [hP, zero_add, chebT_one, chebT_one, smul_smul]
        congr 1
        have h3 : lmax + alpha ≠ 0 := by linarith
        have h4 : lmax - alpha ≠ 0 := by linarith
        field_simp
        ring) (by
        rw [zero_add, chebT_one, chebT_zero]
        field_simp)
    rw [Nat.add_sub_cancel, this, zero_add, ← add_smul, add_comm 1 k]
    rw [add_sub_cancel, one_smul]

/-- For a positive definite matrix and a positive scaling there is a basis of eigenvectors, orthogonal in
energy. -/
theorem scaled_basis {A : Matrix (Fin n) (Fin n) ℝ} (hA : IsSpd A) {dinv : Fin n → ℝ} (hd : ∀ i, 0 < dinv i) :
    ∃ (v : Fin n → Fin n → ℝ) (lam : Fin n → ℝ), (∀ j, 0 < lam j) ∧ (∀ j, v j ≠ 0) ∧
      (∀ j i, dinv i * A.mulVec (v j) i = lam j * v j i) ∧
      (∀ j k, v j ⬝ᵥ A.mulVec (v k) = if j = k then lam j else 0) ∧
      ∀ e : Fin n → ℝ, ∃ c : Fin n → ℝ, e = ∑ j, c j • v j := by
  set q : Fin n → ℝ := fun i => Real.sqrt (dinv i) with hq
  have hq0 : ∀ i, 0 < q i := fun i => Real.sqrt_pos.2 (hd i)
  have hqq : ∀ i, q i * q i = dinv i := fun i => Real.mul_self_sqrt (hd i).le
  set S : Matrix (Fin n) (Fin n) ℝ := Matrix.of fun i j => q i * A i j * q j with hS
  have hherm : S.IsHermitian := by
    ext i j
    simp only [Matrix.conjTranspose_apply, hS, Matrix.of_apply, star_trivial]
    have := congrFun (congrFun hA.1 i) j
    rw [Matrix.transpose_apply] at this
    rw [this]
    ring
  have hSm : ∀ (u : Fin n → ℝ) i, S.mulVec u i = q i * A.mulVec (fun j => q j * u j) i := by
    intro u i
    simp only [Matrix.mulVec, dotProduct, hS, Matrix.of_apply, Finset.mul_sum]
    apply Finset.sum_congr rfl
    intro j _
    ring
  set U := hherm.eigenvectorBasis with hU
  have hort : ∀ j k, (∑ i, U j i * U k i) = if j = k then 1 else 0 := by
    intro j k
    have := orthonormal_iff_ite.1 U.orthonormal k j
    rw [PiLp.inner_apply] at this
    simp only [RCLike.inner_apply, conj_trivial] at this
    rw [this]
    simp only [eq_comm]
  have heig : ∀ j i, q i * A.mulVec (fun i => q i * U j i) i = hherm.eigenvalues j * U j i := by
    intro j i
    rw [← hSm]
    have := congrFun (hherm.mulVec_eigenvectorBasis j) i
    simpa using this
  have hform : ∀ j k, (fun i => q i * U j i) ⬝ᵥ A.mulVec (fun i => q i * U k i)
      = if j = k then hherm.eigenvalues j else 0 := by
    intro j k
    have : (fun i => q i * U j i) ⬝ᵥ A.mulVec (fun i => q i * U k i)
        = hherm.eigenvalues k * ∑ i, U j i * U k i := by
      rw [dotProduct, Finset.mul_sum]
      apply Finset.sum_congr rfl
      intro i _
      have := heig k i
      linear_combination U j i * this
    rw [this, hort]
    split_ifs with h
    · rw [h, mul_one]
    · rw [mul_zero]
  have hne : ∀ j, (fun i => q i * U j i) ≠ 0 := by
    intro j h0
    have h1 := hort j j
    rw [if_pos rfl] at h1
    have : ∀ i, U j i = 0 := by
      intro i
      have := congrFun h0 i
      simp only [Pi.zero_apply] at this
      exact (mul_eq_zero.1 this).resolve_left (hq0 i).ne'
    simp only [this, mul_zero, Finset.sum_const_zero] at h1
    exact zero_ne_one h1
  refine ⟨fun j i => q i * U j i, hherm.eigenvalues, ?_, hne, ?_, hform, ?_⟩
  · intro j
    have := hA.2 _ (hne j)
    rw [hform, if_pos rfl] at this
    exact this
  · intro j i
    have := heig j i
    rw [← hqq]
    linear_combination q i * this
  · intro e
    set f : EuclideanSpace ℝ (Fin n) := WithLp.toLp 2 fun i => e i / q i with hf
    refine ⟨fun j => U.repr f j, ?_⟩
    have h := U.sum_repr f
    funext i
    have hi := congrArg (fun g : EuclideanSpace ℝ (Fin n) => g i) h
    simp only [PiLp.smul_apply, smul_eq_mul, WithLp.ofLp_sum, Finset.sum_apply, hf] at hi
    rw [Finset.sum_apply]
    simp only [Pi.smul_apply, smul_eq_mul]
    have : e i = q i * (e i / q i) := by
      rw [mul_div_cancel₀ _ (hq0 i).ne']
    rw [this]
    have hi' : ∑ j, U.repr f j * U j i = e i / q i := by simpa [hf] using hi
    rw [← hi', Finset.mul_sum]
    apply Finset.sum_congr rfl
    intro j _
    ring

/-- The energy of a combination of eigenvectors. -/
theorem energy_combination {A : Matrix (Fin n) (Fin n) ℝ} {v : Fin n → Fin n → ℝ} {lam : Fin n → ℝ}
    (hv : ∀ j k, v j ⬝ᵥ A.mulVec (v k) = if j = k then lam j else 0) (c : Fin n → ℝ) :
    energyOf A (∑ j, c j • v j) = ∑ j, lam j * (c j * c j) := by
  unfold energyOf
  rw [Matrix.mulVec_sum, dotProduct_sum]
  apply Finset.sum_congr rfl
  intro k _
  rw [sum_dotProduct, Matrix.mulVec_smul]
  simp only [smul_dotProduct, dotProduct_smul, hv, smul_eq_mul, mul_ite, mul_zero, Finset.sum_ite_eq',
    Finset.mem_univ, if_true]
  ring

end

end Mfmg
