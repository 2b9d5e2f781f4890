import Verif.Spec.LanczosRate
import Verif.Lemmas.CgRate
import Verif.Props.Lanczos
import Mathlib.Analysis.InnerProductSpace.Spectrum

/-!
# Lemmas on the convergence of the Lanczos eigensolver
-/

set_option autoImplicit false

namespace Mfmg

open Finset
open scoped InnerProductSpace

section

variable {E : Type} [NormedAddCommGroup E] [InnerProductSpace ℝ E]

/-- A basis of eigenvectors of `S`. -/
theorem SmallestSplit.basis {A : E →ₗ[ℝ] E} {S : Submodule ℝ E} [FiniteDimensional ℝ S] {u : E}
    {l1 l2 ln : ℝ} (h : SmallestSplit A S u l1 l2 ln) :
    ∃ (n : ℕ) (b : Fin n → E) (lam : Fin n → ℝ), Orthonormal ℝ b ∧ (∀ i, b i ∈ S) ∧
      (∀ i, A (b i) = lam i • b i) ∧ (∀ i, l2 ≤ lam i ∧ lam i ≤ ln) ∧
      ∀ x ∈ S, x = ∑ i, ⟪b i, x⟫_ℝ • b i := by
  set AS : S →ₗ[ℝ] S := A.restrict h.maps with hAS
  have hsym : AS.IsSymmetric := by
    intro x y
    exact h.symm x x.2 y y.2
  set B := hsym.eigenvectorBasis rfl with hB
  set lam : Fin (Module.finrank ℝ S) → ℝ := fun i => hsym.eigenvalues rfl i with hlam
  have heig : ∀ i, A (B i : E) = lam i • (B i : E) := by
    intro i
    have := congrArg Subtype.val (hsym.apply_eigenvectorBasis rfl i)
    exact this
  have horth : Orthonormal ℝ (fun i => (B i : E)) := by
    have := B.orthonormal
    exact this.comp_linearIsometry S.subtypeₗᵢ
  refine ⟨_, fun i => (B i : E), lam, horth, fun i => (B i).2, heig, ?_, ?_⟩
  · intro i
    have h1 := h.lower _ (B i).2
    have h2 := h.upper _ (B i).2
    have hn : ⟪(B i : E), (B i : E)⟫_ℝ = 1 := by
      rw [real_inner_self_eq_norm_sq, horth.1 i]; norm_num
    rw [heig i, inner_smul_left, hn] at h1 h2
    simp only [conj_trivial, mul_one] at h1 h2
    exact ⟨h1, h2⟩
  · intro x hx
    have := congrArg Subtype.val (B.sum_repr ⟨x, hx⟩)
    simp only [AddSubmonoidClass.coe_finsetSum, Submodule.coe_smul, OrthonormalBasis.repr_apply_apply] at this
    exact this.symm

/-- Products of factors of the operator shrink vectors of `S`. -/
noncomputable def shrink (A : E →ₗ[ℝ] E) (l1 ln : ℝ) (ω : ℕ → ℝ) (x : E) : ℕ → E
  | 0 => x
  | m + 1 => shrink A l1 ln ω x m - (ω m / (ln - l1)) • (A (shrink A l1 ln ω x m) - l1 • shrink A l1 ln ω x m)

theorem parseval {n : ℕ} {b : Fin n → E} {x : E} (hx : x = ∑ i, ⟪b i, x⟫_ℝ • b i)
    (y : E) : ⟪x, y⟫_ℝ = ∑ i, ⟪b i, x⟫_ℝ * ⟪b i, y⟫_ℝ := by
  conv_lhs => rw [hx]
  rw [sum_inner]
  refine Finset.sum_congr rfl fun i _ => ?_
  rw [inner_smul_left]
  simp

theorem shrink_mem {A : E →ₗ[ℝ] E} {S : Submodule ℝ E} (h : ∀ x ∈ S, A x ∈ S) (l1 ln : ℝ) (ω : ℕ → ℝ)
    {x : E} (hx : x ∈ S) (m : ℕ) : shrink A l1 ln ω x m ∈ S := by
  induction m with
  | zero => exact hx
  | succ m ih =>
    exact S.sub_mem ih (S.smul_mem _ (S.sub_mem (h _ ih) (S.smul_mem _ ih)))

theorem SmallestSplit.inner_eig {A : E →ₗ[ℝ] E} {S : Submodule ℝ E} {u : E}
    {l1 l2 ln : ℝ} (h : SmallestSplit A S u l1 l2 ln) {b x : E} (hb : b ∈ S) (hx : x ∈ S) {lam : ℝ}
    (e : A b = lam • b) : ⟪b, A x⟫_ℝ = lam * ⟪b, x⟫_ℝ := by
  rw [← h.symm b hb x hx, e, inner_smul_left]
  simp

theorem SmallestSplit.shrinks {A : E →ₗ[ℝ] E} {S : Submodule ℝ E} [FiniteDimensional ℝ S] {u : E}
    {l1 l2 ln : ℝ} (h : SmallestSplit A S u l1 l2 ln) (m : ℕ) : ∃ ω : ℕ → ℝ, ∀ g ∈ S,
      ‖shrink A l1 ln ω g m‖ ≤
        2 * ((1 - Real.sqrt (relativeGap l1 l2 ln)) / (1 + Real.sqrt (relativeGap l1 l2 ln))) ^ m * ‖g‖ := by
  have h1 := h.gap
  have h2 := h.spread
  set c : ℝ := (ln - l1) / (l2 - l1) with hc
  have hc1 : 1 < c := by rw [hc, lt_div_iff₀ (by linarith)]; linarith
  have hgap : relativeGap l1 l2 ln = c⁻¹ := by rw [relativeGap, hc, inv_div]
  have hsq : 0 < Real.sqrt c := Real.sqrt_pos.2 (by linarith)
  have hsq1 : 1 < Real.sqrt c := by
    rw [show (1 : ℝ) = Real.sqrt 1 by simp]; exact Real.sqrt_lt_sqrt (by norm_num) hc1
  have hrate : (1 - Real.sqrt (relativeGap l1 l2 ln)) / (1 + Real.sqrt (relativeGap l1 l2 ln)) =
      (Real.sqrt c - 1) / (Real.sqrt c + 1) := by
    rw [hgap, Real.sqrt_inv]
    field_simp
  rw [hrate]
  set ρ := (Real.sqrt c - 1) / (Real.sqrt c + 1) with hρ
  have hρ0 : 0 ≤ ρ := div_nonneg (by linarith) (by linarith)
  obtain ⟨ω, hω⟩ := step_lengths m hc1
  refine ⟨ω, fun g hg => ?_⟩
  obtain ⟨n, b, lam, hb, hbS, hAb, hlam, hsum⟩ := h.basis
  have hcoef : ∀ k i, ⟪b i, shrink A l1 ln ω g k⟫_ℝ =
      (∏ j ∈ range k, (1 - ω j * ((lam i - l1) / (ln - l1)))) * ⟪b i, g⟫_ℝ := by
    intro k i
    induction k with
    | zero => simp [shrink]
    | succ k ih =>
      rw [shrink, inner_sub_right, inner_smul_right, inner_sub_right, inner_smul_right,
        h.inner_eig (hbS i) (shrink_mem h.maps l1 ln ω hg k) (hAb i), ih, prod_range_succ]
      ring
  have hmem := shrink_mem h.maps l1 ln ω hg m
  have hn1 : ‖shrink A l1 ln ω g m‖ ^ 2 ≤ (2 * ρ ^ m * ‖g‖) ^ 2 := by
    rw [← real_inner_self_eq_norm_sq, parseval (hsum _ hmem), mul_pow, ← real_inner_self_eq_norm_sq,
      parseval (hsum _ hg), Finset.mul_sum]
    refine Finset.sum_le_sum fun i _ => ?_
    rw [hcoef]
    have hp := hω ((lam i - l1) / (ln - l1)) (by
      rw [hc, one_div, inv_div]
      exact div_le_div_of_nonneg_right (by linarith [(hlam i).1]) (by linarith)) (by
      rw [div_le_one (by linarith)]; linarith [(hlam i).2])
    have hp2 : (∏ j ∈ range m, (1 - ω j * ((lam i - l1) / (ln - l1)))) ^ 2 ≤ (2 * ρ ^ m) ^ 2 := by
      rw [← sq_abs]
      exact pow_le_pow_left₀ (abs_nonneg _) hp 2
    have : 0 ≤ ⟪b i, g⟫_ℝ ^ 2 := sq_nonneg _
    nlinarith
  exact abs_le_of_sq_le_sq' hn1 (by positivity) |>.2

/-- Two inequalities for vectors of `S`. -/
theorem SmallestSplit.quad {A : E →ₗ[ℝ] E} {S : Submodule ℝ E} [FiniteDimensional ℝ S] {u : E}
    {l1 l2 ln : ℝ} (h : SmallestSplit A S u l1 l2 ln) {z : E} (hz : z ∈ S) :
    0 ≤ ⟪A z - l1 • z, ln • z - A z⟫_ℝ ∧ 0 ≤ ⟪A z - l1 • z, A z - l2 • z⟫_ℝ := by
  obtain ⟨n, b, lam, hb, hbS, hAb, hlam, hsum⟩ := h.basis
  have h1 := h.gap
  have hm : A z - l1 • z ∈ S := S.sub_mem (h.maps _ hz) (S.smul_mem _ hz)
  rw [parseval (hsum _ hm), parseval (hsum _ hm)]
  constructor
  · refine Finset.sum_nonneg fun i _ => ?_
    rw [inner_sub_right, inner_sub_right, inner_smul_right, inner_smul_right,
      h.inner_eig (hbS i) hz (hAb i)]
    have : 0 ≤ (lam i - l1) * (ln - lam i) :=
      mul_nonneg (by linarith [(hlam i).1]) (by linarith [(hlam i).2])
    nlinarith [sq_nonneg ⟪b i, z⟫_ℝ, mul_nonneg this (sq_nonneg ⟪b i, z⟫_ℝ)]
  · refine Finset.sum_nonneg fun i _ => ?_
    rw [inner_sub_right, inner_sub_right, inner_smul_right, inner_smul_right,
      h.inner_eig (hbS i) hz (hAb i)]
    have : 0 ≤ (lam i - l1) * (lam i - l2) :=
      mul_nonneg (by linarith [(hlam i).1]) (by linarith [(hlam i).1])
    nlinarith [sq_nonneg ⟪b i, z⟫_ℝ, mul_nonneg this (sq_nonneg ⟪b i, z⟫_ℝ)]

/-! ### Combinations of the Lanczos vectors -/

/-- The Gram matrix of the Lanczos vectors is the unit matrix. -/
theorem combination_inner {A : E → E} {m : ℕ} {v : ℕ → E} {T : ℕ → ℕ → ℝ} {w : E}
    (h : LanczosRelation A m v T w) (c d : ℕ → ℝ) :
    ⟪∑ j ∈ range m, c j • v j, ∑ j ∈ range m, d j • v j⟫_ℝ = ∑ j ∈ range m, c j * d j := by
  rw [sum_inner]
  refine Finset.sum_congr rfl fun i hi => ?_
  rw [inner_sum, Finset.sum_eq_single i]
  · rw [inner_smul_left, inner_smul_right, h.orthonormal i i (mem_range.1 hi) (mem_range.1 hi), if_pos rfl]
    simp
  · intro j hj hne
    rw [inner_smul_left, inner_smul_right, h.orthonormal i j (mem_range.1 hi) (mem_range.1 hj),
      if_neg (fun e => hne e.symm)]
    simp
  · intro hn; exact absurd hi hn

/-- The image of a combination, up to the rest. -/
theorem combination_image {A : E →ₗ[ℝ] E} {m : ℕ} {v : ℕ → E} {T : ℕ → ℕ → ℝ} {w : E}
    (h : LanczosRelation A m v T w) (hm : 1 ≤ m) (c : ℕ → ℝ) :
    A (∑ j ∈ range m, c j • v j) =
      ∑ j ∈ range m, (∑ k ∈ range m, T j k * c k) • v j + c (m - 1) • w := by
  rw [map_sum]
  have e1 : ∀ k ∈ range m, A (c k • v k) = ∑ j ∈ range m, (T j k * c k) • v j +
      (if k = m - 1 then c (m - 1) • w else 0) := by
    intro k hk
    rw [map_smul, h.relation k (mem_range.1 hk), smul_add, Finset.smul_sum]
    congr 1
    · refine Finset.sum_congr rfl fun j _ => ?_
      rw [smul_smul, mul_comm]
    · by_cases hk' : k + 1 = m
      · rw [if_pos hk', if_pos (by omega), show k = m - 1 by omega]
      · rw [if_neg hk', if_neg (by have := mem_range.1 hk; omega), smul_zero]
  rw [Finset.sum_congr rfl e1, Finset.sum_add_distrib, Finset.sum_comm]
  congr 1
  · refine Finset.sum_congr rfl fun j _ => ?_
    rw [Finset.sum_smul]
  · rw [Finset.sum_ite_eq' (range m) (m - 1), if_pos (mem_range.2 (by omega))]

theorem combination_quad {A : E →ₗ[ℝ] E} {m : ℕ} {v : ℕ → E} {T : ℕ → ℕ → ℝ} {w : E}
    (h : LanczosRelation A m v T w) (hm : 1 ≤ m) (c : ℕ → ℝ) :
    ⟪A (∑ j ∈ range m, c j • v j), ∑ j ∈ range m, c j • v j⟫_ℝ =
      ∑ j ∈ range m, (∑ k ∈ range m, T j k * c k) * c j := by
  rw [combination_image h hm, inner_add_left, combination_inner h, inner_smul_left]
  have : ⟪w, ∑ j ∈ range m, c j • v j⟫_ℝ = 0 := by
    rw [inner_sum]
    refine Finset.sum_eq_zero fun j hj => ?_
    rw [inner_smul_right, real_inner_comm, h.rest j (mem_range.1 hj), mul_zero]
  rw [this]
  simp

/-- `x` is a combination of the first `j + 1` Lanczos vectors. -/
def InFirst (m : ℕ) (v : ℕ → E) (j : ℕ) (x : E) : Prop :=
  ∃ c : ℕ → ℝ, (∀ i, j < i → c i = 0) ∧ x = ∑ i ∈ range m, c i • v i

theorem InFirst.sub {m : ℕ} {v : ℕ → E} {j : ℕ} {x y : E} (a b : ℝ) (hx : InFirst m v j x)
    (hy : InFirst m v j y) : InFirst m v j (a • x + b • y) := by
  obtain ⟨c, hc, rfl⟩ := hx
  obtain ⟨d, hd, rfl⟩ := hy
  refine ⟨fun i => a * c i + b * d i, fun i hi => by simp only [hc i hi, hd i hi]; ring, ?_⟩
  rw [Finset.smul_sum, Finset.smul_sum, ← Finset.sum_add_distrib]
  refine Finset.sum_congr rfl fun i _ => ?_
  rw [smul_smul, smul_smul, ← add_smul]

theorem InFirst.mono {m : ℕ} {v : ℕ → E} {j k : ℕ} {x : E} (hx : InFirst m v j x) (h : j ≤ k) :
    InFirst m v k x := by
  obtain ⟨c, hc, e⟩ := hx
  exact ⟨c, fun i hi => hc i (by omega), e⟩

theorem tridiag_far (d s : List ℝ) {j k : ℕ} (h : k + 1 < j) : tridiagEntry d s j k = 0 := by
  rw [tridiagEntry, if_neg (by omega), if_neg (by omega), if_neg (by omega)]

theorem InFirst.image {A : E →ₗ[ℝ] E} {m : ℕ} {v : ℕ → E} {d s : List ℝ} {w : E}
    (h : LanczosRelation A m v (tridiagEntry d s) w) {j : ℕ} (hj : j + 1 < m) {x : E}
    (hx : InFirst m v j x) : InFirst m v (j + 1) (A x) := by
  obtain ⟨c, hc, rfl⟩ := hx
  refine ⟨fun i => ∑ k ∈ range m, tridiagEntry d s i k * c k, fun i hi => ?_, ?_⟩
  · refine Finset.sum_eq_zero fun k _ => ?_
    by_cases hk : j < k
    · rw [hc k hk, mul_zero]
    · rw [tridiag_far d s (by omega), zero_mul]
  · rw [combination_image h (by omega), hc (m - 1) (by omega), zero_smul, add_zero]

theorem InFirst.shrink {A : E →ₗ[ℝ] E} {m : ℕ} {v : ℕ → E} {d s : List ℝ} {w : E}
    (h : LanczosRelation A m v (tridiagEntry d s) w) (l1 ln : ℝ) (ω : ℕ → ℝ) {x : E}
    (hx : InFirst m v 0 x) {k : ℕ} (hk : k < m) : InFirst m v k (shrink A l1 ln ω x k) := by
  induction k with
  | zero => exact hx
  | succ k ih =>
    have h1 := ih (by omega)
    have h2 := h1.image h hk
    have e : Mfmg.shrink A l1 ln ω x (k + 1) = (1 + ω k / (ln - l1) * l1) • Mfmg.shrink A l1 ln ω x k +
        (-(ω k / (ln - l1))) • A (Mfmg.shrink A l1 ln ω x k) := by
      rw [Mfmg.shrink]
      module
    rw [e]
    exact InFirst.sub _ _ (h1.mono (by omega)) h2

/-- A matrix with an orthonormal set of as many eigenvectors as it has rows is bounded from below by its
smallest eigenvalue. -/
theorem eigen_min {m : ℕ} (T q : ℕ → ℕ → ℝ) (θ : ℕ → ℝ) (hq : ∀ k l, k < m → l < m →
      ∑ j ∈ range m, q k j * q l j = if k = l then 1 else 0)
    (he : ∀ k, k < m → IsEigen m T (θ k) (q k)) (t : ℝ) (ht : ∀ k, k < m → t ≤ θ k) (c : ℕ → ℝ) :
    t * ∑ j ∈ range m, c j * c j ≤ ∑ j ∈ range m, (∑ k ∈ range m, T j k * c k) * c j := by
  set Q : Matrix (Fin m) (Fin m) ℝ := fun k j => q k j with hQ
  have hQQ : Q * Q.transpose = 1 := by
    ext k l
    rw [Matrix.mul_apply, Matrix.one_apply]
    have := hq k l k.2 l.2
    rw [Finset.sum_range] at this
    refine Eq.trans this ?_
    simp [Fin.ext_iff]
  have hQQ' : Q.transpose * Q = 1 := mul_eq_one_comm.1 hQQ
  have hid : ∀ i j : Fin m, ∑ k : Fin m, q k i * q k j = if i = j then 1 else 0 := by
    intro i j
    have := congrFun (congrFun hQQ' i) j
    rw [Matrix.mul_apply, Matrix.one_apply] at this
    exact this
  -- the coefficients
  set d : Fin m → ℝ := fun k => ∑ j : Fin m, q k j * c j with hd
  have hc : ∀ i : Fin m, c i = ∑ k : Fin m, d k * q k i := by
    intro i
    simp only [hd, Finset.sum_mul]
    rw [Finset.sum_comm]
    have : ∀ j : Fin m, ∑ k : Fin m, q k j * c j * q k i = c j * if j = i then 1 else 0 := by
      intro j
      rw [← hid j i, Finset.mul_sum]
      exact Finset.sum_congr rfl fun k _ => by ring
    rw [Finset.sum_congr rfl fun j _ => this j]
    simp
  have hcc : ∑ j ∈ range m, c j * c j = ∑ k : Fin m, d k * d k := by
    rw [Finset.sum_range]
    have : ∀ j : Fin m, c j * c j = ∑ k : Fin m, d k * (q k j * c j) := by
      intro j
      have e : (∑ k : Fin m, d k * q k j) * c j = ∑ k : Fin m, d k * (q k j * c j) := by
        rw [Finset.sum_mul]
        exact Finset.sum_congr rfl fun k _ => by ring
      rw [← e, ← hc j]
    rw [Finset.sum_congr rfl fun j _ => this j, Finset.sum_comm]
    refine Finset.sum_congr rfl fun k _ => ?_
    rw [← Finset.mul_sum]
  have hT : ∀ j : Fin m, ∑ k ∈ range m, T j k * c k = ∑ k : Fin m, d k * (θ k * q k j) := by
    intro j
    rw [Finset.sum_range]
    have : ∀ i : Fin m, T j i * c i = ∑ k : Fin m, d k * (T j i * q k i) := by
      intro i
      rw [hc i, Finset.mul_sum]
      exact Finset.sum_congr rfl fun k _ => by ring
    rw [Finset.sum_congr rfl fun i _ => this i, Finset.sum_comm]
    refine Finset.sum_congr rfl fun k _ => ?_
    rw [← Finset.mul_sum, ← he k k.2 j j.2, Finset.sum_range]
  have hTc : ∑ j ∈ range m, (∑ k ∈ range m, T j k * c k) * c j = ∑ k : Fin m, θ k * (d k * d k) := by
    rw [Finset.sum_range, Finset.sum_congr rfl fun j _ => by rw [hT j, Finset.sum_mul], Finset.sum_comm]
    refine Finset.sum_congr rfl fun k _ => ?_
    simp only [hd]
    rw [Finset.mul_sum, Finset.mul_sum]
    exact Finset.sum_congr rfl fun j _ => by ring
  rw [hcc, hTc, Finset.mul_sum]
  exact Finset.sum_le_sum fun k _ => mul_le_mul_of_nonneg_right (ht k k.2) (mul_self_nonneg _)

/-- The smallest Ritz value is the smallest Rayleigh quotient of the combinations. -/
theorem ritz_min {A : E →ₗ[ℝ] E} {S : Submodule ℝ E} {s : LanczosState E} (h : LanczosInv A S s)
    (hm : 1 ≤ s.vs.length) {dstev : List ℝ → List ℝ → List ℝ × List ℝ} (hd : DstevContract dstev)
    {j : ℕ} {x : E} (hx : InFirst s.vs.length (fun i => s.vs.getD i 0) j x) :
    (dstev s.diag s.sub).1.getD 0 0 * ⟪x, x⟫_ℝ ≤ ⟪A x, x⟫_ℝ := by
  obtain ⟨c, -, rfl⟩ := hx
  have hsz : s.sub.length + 1 = s.diag.length := by rw [h.lenSub, h.lenDiag]; omega
  rw [combination_quad h.rel hm, combination_inner h.rel, ← h.lenDiag]
  refine eigen_min (m := s.diag.length) _ (fun k j => (column s.diag.length (dstev s.diag s.sub).2 k).getD j 0)
    (fun k => (dstev s.diag s.sub).1.getD k 0) (fun k l hk hl => hd.orthonormal _ _ hsz k l hk hl)
    (fun k hk => hd.eigen _ _ hsz k hk) _ (fun k hk => ?_) c
  exact getD_mono _ (hd.sorted _ _ hsz) 0 k (by omega) (by rw [hd.len _ _ hsz]; exact hk)

/-! ### The whole space of the iteration -/

theorem mem_both {S : Submodule ℝ E} {u x : E} (hx : x ∈ Submodule.span ℝ {u} ⊔ S) :
    ∃ a : ℝ, ∃ z ∈ S, x = a • u + z := by
  obtain ⟨y, hy, z, hz, rfl⟩ := Submodule.mem_sup.1 hx
  obtain ⟨a, rfl⟩ := Submodule.mem_span_singleton.1 hy
  exact ⟨a, z, hz, rfl⟩

theorem both_mem {S : Submodule ℝ E} (u : E) (a : ℝ) {z : E} (hz : z ∈ S) :
    a • u + z ∈ Submodule.span ℝ {u} ⊔ S :=
  Submodule.add_mem_sup (Submodule.smul_mem _ _ (Submodule.mem_span_singleton_self u)) hz

theorem SmallestSplit.both_maps {A : E →ₗ[ℝ] E} {S : Submodule ℝ E} {u : E} {l1 l2 ln : ℝ}
    (h : SmallestSplit A S u l1 l2 ln) : ∀ x ∈ Submodule.span ℝ {u} ⊔ S, A x ∈ Submodule.span ℝ {u} ⊔ S := by
  intro x hx
  obtain ⟨a, z, hz, rfl⟩ := mem_both hx
  rw [map_add, map_smul, h.eig, smul_smul]
  exact both_mem u _ (h.maps z hz)

theorem SmallestSplit.both_inner {A : E →ₗ[ℝ] E} {S : Submodule ℝ E} {u : E} {l1 l2 ln : ℝ}
    (h : SmallestSplit A S u l1 l2 ln) (a b : ℝ) {z w : E} (hz : z ∈ S) (hw : w ∈ S) :
    ⟪a • u + z, b • u + w⟫_ℝ = a * b * ‖u‖ ^ 2 + ⟪z, w⟫_ℝ := by
  have e1 := h.orth w hw
  have e2 : ⟪z, u⟫_ℝ = 0 := by rw [real_inner_comm]; exact h.orth z hz
  simp only [inner_add_left, inner_add_right, inner_smul_left, inner_smul_right, e1, e2,
    real_inner_self_eq_norm_sq, conj_trivial]
  ring

theorem SmallestSplit.both_symm {A : E →ₗ[ℝ] E} {S : Submodule ℝ E} {u : E} {l1 l2 ln : ℝ}
    (h : SmallestSplit A S u l1 l2 ln) : ∀ x ∈ Submodule.span ℝ {u} ⊔ S, ∀ y ∈ Submodule.span ℝ {u} ⊔ S,
      ⟪A x, y⟫_ℝ = ⟪x, A y⟫_ℝ := by
  intro x hx y hy
  obtain ⟨a, z, hz, rfl⟩ := mem_both hx
  obtain ⟨b, w, hw, rfl⟩ := mem_both hy
  rw [map_add, map_smul, h.eig, smul_smul, map_add, map_smul, h.eig, smul_smul,
    h.both_inner _ _ (h.maps z hz) hw, h.both_inner _ _ hz (h.maps w hw), h.symm z hz w hw]
  ring

/-- The residual of a unit vector and its Rayleigh quotient. -/
theorem SmallestSplit.residual {A : E →ₗ[ℝ] E} {S : Submodule ℝ E} [FiniteDimensional ℝ S] {u : E}
    {l1 l2 ln : ℝ} (h : SmallestSplit A S u l1 l2 ln) {y : E} (hy : y ∈ Submodule.span ℝ {u} ⊔ S)
    (hn : ⟪y, y⟫_ℝ = 1) {θ : ℝ} (hθ : ⟪A y, y⟫_ℝ = θ) :
    l1 ≤ θ ∧ ‖A y - θ • y‖ ^ 2 ≤ (θ - l1) * (ln - θ) ∧ (θ - l1) * (l2 - θ) ≤ ‖A y - θ • y‖ ^ 2 ∧
      ∃ a : ℝ, ‖y - a • u‖ ^ 2 ≤ (θ - l1) / (l2 - l1) := by
  obtain ⟨a, z, hz, rfl⟩ := mem_both hy
  have hAz := h.maps z hz
  obtain ⟨q1, q2⟩ := h.quad hz
  have hlow := h.lower z hz
  have hgap := h.gap
  have e : A (a • u + z) = (a * l1) • u + A z := by rw [map_add, map_smul, h.eig, smul_smul]
  rw [h.both_inner _ _ hz hz] at hn
  rw [e, h.both_inner _ _ hAz hz] at hθ
  have hres : ‖A (a • u + z) - θ • (a • u + z)‖ ^ 2 =
      (a * (l1 - θ)) ^ 2 * ‖u‖ ^ 2 + (⟪A z, A z⟫_ℝ - 2 * θ * ⟪A z, z⟫_ℝ + θ ^ 2 * ⟪z, z⟫_ℝ) := by
    have e' : A (a • u + z) - θ • (a • u + z) = (a * (l1 - θ)) • u + (A z - θ • z) := by
      rw [e]; module
    rw [e', ← real_inner_self_eq_norm_sq, h.both_inner _ _ (S.sub_mem hAz (S.smul_mem _ hz))
      (S.sub_mem hAz (S.smul_mem _ hz))]
    simp only [inner_sub_left, inner_sub_right, inner_smul_left, inner_smul_right, conj_trivial]
    rw [real_inner_comm (A z) z]
    ring
  simp only [inner_sub_left, inner_sub_right, inner_smul_left, inner_smul_right, conj_trivial] at q1 q2
  rw [real_inner_comm (A z) z] at q1 q2
  set X := ⟪A z, A z⟫_ℝ
  set Y := ⟪A z, z⟫_ℝ
  set Z := ⟪z, z⟫_ℝ with hZ
  have hZ0 : 0 ≤ Z := real_inner_self_nonneg
  set U := a * a * ‖u‖ ^ 2 with hU
  have hU0 : 0 ≤ U := mul_nonneg (mul_self_nonneg a) (sq_nonneg _)
  have hYl : l1 * Z ≤ Y := by nlinarith
  refine ⟨?_, ?_, ?_, a, ?_⟩
  · have : a * l1 * a * ‖u‖ ^ 2 = l1 * U := by rw [hU]; ring
    rw [this] at hθ
    have : l1 * (U + Z) = l1 := by rw [hn, mul_one]
    linarith
  · rw [hres]
    have e1 : a * l1 * a * ‖u‖ ^ 2 = l1 * U := by rw [hU]; ring
    have e2 : (a * (l1 - θ)) ^ 2 * ‖u‖ ^ 2 = (l1 - θ) ^ 2 * U := by rw [hU]; ring
    rw [e1] at hθ
    rw [e2]
    have : U = 1 - Z := by linarith
    subst hθ
    rw [this]
    nlinarith
  · rw [hres]
    have e1 : a * l1 * a * ‖u‖ ^ 2 = l1 * U := by rw [hU]; ring
    have e2 : (a * (l1 - θ)) ^ 2 * ‖u‖ ^ 2 = (l1 - θ) ^ 2 * U := by rw [hU]; ring
    rw [e1] at hθ
    rw [e2]
    have : U = 1 - Z := by linarith
    subst hθ
    rw [this]
    nlinarith
  · rw [show a • u + z - a • u = z by abel, ← real_inner_self_eq_norm_sq, le_div_iff₀ (by linarith)]
    have e1 : a * l1 * a * ‖u‖ ^ 2 = l1 * U := by rw [hU]; ring
    rw [e1] at hθ
    have : l1 * (U + Z) = l1 := by rw [hn, mul_one]
    rw [← hZ]
    linarith

/-- Rayleigh quotients of vectors orthogonal to the start vector. -/
theorem SmallestSplit.orthogonal {A : E →ₗ[ℝ] E} {S : Submodule ℝ E} {u : E}
    {l1 l2 ln : ℝ} (h : SmallestSplit A S u l1 l2 ln) {g : E} (hg : g ∈ S) {x : E}
    (hx : x ∈ Submodule.span ℝ {u} ⊔ S) (hn : ⟪x, x⟫_ℝ = 1) (ho : ⟪u + g, x⟫_ℝ = 0) :
    l1 + (l2 - l1) * cosSq u g ≤ ⟪A x, x⟫_ℝ := by
  obtain ⟨a, z, hz, rfl⟩ := mem_both hx
  have hAz := h.maps z hz
  have hlow := h.lower z hz
  have hgap := h.gap
  have hu : 0 < ‖u‖ ^ 2 := by have := norm_pos_iff.2 h.ne; positivity
  have e : A (a • u + z) = (a * l1) • u + A z := by rw [map_add, map_smul, h.eig, smul_smul]
  rw [h.both_inner _ _ hz hz] at hn
  rw [e, h.both_inner _ _ hAz hz]
  have ho' : a * ‖u‖ ^ 2 + ⟪g, z⟫_ℝ = 0 := by
    have := h.both_inner 1 a hg hz
    rw [one_smul, ho] at this
    linarith
  have hcs : (a * ‖u‖ ^ 2) ^ 2 ≤ ‖g‖ ^ 2 * ‖z‖ ^ 2 := by
    have h1 := abs_real_inner_le_norm g z
    have h2 : a * ‖u‖ ^ 2 = -⟪g, z⟫_ℝ := by linarith
    rw [h2, neg_sq, ← sq_abs, ← mul_pow]
    exact pow_le_pow_left₀ (abs_nonneg _) h1 2
  rw [real_inner_self_eq_norm_sq] at hn hlow
  have hU : a * a * ‖u‖ ^ 2 * ‖u‖ ^ 2 ≤ ‖g‖ ^ 2 * ‖z‖ ^ 2 := by nlinarith
  have hz2 : cosSq u g ≤ ‖z‖ ^ 2 := by
    rw [cosSq, div_le_iff₀ (by positivity)]
    nlinarith
  have : a * l1 * a * ‖u‖ ^ 2 = l1 * (1 - ‖z‖ ^ 2) := by
    have : a * a * ‖u‖ ^ 2 = 1 - ‖z‖ ^ 2 := by linarith
    rw [← this]; ring
  rw [this]
  nlinarith

/-! ### The iteration from a start vector -/

/-- The Lanczos vectors come from the start vector. -/
structure LanczosFrom (A : E → E) (S : Submodule ℝ E) (guess : E) (s : LanczosState E) : Prop where
  inv : LanczosInv A S s
  empty : s.vs = [] → s.w = guess
  first : s.vs ≠ [] → guess = ‖guess‖ • s.vs.getD 0 0

theorem lanczosInit_from (A : E → E) (S : Submodule ℝ E) (guess : E) (hg : guess ∈ S) :
    LanczosFrom A S guess (lanczosInit guess) :=
  ⟨lanczosInit_inv A S guess hg, fun _ => rfl, fun h => absurd rfl h⟩

theorem lanczosStep_from {debug : Bool} {A : E → E} {S : Submodule ℝ E} {guess : E}
    (hA : ∀ x ∈ S, A x ∈ S) (hsym : ∀ x ∈ S, ∀ y ∈ S, ⟪A x, y⟫_ℝ = ⟪x, A y⟫_ℝ)
    (s s' : LanczosState E) (hs : LanczosFrom A S guess s) (h : lanczosStep debug A s = .ok s') :
    LanczosFrom A S guess s' := by
  have hinv := (lanczosStep_inv debug A S hA hsym s hs.inv s' h).1
  unfold lanczosStep at h
  by_cases hb : s.beta = 0
  · simp only [hb, if_true] at h
    split at h <;> cases h
  rw [if_neg hb] at h
  injection h with h
  subst h
  refine ⟨hinv, fun h => by simp at h, fun _ => ?_⟩
  simp only
  rcases hvs : s.vs with _ | ⟨v, vs⟩
  · simp only [List.nil_append, List.getD_cons_zero]
    have e := hs.empty hvs
    have eb := hs.inv.beta
    rw [e] at eb ⊢
    rw [eb, smul_smul, mul_inv_cancel₀ (by rw [← eb]; exact hb), one_smul]
  · have := hs.first (by rw [hvs]; simp)
    rw [hvs] at this
    simpa using this

theorem LanczosFrom.inFirst {A : E → E} {S : Submodule ℝ E} {guess : E} {s : LanczosState E}
    (h : LanczosFrom A S guess s) (hn : 1 ≤ s.vs.length) :
    InFirst s.vs.length (fun i => s.vs.getD i 0) 0 guess := by
  refine ⟨fun i => if i = 0 then ‖guess‖ else 0, fun i hi => by simp only; rw [if_neg (by omega)], ?_⟩
  rw [Finset.sum_eq_single 0]
  · simp only [if_true]
    exact h.first (by intro h; rw [h] at hn; simp at hn)
  · intro i _ hi
    simp only [if_neg hi, zero_smul]
  · intro h
    exact absurd (mem_range.2 (by omega)) h

/-- A Ritz pair. -/
theorem ritz_pairs {A : E →ₗ[ℝ] E} {S : Submodule ℝ E} {s : LanczosState E} (h : LanczosInv A S s)
    (hm : 1 ≤ s.vs.length) {dstev : List ℝ → List ℝ → List ℝ × List ℝ} (hd : DstevContract dstev)
    {k : ℕ} (hk : k < s.vs.length) :
    ∃ y ∈ S, y = ∑ j ∈ range s.vs.length, (column s.vs.length (dstev s.diag s.sub).2 k).getD j 0 • s.vs.getD j 0 ∧
      ⟪y, y⟫_ℝ = 1 ∧ ⟪A y, y⟫_ℝ = (dstev s.diag s.sub).1.getD k 0 ∧
      ‖A y - (dstev s.diag s.sub).1.getD k 0 • y‖ =
        s.beta * |(column s.vs.length (dstev s.diag s.sub).2 k).getD (s.vs.length - 1) 0| := by
  have hsz : s.sub.length + 1 = s.diag.length := by rw [h.lenSub, h.lenDiag]; omega
  have hor := hd.orthonormal _ _ hsz k k (by rw [h.lenDiag]; exact hk) (by rw [h.lenDiag]; exact hk)
  have hei := hd.eigen _ _ hsz k (by rw [h.lenDiag]; exact hk)
  simp only [if_true] at hor
  rw [h.lenDiag] at hor hei
  obtain ⟨y, hy⟩ : ∃ y, y = ∑ j ∈ range s.vs.length,
    (column s.vs.length (dstev s.diag s.sub).2 k).getD j 0 • s.vs.getD j 0 := ⟨_, rfl⟩
  have hyy : ⟪y, y⟫_ℝ = 1 := by
    rw [hy, combination_inner h.rel]
    exact hor
  have hres := lanczos_residual A _ _ _ _ h.rel _ _ hei (by omega)
  rw [← hy] at hres
  have hwy : ⟪s.w, y⟫_ℝ = 0 := by
    rw [hy, inner_sum]
    refine Finset.sum_eq_zero fun j hj => ?_
    rw [inner_smul_right, real_inner_comm]
    have := h.rel.rest j (mem_range.1 hj)
    rw [this, mul_zero]
  refine ⟨y, ?_, hy, hyy, ?_, ?_⟩
  · rw [hy]
    refine S.sum_mem fun j hj => S.smul_mem _ (h.mem _ (getD_mem _ _ _ (mem_range.1 hj)))
  · have e : A y = (dstev s.diag s.sub).1.getD k 0 • y +
        (column s.vs.length (dstev s.diag s.sub).2 k).getD (s.vs.length - 1) 0 • s.w := by
      rw [← hres]; abel
    rw [e, inner_add_left, inner_smul_left, inner_smul_left, hyy, hwy]
    simp
  · rw [hres, norm_smul, h.beta, Real.norm_eq_abs, mul_comm]

/-- The first Ritz pair. -/
theorem ritz_pair {A : E →ₗ[ℝ] E} {S : Submodule ℝ E} {s : LanczosState E} (h : LanczosInv A S s)
    (hm : 1 ≤ s.vs.length) {dstev : List ℝ → List ℝ → List ℝ × List ℝ} (hd : DstevContract dstev) :
    ∃ y ∈ S, y = ∑ j ∈ range s.vs.length, (column s.vs.length (dstev s.diag s.sub).2 0).getD j 0 • s.vs.getD j 0 ∧
      ⟪y, y⟫_ℝ = 1 ∧ ⟪A y, y⟫_ℝ = (dstev s.diag s.sub).1.getD 0 0 ∧
      ‖A y - (dstev s.diag s.sub).1.getD 0 0 • y‖ =
        s.beta * |(column s.vs.length (dstev s.diag s.sub).2 0).getD (s.vs.length - 1) 0| :=
  ritz_pairs h hm hd (by omega)

theorem shrink_start {A : E →ₗ[ℝ] E} {u : E} {l1 : ℝ} (h : A u = l1 • u) (ln : ℝ) (ω : ℕ → ℝ) (g : E) (m : ℕ) :
    shrink A l1 ln ω (u + g) m = u + shrink A l1 ln ω g m := by
  induction m with
  | zero => rfl
  | succ m ih =>
    rw [shrink, shrink, ih, map_add, h]
    module

omit [InnerProductSpace ℝ E] in
theorem startLeft_nonneg {l1 l2 ln : ℝ} (h1 : l1 < l2) (h2 : l2 < ln) (u g : E) (m : ℕ) :
    0 ≤ startLeft l1 l2 ln u g m := by
  have h3 : relativeGap l1 l2 ln ≤ 1 := by
    rw [relativeGap, div_le_one (by linarith)]; linarith
  have h4 : Real.sqrt (relativeGap l1 l2 ln) ≤ 1 := by
    exact (Real.sqrt_le_sqrt h3).trans (by simp)
  have h5 := Real.sqrt_nonneg (relativeGap l1 l2 ln)
  unfold startLeft
  have : 0 ≤ (1 - Real.sqrt (relativeGap l1 l2 ln)) / (1 + Real.sqrt (relativeGap l1 l2 ln)) :=
    div_nonneg (by linarith) (by linarith)
  positivity

/-- The error of the smallest Ritz value. -/
theorem SmallestSplit.ritz_error {A : E →ₗ[ℝ] E} {S : Submodule ℝ E} [FiniteDimensional ℝ S] {u g : E}
    {l1 l2 ln : ℝ} (h : SmallestSplit A S u l1 l2 ln) (hg : g ∈ S) {s : LanczosState E}
    (hs : LanczosFrom A (Submodule.span ℝ {u} ⊔ S) (u + g) s)
    {dstev : List ℝ → List ℝ → List ℝ × List ℝ} (hd : DstevContract dstev) {m : ℕ}
    (hm : m + 1 ≤ s.vs.length) :
    (dstev s.diag s.sub).1.getD 0 0 - l1 ≤ (ln - l1) * startLeft l1 l2 ln u g m ^ 2 := by
  obtain ⟨y, hy, -, hyy, hAy, -⟩ := ritz_pair hs.inv (by omega) hd
  have hθ := (h.residual hy hyy hAy).1
  obtain ⟨ω, hω⟩ := h.shrinks m
  have hx := InFirst.shrink hs.inv.rel l1 ln ω (hs.inFirst (by omega)) (k := m) (by omega)
  have hmin := ritz_min hs.inv (by omega) hd hx
  rw [shrink_start h.eig] at hmin
  have hgm := shrink_mem h.maps l1 ln ω hg m
  have hbd := hω g hg
  set z := Mfmg.shrink A l1 ln ω g m
  set θ := (dstev s.diag s.sub).1.getD 0 0
  have hup := h.upper z hgm
  have hu : 0 < ‖u‖ := norm_pos_iff.2 h.ne
  have i1 := h.both_inner 1 1 hgm hgm
  have i2 := h.both_inner l1 1 (h.maps z hgm) hgm
  rw [one_smul] at i1 i2
  rw [map_add, h.eig, i1, i2, real_inner_self_eq_norm_sq] at hmin
  rw [real_inner_self_eq_norm_sq] at hup
  have hgap := h.gap
  have hspread := h.spread
  have hz : ‖z‖ ≤ startLeft l1 l2 ln u g m * ‖u‖ := by
    refine hbd.trans (le_of_eq ?_)
    rw [startLeft, mul_assoc _ (‖g‖ / ‖u‖), div_mul_cancel₀ _ hu.ne']
  have hz2 : ‖z‖ ^ 2 ≤ startLeft l1 l2 ln u g m ^ 2 * ‖u‖ ^ 2 := by
    rw [← mul_pow]
    exact pow_le_pow_left₀ (norm_nonneg _) hz 2
  have hu2 : 0 < ‖u‖ ^ 2 := by positivity
  have key : (θ - l1) * ‖u‖ ^ 2 ≤ (ln - l1) * ‖z‖ ^ 2 := by
    nlinarith [mul_nonneg (sub_nonneg.2 hθ) (sq_nonneg ‖z‖)]
  have key2 : (ln - l1) * ‖z‖ ^ 2 ≤ (ln - l1) * (startLeft l1 l2 ln u g m ^ 2 * ‖u‖ ^ 2) :=
    mul_le_mul_of_nonneg_left hz2 (by linarith)
  refine le_of_mul_le_mul_right ?_ hu2
  linarith

/-- The smallest Ritz value does not exceed the Rayleigh quotient of the start vector. -/
theorem LanczosFrom.ritz_le {A : E →ₗ[ℝ] E} {S : Submodule ℝ E} {guess : E} {s : LanczosState E}
    (hs : LanczosFrom A S guess s) (hg : guess ≠ 0)
    {dstev : List ℝ → List ℝ → List ℝ × List ℝ} (hd : DstevContract dstev) (hn : 1 ≤ s.vs.length) :
    (dstev s.diag s.sub).1.getD 0 0 ≤ ⟪A guess, guess⟫_ℝ / ⟪guess, guess⟫_ℝ := by
  rw [le_div_iff₀ (real_inner_self_pos.2 hg)]
  exact ritz_min hs.inv hn hd (hs.inFirst hn)

/-- The eigenvalues of the matrix without its first row and column. -/
theorem SmallestSplit.second {A : E →ₗ[ℝ] E} {S : Submodule ℝ E} {u g : E}
    {l1 l2 ln : ℝ} (h : SmallestSplit A S u l1 l2 ln) (hg : g ∈ S) {s : LanczosState E}
    (hs : LanczosFrom A (Submodule.span ℝ {u} ⊔ S) (u + g) s)
    {dstev : List ℝ → List ℝ → List ℝ × List ℝ} (hd : DstevContract dstev) (hn : 2 ≤ s.vs.length)
    {μ : ℝ} (hμ : μ ∈ (dstev s.diag.tail s.sub.tail).1) : l1 + (l2 - l1) * cosSq u g ≤ μ := by
  obtain ⟨m, hm⟩ : ∃ m, s.vs.length = m + 1 := ⟨s.vs.length - 1, by omega⟩
  have hdl := hs.inv.lenDiag
  have hsl := hs.inv.lenSub
  have hsz : s.sub.tail.length + 1 = s.diag.tail.length := by
    rw [List.length_tail, List.length_tail]; omega
  have hdt : s.diag.tail.length = m := by rw [List.length_tail]; omega
  obtain ⟨k, hk, rfl⟩ := List.mem_iff_getElem.1 hμ
  have hkm : k < s.diag.tail.length := by rw [← hd.len _ _ hsz]; exact hk
  have hei := hd.eigen _ _ hsz k hkm
  have hor := hd.orthonormal _ _ hsz k k hkm hkm
  simp only [if_true] at hor
  rw [getD_of_lt _ _ _ hk, hdt] at hei
  rw [hdt] at hor
  set μ := (dstev s.diag.tail s.sub.tail).1[k]
  set t : ℕ → ℝ := fun j => (column m (dstev s.diag.tail s.sub.tail).2 k).getD j 0 with ht
  set c : ℕ → ℝ := fun j => if j = 0 then 0 else t (j - 1) with hc
  obtain ⟨x, hx⟩ : ∃ x, x = ∑ j ∈ range s.vs.length, c j • s.vs.getD j 0 := ⟨_, rfl⟩
  have hcs : ∀ j, c (j + 1) = t j := fun j => by simp [hc]
  have hc0 : c 0 = 0 := by simp [hc]
  have hxx : ⟪x, x⟫_ℝ = 1 := by
    rw [hx, combination_inner hs.inv.rel, hm, Finset.sum_range_succ', hc0]
    simp only [hcs, mul_zero, add_zero]
    exact hor
  have hxm : x ∈ Submodule.span ℝ {u} ⊔ S := by
    rw [hx]
    exact Submodule.sum_mem _ fun j hj =>
      Submodule.smul_mem _ _ (hs.inv.mem _ (getD_mem _ _ _ (mem_range.1 hj)))
  have ho : ⟪u + g, x⟫_ℝ = 0 := by
    obtain ⟨d, hd0, hd⟩ := hs.inFirst (by omega)
    rw [hx, hd, combination_inner hs.inv.rel]
    refine Finset.sum_eq_zero fun j _ => ?_
    rcases Nat.eq_zero_or_pos j with rfl | hj
    · rw [hc0, mul_zero]
    · rw [hd0 j hj, zero_mul]
  have hq : ⟪A x, x⟫_ℝ = μ := by
    rw [hx, combination_quad hs.inv.rel (by omega), hm, Finset.sum_range_succ', hc0, mul_zero, add_zero]
    have hT : ∀ j k, tridiagEntry s.diag s.sub (j + 1) (k + 1) =
        tridiagEntry s.diag.tail s.sub.tail j k := by
      intro j k
      simp only [tridiagEntry, Nat.add_right_cancel_iff, List.getD, List.getElem?_tail]
    have e : ∀ j ∈ range m, (∑ k ∈ range (m + 1), tridiagEntry s.diag s.sub (j + 1) k * c k) * c (j + 1) =
        μ * (t j * t j) := by
      intro j hj
      rw [Finset.sum_range_succ', hc0, mul_zero, add_zero, hcs]
      simp only [hcs, hT]
      have := hei j (mem_range.1 hj)
      rw [this]
      ring
    rw [Finset.sum_congr rfl e, ← Finset.mul_sum]
    rw [show ∑ i ∈ range m, t i * t i = 1 from hor, mul_one]
  rw [← hq]
  exact h.orthogonal hg hxm hxx ho

/-! ### The convergence test -/

/-- The first eigenvalue is returned if no eigenvalue of the smaller matrix is near it. -/
theorem first_kept {dstev : List ℝ → List ℝ → List ℝ × List ℝ} (hd : DstevContract dstev) (tol2 : ℝ)
    {d s : List ℝ} (hsz : s.length + 1 = d.length)
    (hk : 2 ≤ d.length → ∀ x ∈ (dstev d.tail s.tail).1, (dstev d s).1.getD 0 0 + tol2 < x) :
    calcTridiagEpairs Real.sqrt tol2 dstev d s 1 =
      ([(dstev d s).1.getD 0 0], column d.length (dstev d s).2 0) := by
  have hlen := hd.len _ _ hsz
  have hflat := hd.flat _ _ hsz
  rw [calcTridiagEpairs_eq Real.sqrt tol2 dstev d s 1 hlen hflat]
  have hbad : (spuriousFlags tol2 (dstev d s).1 (dstev d.tail s.tail).1 1).getD 0 false = false := by
    rw [Bool.eq_false_iff]
    intro hsp
    by_cases h2 : 2 ≤ d.length
    · have hsz2 : s.tail.length + 1 = d.tail.length := by rw [List.length_tail, List.length_tail]; omega
      have := (spuriousFlags_spec tol2 _ _ (hd.sorted _ _ hsz) (hd.sorted _ _ hsz2) 1 0 (by omega)).1 hsp
      obtain ⟨-, -, x, hx, hxe⟩ := this
      have := hk h2 x hx
      rw [abs_le] at hxe
      linarith
    · unfold spuriousFlags at hsp
      simp only at hsp
      rw [if_neg (by omega)] at hsp
      simp only [List.getD, List.getElem?_replicate] at hsp
      split at hsp <;> cases hsp
  obtain ⟨n, hn⟩ : ∃ n, d.length = n + 1 := ⟨d.length - 1, by omega⟩
  have hr : List.range d.length = 0 :: (List.range n).map (· + 1) := by
    rw [hn, List.range_succ_eq_map]
  obtain ⟨rest, hrest⟩ : ∃ rest, (List.range d.length).filter (fun i =>
      !((spuriousFlags tol2 (dstev d s).1 (dstev d.tail s.tail).1 1).getD i false ||
        !isMarked tol2 (dstev d s).1 i)) = 0 :: rest := by
    rw [hr, List.filter_cons_of_pos (by rw [hbad]; simp [isMarked])]
    exact ⟨_, rfl⟩
  simp only [hrest]
  rw [if_neg (by rw [List.length_cons]; omega)]
  have hnorm : ((column d.length (dstev d s).2 0).map (fun x => x * x)).sum = 1 := by
    have := hd.orthonormal _ _ hsz 0 0 (by omega) (by omega)
    rw [if_pos rfl] at this
    rw [← this, sum_sq_column d.length]
    simp only [column, List.length_take, List.length_drop, hflat]
    rw [hn]
    simp only [Nat.mul_zero, Nat.sub_zero]
    exact Nat.min_eq_left (Nat.le_mul_of_pos_left _ (by omega))
  simp only [List.take_succ_cons, List.take_zero, List.map_cons, List.map_nil, List.flatMap_cons,
    List.flatMap_nil, List.append_nil, hnorm, Real.sqrt_one, div_one, List.map_id']

theorem firstColumn_length {dstev : List ℝ → List ℝ → List ℝ × List ℝ} (hd : DstevContract dstev)
    {d s : List ℝ} (hsz : s.length + 1 = d.length) : (column d.length (dstev d s).2 0).length = d.length := by
  have hflat := hd.flat _ _ hsz
  simp only [column, List.length_take, List.length_drop, hflat, Nat.mul_zero, Nat.sub_zero]
  exact Nat.min_eq_left (Nat.le_mul_of_pos_left _ (by omega))

/-- The test made when the first Ritz pair is kept. -/
theorem test_kept {A : E →ₗ[ℝ] E} {S : Submodule ℝ E} {s : LanczosState E} (h : LanczosInv A S s)
    (hm : 1 ≤ s.vs.length) {dstev : List ℝ → List ℝ → List ℝ × List ℝ} (hd : DstevContract dstev) (tol : ℝ)
    {ep : List ℝ × List ℝ} (hep : ep = ([(dstev s.diag s.sub).1.getD 0 0], column s.diag.length (dstev s.diag s.sub).2 0)) :
    checkConvergence s.beta s.vs.length 1 tol ep.2 = .ok (decide (s.beta *
      |(column s.vs.length (dstev s.diag s.sub).2 0).getD (s.vs.length - 1) 0| ≤ tol)) := by
  have hsz : s.sub.length + 1 = s.diag.length := by rw [h.lenSub, h.lenDiag]; omega
  have hcol := firstColumn_length hd hsz
  rw [hep, checkConvergence, if_neg (by omega)]
  simp only
  rw [h.lenDiag] at hcol ⊢
  rw [checkLoop_eq _ _ _ (by omega) _ _ _ _ (by rw [hcol]; omega)]
  congr 1
  rw [Bool.true_and]
  refine decide_eq_decide.2 ⟨fun h => ?_, fun h t ht => ?_⟩
  · simpa using h 0 (by omega)
  · obtain rfl : t = 0 := by omega
    simpa using h

/-- If every test from step `k` on succeeds, every test but the last is made before step `k`. -/
theorem loop_tests {debug : Bool} {A : E → E} {P : LanczosState E → Prop}
    (hP : ∀ s s', P s → lanczosStep debug A s = .ok s' → P s')
    {tridiag : List ℝ → List ℝ → List ℝ × List ℝ} {req : ℕ} {tol : ℝ} {k : ℕ}
    (hgood : ∀ s, P s → k ≤ s.vs.length →
      checkConvergence s.beta s.vs.length req tol (tridiag s.diag s.sub).2 = .ok true)
    {pct : ℤ} {maxit : ℕ} (left it prev : ℕ) (r r' : LanczosResult E)
    (hlen : r.state.vs.length + 1 = it) (hinv : P r.state) (ht : ∀ t ∈ r.tests, t < k)
    (h : lanczosLoop debug A tridiag req tol pct maxit left it prev r = .ok r') :
    ∀ t ∈ r'.tests.dropLast, t < k := by
  induction left generalizing it prev r with
  | zero =>
    rw [lanczosLoop] at h
    injection h with h
    subst h
    exact fun t h => ht t (List.mem_of_mem_dropLast h)
  | succ left ih =>
    rw [lanczosLoop, Outcome.bind_eq_ok] at h
    obtain ⟨s, hs, h⟩ := h
    have hinv' := hP _ _ hinv hs
    have hlen' := lanczosStep_length debug A r.state s hs
    split at h
    · rw [Outcome.bind_eq_ok] at h
      obtain ⟨conv, hconv, h⟩ := h
      cases conv with
      | true =>
        simp only [if_true, Outcome.ok.injEq] at h
        subst h
        simpa using ht
      | false =>
        simp only [Bool.false_eq_true, if_false] at h
        refine ih (it + 1) it _ (by simp only; omega) hinv' ?_ h
        intro t htt
        rcases List.mem_append.1 htt with h1 | h1
        · exact ht t h1
        · have e : t = it := by simpa using h1
          by_contra hk
          have := hgood s hinv' (by omega)
          rw [show s.vs.length = it by omega, hconv] at this
          cases this
    · exact ih (it + 1) prev { r with state := s } (by simp only; omega) hinv' ht h

/-- If every step is tested, every test has an answer and a test with a zero remainder succeeds, the loop
ends normally. -/
theorem loop_ok {debug : Bool} {A : E → E} {P : LanczosState E → Prop}
    (hP : ∀ s s', P s → lanczosStep debug A s = .ok s' → P s')
    {tridiag : List ℝ → List ℝ → List ℝ × List ℝ} {req : ℕ} {tol : ℝ}
    (hgood : ∀ s, P s → 1 ≤ s.vs.length → ∃ c,
      checkConvergence s.beta s.vs.length req tol (tridiag s.diag s.sub).2 = .ok c ∧ (s.beta = 0 → c = true))
    {maxit : ℕ} (left it prev : ℕ) (r : LanczosResult E)
    (hlen : r.state.vs.length + 1 = it) (hprev : prev < it) (hinv : P r.state) (hb : r.state.beta ≠ 0) :
    ∃ r', lanczosLoop debug A tridiag req tol 0 maxit left it prev r = .ok r' := by
  induction left generalizing it prev r with
  | zero => exact ⟨r, rfl⟩
  | succ left ih =>
    obtain ⟨s, hs⟩ : ∃ s, lanczosStep debug A r.state = .ok s := by
      unfold lanczosStep
      rw [if_neg hb]
      exact ⟨_, rfl⟩
    have hinv' := hP _ _ hinv hs
    have hlen' := lanczosStep_length debug A r.state s hs
    rw [lanczosLoop, hs, Outcome.ok_bind, if_pos (by right; right; omega)]
    obtain ⟨c, hc, hc0⟩ := hgood s hinv' (by omega)
    rw [show s.vs.length = it by omega] at hc
    simp only [hc, Outcome.ok_bind]
    cases c with
    | true => exact ⟨_, rfl⟩
    | false =>
      simp only [Bool.false_eq_true, if_false]
      exact ih (it + 1) it _ (by simp only; omega) (by omega) hinv' (fun h => by simpa using hc0 h)

/-- The step of the last test. -/
theorem last_test {pct : ℤ} (hpct : 0 ≤ pct) {maxit n k : ℕ} {tests : List ℕ}
    (h : TestSchedule pct maxit n tests) (hk : ∀ t ∈ tests.dropLast, t < k + 1) :
    100 * ((n : ℤ) - 1) ≤ (100 + pct) * k := by
  have hne : tests ≠ [] := by
    intro h0
    have := h.first
    rw [h0] at this
    simp at this
  by_cases h1 : tests.length = 1
  · obtain ⟨a, rfl⟩ := List.length_eq_one_iff.1 h1
    have e1 := h.first
    have e2 := h.last
    simp only [List.head?_cons, Option.some.injEq, List.getLast?_singleton] at e1 e2
    have : n = 1 := by omega
    subst this
    simp only [Nat.cast_one, sub_self, mul_zero]
    exact mul_nonneg (by omega) (by omega)
  · have hpos : 0 < tests.length := List.length_pos_of_ne_nil hne
    obtain ⟨i, hi⟩ : ∃ i, tests.length = i + 2 := ⟨tests.length - 2, by omega⟩
    have hlast := h.last
    rw [List.getLast?_eq_getElem?, hi] at hlast
    simp only [Nat.add_succ_sub_one] at hlast
    have hi1 : i < tests.length := by omega
    obtain ⟨hlt, -, hgap⟩ := h.next i tests[i] n (List.getElem?_eq_getElem hi1) hlast
    have hmem : tests[i] ∈ tests.dropLast := by
      rw [List.mem_iff_getElem]
      exact ⟨i, by rw [List.length_dropLast]; omega, by rw [List.getElem_dropLast]⟩
    have hik := hk _ hmem
    generalize tests[i] = a at hlt hgap hik
    have hak : pct * (a : ℤ) ≤ pct * k := mul_le_mul_of_nonneg_left (by omega) hpct
    rw [add_mul]
    by_cases h2 : n = a + 1
    · subst h2
      push_cast
      have : 0 ≤ pct * (k : ℤ) := mul_nonneg hpct (by omega)
      omega
    · have := hgap (n - 1) (by omega) (by omega)
      omega

/-! ### The solver -/

theorem SmallestSplit.kept {A : E →ₗ[ℝ] E} {S : Submodule ℝ E} {u g : E}
    {l1 l2 ln : ℝ} (h : SmallestSplit A S u l1 l2 ln) (hg : g ∈ S) {s : LanczosState E}
    (hs : LanczosFrom A (Submodule.span ℝ {u} ⊔ S) (u + g) s)
    {dstev : List ℝ → List ℝ → List ℝ × List ℝ} (hd : DstevContract dstev) (hn : 1 ≤ s.vs.length)
    {tol2 : ℝ} (hp : (dstev s.diag s.sub).1.getD 0 0 - l1 + tol2 < (l2 - l1) * cosSq u g) :
    calcTridiagEpairs Real.sqrt tol2 dstev s.diag s.sub 1 =
      ([(dstev s.diag s.sub).1.getD 0 0], column s.diag.length (dstev s.diag s.sub).2 0) := by
  refine first_kept hd tol2 (by rw [hs.inv.lenSub, hs.inv.lenDiag]; omega) fun h2 x hx => ?_
  have := h.second hg hs hd (by rw [← hs.inv.lenDiag]; exact h2) hx
  linarith

theorem both_start {S : Submodule ℝ E} {u g : E} (hg : g ∈ S) : u + g ∈ Submodule.span ℝ {u} ⊔ S := by
  have := both_mem (S := S) u 1 hg
  rwa [one_smul] at this

theorem SmallestSplit.start_ne {A : E →ₗ[ℝ] E} {S : Submodule ℝ E} {u g : E}
    {l1 l2 ln : ℝ} (h : SmallestSplit A S u l1 l2 ln) (hg : g ∈ S) : u + g ≠ 0 := by
  intro h0
  have := h.both_inner 1 1 hg hg
  rw [one_smul, h0, inner_zero_left, real_inner_self_eq_norm_sq] at this
  have hu := norm_pos_iff.2 h.ne
  nlinarith [sq_nonneg ‖g‖]

/-- What a run returns whose last test keeps the first Ritz pair. -/
theorem SmallestSplit.returned {A : E →ₗ[ℝ] E} {S : Submodule ℝ E} [FiniteDimensional ℝ S] {u g : E}
    {l1 l2 ln : ℝ} (h : SmallestSplit A S u l1 l2 ln) {s : LanczosState E}
    (hs : LanczosFrom A (Submodule.span ℝ {u} ⊔ S) (u + g) s)
    {dstev : List ℝ → List ℝ → List ℝ × List ℝ} (hd : DstevContract dstev) (hn : 1 ≤ s.vs.length)
    {ev evecs : List ℝ} {ys : List E} (hys : calcEvecs s.vs.length s.vs evecs 1 0 = .ok ys)
    (hep : (ev, evecs) = ([(dstev s.diag s.sub).1.getD 0 0], column s.diag.length (dstev s.diag s.sub).2 0)) :
    ∃ y, ev = [(dstev s.diag s.sub).1.getD 0 0] ∧ ys = [y] ∧ ‖y‖ = 1 ∧
      l1 ≤ (dstev s.diag s.sub).1.getD 0 0 ∧
      ‖A y - (dstev s.diag s.sub).1.getD 0 0 • y‖ =
        s.beta * |(column s.vs.length (dstev s.diag s.sub).2 0).getD (s.vs.length - 1) 0| ∧
      ((dstev s.diag s.sub).1.getD 0 0 - l1) * (l2 - (dstev s.diag s.sub).1.getD 0 0) ≤
        ‖A y - (dstev s.diag s.sub).1.getD 0 0 • y‖ ^ 2 ∧
      ∃ a : ℝ, ‖y - a • u‖ ^ 2 ≤ ((dstev s.diag s.sub).1.getD 0 0 - l1) / (l2 - l1) := by
  obtain ⟨y, hyS, hy, hyy, hAy, hres⟩ := ritz_pair hs.inv hn hd
  obtain ⟨b1, -, b3, b4⟩ := h.residual hyS hyy hAy
  have hsz : s.sub.length + 1 = s.diag.length := by rw [hs.inv.lenSub, hs.inv.lenDiag]; omega
  have hcol := firstColumn_length hd hsz
  injection hep with e1 e2
  rw [hs.inv.lenDiag] at e2 hcol
  rw [calcEvecs_eq _ _ _ _ (by rw [e2, hcol]; omega)] at hys
  injection hys with hys
  refine ⟨y, e1, ?_, ?_, b1, hres, b3, b4⟩
  · rw [← hys, hy, e2]
    simp
  · have : ‖y‖ ^ 2 = 1 := by rw [← real_inner_self_eq_norm_sq]; exact hyy
    have h0 := norm_nonneg y
    nlinarith

/-- The test succeeds once enough iterations have been made. -/
theorem SmallestSplit.test {A : E →ₗ[ℝ] E} {S : Submodule ℝ E} [FiniteDimensional ℝ S] {u g : E}
    {l1 l2 ln : ℝ} (h : SmallestSplit A S u l1 l2 ln) (hg : g ∈ S) {s : LanczosState E}
    (hs : LanczosFrom A (Submodule.span ℝ {u} ⊔ S) (u + g) s)
    {dstev : List ℝ → List ℝ → List ℝ × List ℝ} (hd : DstevContract dstev) {m : ℕ}
    (hm : m + 1 ≤ s.vs.length) {tol tol2 : ℝ}
    (hacc : (ln - l1) * startLeft l1 l2 ln u g m ≤ tol)
    (hp : (dstev s.diag s.sub).1.getD 0 0 - l1 + tol2 < (l2 - l1) * cosSq u g) :
    checkConvergence s.beta s.vs.length 1 tol (calcTridiagEpairs Real.sqrt tol2 dstev s.diag s.sub 1).2 =
      .ok true := by
  have hk := h.kept hg hs hd (by omega) hp
  obtain ⟨y, hyS, -, hyy, hAy, hres⟩ := ritz_pair hs.inv (by omega) hd
  obtain ⟨b1, b2, -, -⟩ := h.residual hyS hyy hAy
  have herr := h.ritz_error hg hs hd hm
  have h0 := startLeft_nonneg h.gap h.spread u g m
  have hgap := h.gap
  have hspread := h.spread
  rw [test_kept hs.inv (by omega) hd tol hk, Outcome.ok.injEq, decide_eq_true_eq, ← hres]
  refine le_trans ?_ hacc
  refine (pow_le_pow_iff_left₀ (norm_nonneg _) (mul_nonneg (by linarith) h0) two_ne_zero).1 ?_
  refine b2.trans ?_
  rw [mul_pow]
  have h1 : ((dstev s.diag s.sub).1.getD 0 0 - l1) * (ln - (dstev s.diag s.sub).1.getD 0 0) ≤
      ((dstev s.diag s.sub).1.getD 0 0 - l1) * (ln - l1) :=
    mul_le_mul_of_nonneg_left (by linarith) (by linarith)
  have h2 : ((dstev s.diag s.sub).1.getD 0 0 - l1) * (ln - l1) ≤
      ((ln - l1) * startLeft l1 l2 ln u g m ^ 2) * (ln - l1) :=
    mul_le_mul_of_nonneg_right herr (by linarith)
  nlinarith

end

end Mfmg
