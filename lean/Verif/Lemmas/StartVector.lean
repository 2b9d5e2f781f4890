import Verif.Model.LocalLanczos
import Verif.Spec.StartVector
import Verif.Lemmas.LanczosRate
import Verif.Props.LocalEig
import Mathlib.Analysis.InnerProductSpace.Projection.FiniteDimensional
import Mathlib.Analysis.SpecificLimits.Basic

/-!
# Lemmas on the start vector of the local eigenproblems
-/

set_option autoImplicit false

namespace Mfmg

open Finset
open scoped InnerProductSpace

section

variable {E : Type} [NormedAddCommGroup E] [InnerProductSpace ℝ E]

/-- A basis of eigenvectors of an invariant subspace. -/
theorem invariant_basis {A : E →ₗ[ℝ] E} {S : Submodule ℝ E} [FiniteDimensional ℝ S]
    (hmaps : ∀ x ∈ S, A x ∈ S) (hsymm : ∀ x ∈ S, ∀ y ∈ S, ⟪A x, y⟫_ℝ = ⟪x, A y⟫_ℝ) :
    ∃ (n : ℕ) (b : Fin n → E) (lam : Fin n → ℝ), Orthonormal ℝ b ∧ (∀ i, b i ∈ S) ∧
      (∀ i, A (b i) = lam i • b i) ∧ ∀ x ∈ S, x = ∑ i, ⟪b i, x⟫_ℝ • b i := by
  set AS : S →ₗ[ℝ] S := A.restrict hmaps with hAS
  have hsym : AS.IsSymmetric := fun x y => hsymm x x.2 y y.2
  set B := hsym.eigenvectorBasis rfl with hB
  have heig : ∀ i, A (B i : E) = hsym.eigenvalues rfl i • (B i : E) := fun i =>
    congrArg Subtype.val (hsym.apply_eigenvectorBasis rfl i)
  have horth : Orthonormal ℝ (fun i => (B i : E)) := B.orthonormal.comp_linearIsometry S.subtypeₗᵢ
  refine ⟨_, fun i => (B i : E), fun i => hsym.eigenvalues rfl i, horth, fun i => (B i).2, heig, ?_⟩
  intro x hx
  have := congrArg Subtype.val (B.sum_repr ⟨x, hx⟩)
  simp only [AddSubmonoidClass.coe_finsetSum, Submodule.coe_smul, OrthonormalBasis.repr_apply_apply] at this
  exact this.symm

theorem basis_quad {A : E →ₗ[ℝ] E} {S : Submodule ℝ E} (hmaps : ∀ x ∈ S, A x ∈ S)
    (hsymm : ∀ x ∈ S, ∀ y ∈ S, ⟪A x, y⟫_ℝ = ⟪x, A y⟫_ℝ) {n : ℕ} {b : Fin n → E} {lam : Fin n → ℝ}
    (hb : ∀ i, b i ∈ S) (he : ∀ i, A (b i) = lam i • b i) (hs : ∀ x ∈ S, x = ∑ i, ⟪b i, x⟫_ℝ • b i)
    {x : E} (hx : x ∈ S) :
    ⟪A x, x⟫_ℝ = ∑ i, lam i * ⟪b i, x⟫_ℝ ^ 2 ∧ ⟪x, x⟫_ℝ = ∑ i, ⟪b i, x⟫_ℝ ^ 2 := by
  constructor
  · rw [parseval (hs _ (hmaps x hx))]
    refine Finset.sum_congr rfl fun i _ => ?_
    rw [← hsymm _ (hb i) _ hx, he i, inner_smul_left]
    simp only [conj_trivial]
    ring
  · rw [parseval (hs x hx)]
    exact Finset.sum_congr rfl fun i _ => by ring

/-- The smallest eigenvalue on an invariant subspace. -/
theorem exists_smallest {A : E →ₗ[ℝ] E} {F : Submodule ℝ E} [FiniteDimensional ℝ F]
    (hmaps : ∀ x ∈ F, A x ∈ F) (hsymm : ∀ x ∈ F, ∀ y ∈ F, ⟪A x, y⟫_ℝ = ⟪x, A y⟫_ℝ) {x0 : E} (hx0 : x0 ∈ F)
    (hne : x0 ≠ 0) :
    ∃ l1 : ℝ, (∃ w ∈ F, w ≠ 0 ∧ A w = l1 • w) ∧ ∀ x ∈ F, l1 * ⟪x, x⟫_ℝ ≤ ⟪A x, x⟫_ℝ := by
  obtain ⟨n, b, lam, hb, hbF, he, hs⟩ := invariant_basis hmaps hsymm
  have : Nonempty (Fin n) := by
    by_contra hem
    rw [not_nonempty_iff] at hem
    have := hs x0 hx0
    rw [Finset.univ_eq_empty, Finset.sum_empty] at this
    exact hne this
  obtain ⟨i, hi⟩ := Finite.exists_min lam
  refine ⟨lam i, ⟨b i, hbF i, hb.ne_zero i, he i⟩, fun x hx => ?_⟩
  obtain ⟨q1, q2⟩ := basis_quad hmaps hsymm hbF he hs hx
  rw [q1, q2, Finset.mul_sum]
  exact Finset.sum_le_sum fun j _ => mul_le_mul_of_nonneg_right (hi j) (sq_nonneg _)

/-- The eigenvectors for `l1` in `F`. -/
def eigIn (A : E →ₗ[ℝ] E) (F : Submodule ℝ E) (l1 : ℝ) : Submodule ℝ E where
  carrier := {x | x ∈ F ∧ A x = l1 • x}
  add_mem' := by
    rintro a b ⟨h1, h2⟩ ⟨h3, h4⟩
    exact ⟨F.add_mem h1 h3, by rw [map_add, h2, h4, smul_add]⟩
  zero_mem' := ⟨F.zero_mem, by simp⟩
  smul_mem' := by
    rintro c x ⟨h1, h2⟩
    exact ⟨F.smul_mem c h1, by rw [map_smul, h2, smul_comm]⟩

theorem mem_eigIn {A : E →ₗ[ℝ] E} {F : Submodule ℝ E} {l1 : ℝ} {x : E} :
    x ∈ eigIn A F l1 ↔ x ∈ F ∧ A x = l1 • x := Iff.rfl

/-- The part of `F` orthogonal to the eigenvectors for the smallest eigenvalue. -/
theorem rest_split [FiniteDimensional ℝ E] {A : E →ₗ[ℝ] E} {F : Submodule ℝ E}
    (hmaps : ∀ x ∈ F, A x ∈ F) (hsymm : ∀ x ∈ F, ∀ y ∈ F, ⟪A x, y⟫_ℝ = ⟪x, A y⟫_ℝ) {l1 : ℝ}
    (hlow : ∀ x ∈ F, l1 * ⟪x, x⟫_ℝ ≤ ⟪A x, x⟫_ℝ) :
    ∃ l2 ln, l1 < l2 ∧ l2 < ln ∧ (∀ x ∈ F ⊓ (eigIn A F l1)ᗮ, A x ∈ F ⊓ (eigIn A F l1)ᗮ) ∧
      ∀ x ∈ F ⊓ (eigIn A F l1)ᗮ, l2 * ⟪x, x⟫_ℝ ≤ ⟪A x, x⟫_ℝ ∧ ⟪A x, x⟫_ℝ ≤ ln * ⟪x, x⟫_ℝ := by
  have hm : ∀ x ∈ F ⊓ (eigIn A F l1)ᗮ, A x ∈ F ⊓ (eigIn A F l1)ᗮ := by
    rintro x ⟨h1, h2⟩
    refine ⟨hmaps x h1, ?_⟩
    rw [SetLike.mem_coe, Submodule.mem_orthogonal] at h2 ⊢
    intro w hw
    rw [← hsymm w hw.1 x h1, hw.2, inner_smul_left, h2 w hw, mul_zero]
  have hs : ∀ x ∈ F ⊓ (eigIn A F l1)ᗮ, ∀ y ∈ F ⊓ (eigIn A F l1)ᗮ, ⟪A x, y⟫_ℝ = ⟪x, A y⟫_ℝ :=
    fun x hx y hy => hsymm x hx.1 y hy.1
  obtain ⟨n, b, lam, hb, hbS, he, hsum⟩ := invariant_basis hm hs
  have hlam : ∀ i, l1 < lam i := by
    intro i
    have hn : ⟪b i, b i⟫_ℝ = 1 := by rw [real_inner_self_eq_norm_sq, hb.1 i]; norm_num
    have h1 := hlow _ (hbS i).1
    rw [he i, inner_smul_left, hn, mul_one] at h1
    simp only [conj_trivial, mul_one] at h1
    refine lt_of_le_of_ne h1 fun heq => ?_
    have h2 := (hbS i).2
    rw [SetLike.mem_coe, Submodule.mem_orthogonal] at h2
    have := h2 (b i) ⟨(hbS i).1, by rw [he i, heq]⟩
    rw [hn] at this
    norm_num at this
  rcases isEmpty_or_nonempty (Fin n) with hem | hnem
  · refine ⟨l1 + 1, l1 + 2, by linarith, by linarith, hm, fun x hx => ?_⟩
    have := hsum x hx
    rw [Finset.univ_eq_empty, Finset.sum_empty] at this
    rw [this]
    simp
  · obtain ⟨i, hi⟩ := Finite.exists_min lam
    obtain ⟨j, hj⟩ := Finite.exists_max lam
    refine ⟨lam i, lam j + 1, hlam i, by have := hi j; linarith, hm, fun x hx => ?_⟩
    obtain ⟨q1, q2⟩ := basis_quad hm hs hbS he hsum hx
    rw [q1, q2, Finset.mul_sum, Finset.mul_sum]
    exact ⟨Finset.sum_le_sum fun k _ => mul_le_mul_of_nonneg_right (hi k) (sq_nonneg _),
      Finset.sum_le_sum fun k _ => mul_le_mul_of_nonneg_right (by have := hj k; linarith) (sq_nonneg _)⟩

/-- The rest of the space with a given gap. -/
theorem rest_gap [FiniteDimensional ℝ E] {A : E →ₗ[ℝ] E} {F : Submodule ℝ E}
    (hsymm : ∀ x ∈ F, ∀ y ∈ F, ⟪A x, y⟫_ℝ = ⟪x, A y⟫_ℝ) {l1 l2 : ℝ}
    (hm : ∀ x ∈ F ⊓ (eigIn A F l1)ᗮ, A x ∈ F ⊓ (eigIn A F l1)ᗮ)
    (hgap : ∀ μ, ∀ w ∈ eigIn A F μ, w ≠ 0 → μ = l1 ∨ l2 ≤ μ) :
    ∀ x ∈ F ⊓ (eigIn A F l1)ᗮ, l2 * ⟪x, x⟫_ℝ ≤ ⟪A x, x⟫_ℝ := by
  have hs : ∀ x ∈ F ⊓ (eigIn A F l1)ᗮ, ∀ y ∈ F ⊓ (eigIn A F l1)ᗮ, ⟪A x, y⟫_ℝ = ⟪x, A y⟫_ℝ :=
    fun x hx y hy => hsymm x hx.1 y hy.1
  obtain ⟨n, b, lam, hb, hbS, he, hsum⟩ := invariant_basis hm hs
  intro x hx
  obtain ⟨q1, q2⟩ := basis_quad hm hs hbS he hsum hx
  rw [q1, q2, Finset.mul_sum]
  refine Finset.sum_le_sum fun i _ => mul_le_mul_of_nonneg_right ?_ (sq_nonneg _)
  rcases hgap (lam i) (b i) ⟨(hbS i).1, he i⟩ (hb.ne_zero i) with h1 | h1
  · exfalso
    have h2 := (hbS i).2
    rw [SetLike.mem_coe, Submodule.mem_orthogonal] at h2
    have := h2 (b i) ⟨(hbS i).1, by rw [he i, h1]⟩
    exact hb.ne_zero i (inner_self_eq_zero.1 this)
  · exact h1

/-- Every start vector that is not orthogonal to the eigenvectors for the smallest eigenvalue. -/
theorem split_start [FiniteDimensional ℝ E] {A : E →ₗ[ℝ] E} {F : Submodule ℝ E}
    (hmaps : ∀ x ∈ F, A x ∈ F) (hsymm : ∀ x ∈ F, ∀ y ∈ F, ⟪A x, y⟫_ℝ = ⟪x, A y⟫_ℝ) {l1 l2 : ℝ}
    (hlow : ∀ x ∈ F, l1 * ⟪x, x⟫_ℝ ≤ ⟪A x, x⟫_ℝ) (hl : l1 < l2)
    (hgap : ∀ μ, ∀ w ∈ eigIn A F μ, w ≠ 0 → μ = l1 ∨ l2 ≤ μ) {guess : E} (hg : guess ∈ F)
    {w : E} (hw : w ∈ eigIn A F l1) (hwn : ‖w‖ = 1) (hwg : ⟪w, guess⟫_ℝ ≠ 0) :
    ∃ u g ln, SmallestSplit A (F ⊓ (eigIn A F l1)ᗮ) u l1 l2 ln ∧ g ∈ F ⊓ (eigIn A F l1)ᗮ ∧
      guess = u + g ∧ ⟪w, guess⟫_ℝ ^ 2 ≤ ‖guess‖ ^ 2 * cosSq u g := by
  obtain ⟨l2', ln, -, -, hm, hb⟩ := rest_split hmaps hsymm hlow
  have hlow2 := rest_gap hsymm hm hgap
  have hmem : (eigIn A F l1).starProjection guess ∈ eigIn A F l1 := Submodule.starProjection_apply_mem _ _
  have hort : guess - (eigIn A F l1).starProjection guess ∈ (eigIn A F l1)ᗮ :=
    Submodule.sub_starProjection_mem_orthogonal guess
  obtain ⟨u, hu⟩ : ∃ u, u = (eigIn A F l1).starProjection guess := ⟨_, rfl⟩
  rw [← hu] at hmem hort
  have hug : ⟪u, guess - u⟫_ℝ = 0 := (Submodule.mem_orthogonal _ _).1 hort u hmem
  have hwu : ⟪w, guess⟫_ℝ = ⟪w, u⟫_ℝ := by
    have := (Submodule.mem_orthogonal _ _).1 hort w hw
    rw [inner_sub_right] at this
    linarith
  have hu0 : u ≠ 0 := by
    rintro rfl
    rw [inner_zero_right] at hwu
    exact hwg hwu
  have hpyth : ‖guess‖ ^ 2 = ‖u‖ ^ 2 + ‖guess - u‖ ^ 2 := by
    have e : guess = u + (guess - u) := by abel
    conv_lhs => rw [e]
    rw [norm_add_sq_real, hug]
    ring
  refine ⟨u, guess - u, max ln l2 + 1, ?_, ⟨F.sub_mem hg hmem.1, hort⟩, by abel, ?_⟩
  · refine ⟨hmem.2, hu0, hm, fun x hx y hy => hsymm x hx.1 y hy.1, ?_, hlow2,
      fun x hx => ((hb x hx).2).trans (mul_le_mul_of_nonneg_right ?_ real_inner_self_nonneg), hl, ?_⟩
    · rintro x ⟨-, hx⟩
      rw [SetLike.mem_coe, Submodule.mem_orthogonal] at hx
      exact hx u hmem
    · have := le_max_left ln l2; linarith
    · have := le_max_right ln l2; linarith
  · have hpos : 0 < ‖u‖ ^ 2 := by have := norm_pos_iff.2 hu0; positivity
    rw [cosSq, ← hpyth, mul_div_cancel₀ _ (by rw [hpyth]; positivity), hwu]
    have := abs_real_inner_le_norm w u
    rw [hwn, one_mul] at this
    rw [← sq_abs]
    exact pow_le_pow_left₀ (abs_nonneg _) this 2

end

/-! ### Matrices -/

theorem matOp_apply (size : ℕ) (M : ℕ → ℕ → ℝ) (x : EuclideanSpace ℝ (Fin size)) (i : Fin size) :
    matOp size M x i = ∑ j : Fin size, M i j * x j := by
  simp [matOp, Matrix.toLpLin_apply, Matrix.mulVec, dotProduct]

theorem inner_fin {size : ℕ} (x y : EuclideanSpace ℝ (Fin size)) : ⟪x, y⟫_ℝ = ∑ i, x i * y i := by
  simp [PiLp.inner_apply, mul_comm]

/-- The vectors that vanish on the constrained dofs. -/
def freeVectors (size : ℕ) (constrained : ℕ → Bool) : Submodule ℝ (EuclideanSpace ℝ (Fin size)) where
  carrier := {x | ∀ i : Fin size, constrained i = true → x i = 0}
  add_mem' := by
    intro a b ha hb i hi
    rw [PiLp.add_apply, ha i hi, hb i hi, add_zero]
  zero_mem' := fun i _ => rfl
  smul_mem' := by
    intro c x hx i hi
    rw [PiLp.smul_apply, hx i hi, smul_zero]

theorem mem_freeVectors {size : ℕ} {constrained : ℕ → Bool} {x : EuclideanSpace ℝ (Fin size)} :
    x ∈ freeVectors size constrained ↔ ∀ i : Fin size, constrained i = true → x i = 0 := Iff.rfl

section

variable {size : ℕ} {M : ℕ → ℕ → ℝ} {constrained : ℕ → Bool}

theorem matOp_symm (hs : ∀ i j, i < size → j < size → M i j = M j i) (x y : EuclideanSpace ℝ (Fin size)) :
    ⟪matOp size M x, y⟫_ℝ = ⟪x, matOp size M y⟫_ℝ := by
  rw [inner_fin, inner_fin]
  simp only [matOp_apply, Finset.sum_mul, Finset.mul_sum]
  rw [Finset.sum_comm]
  refine Finset.sum_congr rfl fun i _ => Finset.sum_congr rfl fun j _ => ?_
  rw [hs j i j.2 i.2]
  ring

theorem SymmetricUncoupled.maps (h : SymmetricUncoupled size M constrained) :
    ∀ x ∈ freeVectors size constrained, matOp size M x ∈ freeVectors size constrained := by
  intro x hx i hi
  rw [matOp_apply]
  refine Finset.sum_eq_zero fun j _ => ?_
  by_cases hij : i = j
  · rw [← hij, hx i hi, mul_zero]
  · rw [h.uncoupled i j i.2 j.2 (fun e => hij (Fin.ext e)) hi, zero_mul]

/-- The vector of the absolute values. -/
noncomputable def absVec (x : EuclideanSpace ℝ (Fin size)) : EuclideanSpace ℝ (Fin size) :=
  WithLp.toLp 2 (fun i => |x i|)

theorem absVec_apply (x : EuclideanSpace ℝ (Fin size)) (i : Fin size) : absVec x i = |x i| := rfl

theorem NonpositiveOffDiagonal.abs_quad (h : NonpositiveOffDiagonal size M constrained)
    (x : EuclideanSpace ℝ (Fin size)) :
    ⟪matOp size M (absVec x), absVec x⟫_ℝ ≤ ⟪matOp size M x, x⟫_ℝ := by
  rw [inner_fin, inner_fin]
  refine Finset.sum_le_sum fun i _ => ?_
  rw [matOp_apply, matOp_apply, Finset.sum_mul, Finset.sum_mul]
  refine Finset.sum_le_sum fun j _ => ?_
  simp only [absVec_apply]
  by_cases hij : i = j
  · subst hij
    rw [mul_assoc, mul_assoc, abs_mul_abs_self]
  · have hM := h.nonpos i j i.2 j.2 (fun e => hij (Fin.ext e))
    rw [mul_assoc, mul_assoc, ← abs_mul]
    exact mul_le_mul_of_nonpos_left (le_abs_self _) hM

theorem absVec_inner (x : EuclideanSpace ℝ (Fin size)) : ⟪absVec x, absVec x⟫_ℝ = ⟪x, x⟫_ℝ := by
  rw [inner_fin, inner_fin]
  exact Finset.sum_congr rfl fun i _ => by simp only [absVec_apply]; exact abs_mul_abs_self _

/-- With an eigenvector for the smallest eigenvalue its absolute values form one. -/
theorem NonpositiveOffDiagonal.abs_eig (h : NonpositiveOffDiagonal size M constrained) {l1 : ℝ}
    (hlow : ∀ x ∈ freeVectors size constrained, l1 * ⟪x, x⟫_ℝ ≤ ⟪matOp size M x, x⟫_ℝ)
    {w : EuclideanSpace ℝ (Fin size)} (hw : w ∈ eigIn (matOp size M) (freeVectors size constrained) l1) :
    absVec w ∈ eigIn (matOp size M) (freeVectors size constrained) l1 := by
  have hsymm : ∀ x ∈ freeVectors size constrained, ∀ y ∈ freeVectors size constrained,
      ⟪matOp size M x, y⟫_ℝ = ⟪x, matOp size M y⟫_ℝ := fun x _ y _ => matOp_symm h.symm x y
  obtain ⟨l2, ln, h1, -, hm, hb⟩ := rest_split h.maps hsymm hlow
  have haF : absVec w ∈ freeVectors size constrained := by
    intro i hi
    rw [absVec_apply, hw.1 i hi, abs_zero]
  set W := eigIn (matOp size M) (freeVectors size constrained) l1 with hW
  have hmem : W.starProjection (absVec w) ∈ W := Submodule.starProjection_apply_mem _ _
  have hort : absVec w - W.starProjection (absVec w) ∈ Wᗮ := Submodule.sub_starProjection_mem_orthogonal _
  obtain ⟨p, hp⟩ : ∃ p, p = W.starProjection (absVec w) := ⟨_, rfl⟩
  rw [← hp] at hmem hort
  obtain ⟨z, hz⟩ : ∃ z, z = absVec w - p := ⟨_, rfl⟩
  rw [← hz] at hort
  have hzF : z ∈ freeVectors size constrained := by rw [hz]; exact Submodule.sub_mem _ haF hmem.1
  have e : absVec w = p + z := by rw [hz]; abel
  have hpz : ⟪p, z⟫_ℝ = 0 := (Submodule.mem_orthogonal _ _).1 hort p hmem
  have hzp : ⟪z, p⟫_ℝ = 0 := by rw [real_inner_comm]; exact hpz
  have hAz : ⟪matOp size M z, p⟫_ℝ = 0 := by
    rw [hsymm z hzF p hmem.1, hmem.2, inner_smul_right, hzp, mul_zero]
  have hq := h.abs_quad w
  have hn := absVec_inner w
  rw [hw.2, inner_smul_left, ← hn, e, map_add, hmem.2] at hq
  simp only [inner_add_left, inner_add_right, inner_smul_left, conj_trivial, hpz, hzp, hAz, mul_zero, add_zero,
    zero_add] at hq
  have hz2 := (hb z ⟨hzF, hort⟩).1
  have hz0 : ⟪z, z⟫_ℝ = 0 := by
    have := real_inner_self_nonneg (x := z)
    nlinarith
  rw [inner_self_eq_zero] at hz0
  rw [e, hz0, add_zero]
  exact hmem

theorem libraryGuess_apply (draw : ℕ → ℝ) (i : Fin size) :
    (constrained i = true → libraryGuess size constrained draw i = 0) ∧
      (constrained i = false → ∃ m, libraryGuess size constrained draw i = draw m) := by
  obtain ⟨-, h⟩ := setInitialGuess_spec constrained draw size 0 0
  obtain ⟨h1, h2⟩ := h i i.2
  rw [Nat.zero_add] at h1 h2
  have e : libraryGuess size constrained draw i = (setInitialGuess constrained draw size 0 0).getD i 0 := rfl
  rw [e, List.getD]
  refine ⟨fun hc => by rw [h1 hc]; rfl, fun hc => ?_⟩
  obtain ⟨m, hm⟩ := h2 hc
  exact ⟨m, by rw [hm]; rfl⟩

/-- The absolute values of a vector that vanishes on the constrained dofs against the start vector. -/
theorem absVec_guess_pos {draw : ℕ → ℝ} (hd : ∀ m, 0 < draw m) {w : EuclideanSpace ℝ (Fin size)}
    (hw : w ∈ freeVectors size constrained) (hne : w ≠ 0) :
    0 < ⟪absVec w, libraryGuess size constrained draw⟫_ℝ := by
  have hg : ∀ i, 0 ≤ libraryGuess size constrained draw i := by
    intro i
    obtain ⟨h1, h2⟩ := libraryGuess_apply (constrained := constrained) draw i
    cases hc : constrained i with
    | true => rw [h1 hc]
    | false => obtain ⟨m, hm⟩ := h2 hc; rw [hm]; exact (hd m).le
  obtain ⟨i, hi⟩ : ∃ i, w i ≠ 0 := by
    by_contra hall
    push Not at hall
    exact hne (by ext i; exact hall i)
  have hgi : 0 < libraryGuess size constrained draw i := by
    obtain ⟨-, h2⟩ := libraryGuess_apply (constrained := constrained) draw i
    cases hc : constrained i with
    | true => exact absurd (hw i hc) hi
    | false => obtain ⟨m, hm⟩ := h2 hc; rw [hm]; exact hd m
  rw [inner_fin]
  refine Finset.sum_pos' (fun j _ => mul_nonneg (abs_nonneg _) (hg j)) ⟨i, mem_univ i, ?_⟩
  exact mul_pos (abs_pos.2 hi) hgi

theorem libraryGuess_free (draw : ℕ → ℝ) : libraryGuess size constrained draw ∈ freeVectors size constrained :=
  fun i hi => (libraryGuess_apply draw i).1 hi

/-- The vector with the entries `x`. -/
noncomputable def entriesVec (size : ℕ) (x : ℕ → ℝ) : EuclideanSpace ℝ (Fin size) :=
  WithLp.toLp 2 (fun j : Fin size => x j)

theorem FreeEigenvector.mem {lam : ℝ} {x : ℕ → ℝ} (h : FreeEigenvector size M constrained lam x) :
    entriesVec size x ∈ eigIn (matOp size M) (freeVectors size constrained) lam ∧ entriesVec size x ≠ 0 := by
  refine ⟨⟨fun j hj => h.free j j.2 hj, ?_⟩, ?_⟩
  · ext j
    rw [matOp_apply]
    have := h.eig j j.2
    rw [Finset.sum_range] at this
    exact this
  · intro h0
    obtain ⟨i, hi, hxi⟩ := h.ne
    exact hxi (congrArg (fun v : EuclideanSpace ℝ (Fin size) => v ⟨i, hi⟩) h0)

theorem freeEigenvector_of {lam : ℝ} {w : EuclideanSpace ℝ (Fin size)}
    (hw : w ∈ eigIn (matOp size M) (freeVectors size constrained) lam) (hne : w ≠ 0) :
    FreeEigenvector size M constrained lam (fun j => if h : j < size then w ⟨j, h⟩ else 0) := by
  obtain ⟨hF, hA⟩ := hw
  refine ⟨?_, ?_, ?_⟩
  · by_contra hall
    push Not at hall
    refine hne ?_
    ext i
    have := hall i i.2
    rwa [dif_pos i.2] at this
  · intro i hi hc
    simp only [dif_pos hi]
    exact hF ⟨i, hi⟩ hc
  · intro i hi
    have := congrArg (fun v : EuclideanSpace ℝ (Fin size) => v ⟨i, hi⟩) hA
    simp only [matOp_apply, PiLp.smul_apply, smul_eq_mul] at this
    simp only [dif_pos hi]
    rw [← this, Finset.sum_range]
    exact Finset.sum_congr rfl fun j _ => by rw [dif_pos j.2]

/-- Eigenvalues of the operator on the free vectors. -/
theorem freeEigenvalue_iff (lam : ℝ) : FreeEigenvalue size M constrained lam ↔
    ∃ w ∈ eigIn (matOp size M) (freeVectors size constrained) lam, w ≠ 0 :=
  ⟨fun ⟨_, hx⟩ => ⟨_, hx.mem.1, hx.mem.2⟩, fun ⟨_, hw, hne⟩ => ⟨_, freeEigenvector_of hw hne⟩⟩

/-- The smallest eigenvalue on the free dofs bounds the form below. -/
theorem SymmetricUncoupled.smallest (h : SymmetricUncoupled size M constrained)
    (hfree : ∃ i, i < size ∧ constrained i = false) :
    ∃ l1, SmallestFree size M constrained l1 ∧
      ∀ x ∈ freeVectors size constrained, l1 * ⟪x, x⟫_ℝ ≤ ⟪matOp size M x, x⟫_ℝ := by
  obtain ⟨i, hi, hc⟩ := hfree
  have hx0 : EuclideanSpace.single (⟨i, hi⟩ : Fin size) (1 : ℝ) ∈ freeVectors size constrained := by
    intro j hj
    have hji : j ≠ ⟨i, hi⟩ := by
      rintro rfl
      rw [hc] at hj
      cases hj
    simp [hji]
  obtain ⟨l1, ⟨w, hwF, hne, hw⟩, hlow⟩ := exists_smallest h.maps (fun x _ y _ => matOp_symm h.symm x y) hx0
    (by simp)
  refine ⟨l1, ⟨(freeEigenvalue_iff l1).2 ⟨w, ⟨hwF, hw⟩, hne⟩, fun μ hμ => ?_⟩, hlow⟩
  obtain ⟨z, ⟨hzF, hz⟩, hzne⟩ := (freeEigenvalue_iff μ).1 hμ
  have := hlow z hzF
  rw [hz, inner_smul_left] at this
  exact le_of_mul_le_mul_right this (real_inner_self_pos.2 hzne)

theorem SymmetricUncoupled.lower (h : SymmetricUncoupled size M constrained) {l1 : ℝ}
    (hl : SmallestFree size M constrained l1) :
    ∀ x ∈ freeVectors size constrained, l1 * ⟪x, x⟫_ℝ ≤ ⟪matOp size M x, x⟫_ℝ := by
  obtain ⟨x, hx⟩ := hl.1
  obtain ⟨i, hi, hxi⟩ := hx.ne
  have hc : constrained i = false := by
    by_contra hc
    exact hxi (hx.free i hi (by simpa using hc))
  obtain ⟨l, hl', hlow⟩ := h.smallest ⟨i, hi, hc⟩
  have : l1 = l := le_antisymm (hl.2 _ hl'.1) (hl'.2 _ hl.1)
  rw [this]
  exact hlow

end

/-! ### The solver -/

/-- The bound of C100 becomes as small as wanted. -/
theorem startLeft_small {E : Type} [NormedAddCommGroup E] [InnerProductSpace ℝ E] {l1 l2 ln : ℝ} (h1 : l1 < l2)
    (h2 : l2 < ln) (u g : E) {ε : ℝ} (hε : 0 < ε) :
    ∃ k, ∀ m, k ≤ m → startLeft l1 l2 ln u g m ≤ ε := by
  have hgap : 0 < relativeGap l1 l2 ln := div_pos (by linarith) (by linarith)
  have hs := Real.sqrt_pos.2 hgap
  have hs1 : Real.sqrt (relativeGap l1 l2 ln) ≤ 1 := by
    refine (Real.sqrt_le_sqrt (y := 1) ?_).trans (by simp)
    rw [relativeGap, div_le_one (by linarith)]
    linarith
  set q := (1 - Real.sqrt (relativeGap l1 l2 ln)) / (1 + Real.sqrt (relativeGap l1 l2 ln)) with hq
  have hq0 : 0 ≤ q := div_nonneg (by linarith) (by linarith)
  have hq1 : q < 1 := by rw [hq, div_lt_one (by linarith)]; linarith
  have ht : Filter.Tendsto (fun m : ℕ => 2 * q ^ m * (‖g‖ / ‖u‖)) Filter.atTop (nhds (2 * 0 * (‖g‖ / ‖u‖))) :=
    ((tendsto_pow_atTop_nhds_zero_of_lt_one hq0 hq1).const_mul 2).mul_const _
  rw [mul_zero, zero_mul] at ht
  obtain ⟨k, hk⟩ := Filter.eventually_atTop.1 (ht.eventually (gt_mem_nhds hε))
  exact ⟨k, fun m hm => (hk m hm).le⟩

/-- A start vector that is an eigenvector: the solver stops after one iteration with its eigenvalue. -/
theorem solve_eigenvector {E : Type} [NormedAddCommGroup E] [InnerProductSpace ℝ E] (debug : Bool)
    (A : E →ₗ[ℝ] E) (g : E) (l : ℝ) (hA : A g = l • g) (hg : g ≠ 0)
    (dstev : List ℝ → List ℝ → List ℝ × List ℝ) (hd : DstevContract dstev) (tol2 : ℝ)
    (p : LanczosParams) (hpct : 0 ≤ p.pct ∧ p.pct < 100) (hmax : 1 ≤ p.maxit) (htol : 0 ≤ p.tol) :
    ∃ r y, solveLanczos debug A (calcTridiagEpairs Real.sqrt tol2 dstev) 1 p g = .ok (r, [y]) ∧
      r.evals = [l] ∧ ‖y‖ = 1 ∧ A y = l • y := by
  have hq0 : ‖g‖ ≠ 0 := norm_ne_zero_iff.2 hg
  obtain ⟨v, hv⟩ : ∃ v, v = ‖g‖⁻¹ • g := ⟨_, rfl⟩
  have hvn : ‖v‖ = 1 := by rw [hv, norm_smul, norm_inv, norm_norm, inv_mul_cancel₀ hq0]
  have hvv : ⟪v, v⟫_ℝ = 1 := by rw [real_inner_self_eq_norm_sq, hvn]; norm_num
  have hAv : A v = l • v := by rw [hv, map_smul, hA, smul_comm]
  have hα : ⟪v, A v⟫_ℝ = l := by rw [hAv, inner_smul_right, hvv, mul_one]
  have hw : A v + (-l) • v = 0 := by rw [hAv]; module
  obtain ⟨s, hs, hs1⟩ := tridiag_one dstev hd tol2 l
  obtain ⟨n, hn⟩ : ∃ n, p.maxit = n + 1 := ⟨p.maxit - 1, by omega⟩
  have hstep : lanczosStep debug A (lanczosInit g) = .ok ⟨[v], 0, ‖(0 : E)‖, [l], []⟩ := by
    unfold lanczosStep lanczosInit
    simp only
    rw [if_neg hq0]
    simp only [List.getLast?_nil, ← hv, hα, hw, List.nil_append]
  have hchk : checkConvergence ‖(0 : E)‖ 1 1 p.tol [s] = .ok true := by
    rw [checkConvergence, if_neg (by omega), checkLoop_eq _ _ _ (by omega) _ _ _ _ (by simp)]
    simp only [Bool.true_and, Outcome.ok.injEq, decide_eq_true_eq]
    intro t ht
    rw [norm_zero, zero_mul]
    exact htol
  refine ⟨⟨⟨[v], 0, ‖(0 : E)‖, [l], []⟩, [l], [s], [1], true⟩, s • v, ?_, rfl, ?_, ?_⟩
  · unfold solveLanczos
    have a1 : Outcome.assert debug (decide (0 ≤ p.pct ∧ p.pct < 100)) = .ok () := by
      simp [Outcome.assert, hpct]
    have a2 : Outcome.assert debug (decide (0 ≤ p.tol)) = .ok () := by simp [Outcome.assert, htol]
    have a3 : Outcome.assert debug (decide (1 ≤ p.maxit)) = .ok () := by simp [Outcome.assert, hmax]
    rw [a1, Outcome.ok_bind, a2, Outcome.ok_bind, a3, Outcome.ok_bind, hn, lanczosLoop]
    simp only [hstep, Outcome.ok_bind, true_or, if_true, hs, hchk, List.nil_append]
    have a4 : Outcome.assert debug (decide (1 ≤ [v].length)) = .ok () := by simp [Outcome.assert]
    rw [a4, Outcome.ok_bind, calcEvecs_eq _ _ _ _ (by simp)]
    simp [Outcome.ok_bind, Outcome.pure_eq]
  · rw [norm_smul, hvn, mul_one, Real.norm_eq_abs, hs1]
  · rw [map_smul, hAv, smul_comm]

theorem lanczosSolve_one {E : Type} [NormedAddCommGroup E] [InnerProductSpace ℝ E] (debug : Bool) (A : E → E)
    (tridiag : List ℝ → List ℝ → ℕ → List ℝ × List ℝ) (sortPerm : List ℝ → List ℕ)
    (perturb : ℕ → E → E) (emptyVec : E) (p : LanczosParams) (guess : E) :
    lanczosSolve debug A tridiag sortPerm perturb emptyVec 1 none p guess = (do
      let r ← solveLanczos debug A tridiag 1 p guess
      let sv ← savePairs 1 r.1.evals r.2
      pure (finishPairs emptyVec sortPerm 1 1 sv.1 sv.2)) := by
  have hdef : deflatedVmult A [] = A := rfl
  have hdg : ∀ x : E, deflate [] x = x := fun _ => rfl
  unfold lanczosSolve
  have a2 : Outcome.assert debug (decide (1 ≤ 1)) = .ok () := by simp [Outcome.assert]
  simp only [a2, Outcome.ok_bind]
  rw [cycleLoop]
  simp only [hdef, hdg, gt_iff_lt, lt_self_iff_false, if_false]
  cases solveLanczos debug A tridiag 1 p guess with
  | ok r =>
    simp only [Outcome.ok_bind, Outcome.pure_eq]
    cases savePairs 1 r.1.evals r.2 with
    | ok sv => simp [Outcome.ok_bind, cycleLoop]
    | throws m => rfl
    | aborted => rfl
    | ub m => rfl
  | throws m => rfl
  | aborted => rfl
  | ub m => rfl

end Mfmg
