import Verif.Model.ConjugateGradient
import Verif.Spec.Relaxation
import Mathlib.LinearAlgebra.FiniteDimensional.Lemmas
import Mathlib.LinearAlgebra.Dimension.Constructions
import Mathlib.LinearAlgebra.Matrix.DotProduct
import Mathlib.Tactic.Linarith
import Mathlib.Tactic.FieldSimp
import Mathlib.Tactic.Abel
import Mathlib.Tactic.LinearCombination

/-!
# Lemmas on the conjugate gradient method
-/

set_option autoImplicit false

namespace Mfmg

section

variable {K : Type} [Field K] [LinearOrder K] [IsStrictOrderedRing K] {n : ℕ}

/-- What holds after `k` steps: `S` is the space searched so far. -/
structure CgPoint (A : Matrix (Fin n) (Fin n) K) (b x₀ : Fin n → K) (y : ℕ → Fin n → K) (k : ℕ)
    (S : Submodule K (Fin n → K)) (x g : Fin n → K) : Prop where
  residual : g = A.mulVec x - b
  searched : x - x₀ ∈ S
  orthogonal : ∀ v ∈ S, g ⬝ᵥ v = 0
  other : y k - x₀ ∈ S
  rank : Module.finrank K S = k

/-- What holds at the beginning of step `k + 1`. -/
structure CgState (A M : Matrix (Fin n) (Fin n) K) (b x₀ : Fin n → K) (y : ℕ → Fin n → K) (k : ℕ)
    (S : Submodule K (Fin n → K)) (x g d : Fin n → K) (gh : K) : Prop
    extends CgPoint A b x₀ y k S x g where
  conjugate : ∀ v ∈ S, d ⬝ᵥ A.mulVec v = 0
  direction : d + M.mulVec g ∈ S
  start : M.mulVec (A.mulVec x₀ - b) ∈ S ⊔ Submodule.span K {d}
  krylov : ∀ v ∈ S, M.mulVec (A.mulVec v) ∈ S ⊔ Submodule.span K {d}
  product : gh = g ⬝ᵥ M.mulVec g

omit [LinearOrder K] [IsStrictOrderedRing K] in
theorem dot_mulVec_symm {A : Matrix (Fin n) (Fin n) K} (hA : A.transpose = A) (u v : Fin n → K) :
    u ⬝ᵥ A.mulVec v = A.mulVec u ⬝ᵥ v := by
  rw [Matrix.dotProduct_mulVec, ← Matrix.mulVec_transpose, hA]

omit [LinearOrder K] [IsStrictOrderedRing K] in
theorem cgState_init (A M : Matrix (Fin n) (Fin n) K) (b x₀ : Fin n → K) (y : ℕ → Fin n → K)
    (hy : y 0 = x₀) :
    CgState A M b x₀ y 0 ⊥ x₀ (A.mulVec x₀ - b) (-(M.mulVec (A.mulVec x₀ - b)))
      ((A.mulVec x₀ - b) ⬝ᵥ M.mulVec (A.mulVec x₀ - b)) where
  residual := rfl
  searched := by simp
  orthogonal := by
    intro v hv
    rw [(Submodule.mem_bot K).1 hv, dotProduct_zero]
  other := by simp [hy]
  rank := finrank_bot K _
  conjugate := by
    intro v hv
    rw [(Submodule.mem_bot K).1 hv, Matrix.mulVec_zero, dotProduct_zero]
  direction := by simp
  start := by
    rw [bot_sup_eq]
    exact Submodule.mem_span_singleton.2 ⟨-1, by rw [neg_one_smul, neg_neg]⟩
  krylov := by
    intro v hv
    rw [(Submodule.mem_bot K).1 hv]
    simp
  product := rfl

theorem cgState_descent {A M : Matrix (Fin n) (Fin n) K} {b x₀ : Fin n → K} {y : ℕ → Fin n → K} {k : ℕ}
    {S : Submodule K (Fin n → K)} {x g d : Fin n → K} {gh : K} (h : CgState A M b x₀ y k S x g d gh) :
    g ⬝ᵥ d = -gh := by
  have h1 := h.orthogonal _ h.direction
  rw [dotProduct_add, ← h.product] at h1
  linarith

theorem cgState_pos {A M : Matrix (Fin n) (Fin n) K} (hA : IsSpd A) (hM : IsSpd M) {b x₀ : Fin n → K}
    {y : ℕ → Fin n → K} {k : ℕ} {S : Submodule K (Fin n → K)} {x g d : Fin n → K} {gh : K}
    (h : CgState A M b x₀ y k S x g d gh) (hg : g ≠ 0) : 0 < gh ∧ 0 < d ⬝ᵥ A.mulVec d := by
  have hgh : 0 < gh := by
    rw [h.product]
    exact hM.2 g hg
  refine ⟨hgh, hA.2 d ?_⟩
  rintro rfl
  have := cgState_descent h
  rw [dotProduct_zero] at this
  linarith

/-- The point after the next step. -/
theorem cgState_point {A M : Matrix (Fin n) (Fin n) K} (hA : IsSpd A) (hM : IsSpd M) {b x₀ : Fin n → K}
    {y : ℕ → Fin n → K} {ω : ℕ → K} (hy : ∀ j, y (j + 1) = y j + ω j • M.mulVec (b - A.mulVec (y j))) {k : ℕ}
    {S : Submodule K (Fin n → K)} {x g d : Fin n → K} {gh : K} (h : CgState A M b x₀ y k S x g d gh)
    (hg : g ≠ 0) :
    CgPoint A b x₀ y (k + 1) (S ⊔ Submodule.span K {d}) (x + (gh / (d ⬝ᵥ A.mulVec d)) • d)
      (g + (gh / (d ⬝ᵥ A.mulVec d)) • A.mulVec d) := by
  obtain ⟨h1, h2⟩ := cgState_pos hA hM h hg
  refine ⟨?_, ?_, ?_, ?_, ?_⟩
  · rw [Matrix.mulVec_add, Matrix.mulVec_smul, h.residual]
    abel
  · have e : x + (gh / (d ⬝ᵥ A.mulVec d)) • d - x₀ = (x - x₀) + (gh / (d ⬝ᵥ A.mulVec d)) • d := by abel
    rw [e]
    exact Submodule.add_mem_sup h.searched (Submodule.smul_mem _ _ (Submodule.mem_span_singleton_self _))
  · intro v hv
    obtain ⟨s, hs, w, hw, rfl⟩ := Submodule.mem_sup.1 hv
    obtain ⟨c, rfl⟩ := Submodule.mem_span_singleton.1 hw
    have e1 : A.mulVec d ⬝ᵥ s = 0 := by
      rw [← dot_mulVec_symm hA.1]
      exact h.conjugate s hs
    have e2 : A.mulVec d ⬝ᵥ d = d ⬝ᵥ A.mulVec d := dotProduct_comm _ _
    have hne := h2.ne'
    simp only [add_dotProduct, dotProduct_add, smul_dotProduct, dotProduct_smul, smul_eq_mul, h.orthogonal s hs,
      e1, e2, cgState_descent h]
    field_simp
    ring
  · have e : y (k + 1) - x₀ = (y k - x₀) - ω k • (M.mulVec (A.mulVec (y k - x₀)) + M.mulVec (A.mulVec x₀ - b)) := by
      rw [hy, ← Matrix.mulVec_add, Matrix.mulVec_sub A,
        show A.mulVec (y k) - A.mulVec x₀ + (A.mulVec x₀ - b) = -(b - A.mulVec (y k)) by abel,
        Matrix.mulVec_neg, smul_neg]
      abel
    rw [e]
    exact Submodule.sub_mem _ (Submodule.mem_sup_left h.other)
      (Submodule.smul_mem _ _ (Submodule.add_mem _ (h.krylov _ h.other) h.start))
  · have hd : d ∉ S := by
      intro hd
      have := h.conjugate d hd
      linarith
    have hd0 : d ≠ 0 := by
      rintro rfl
      exact hd (Submodule.zero_mem _)
    have hi : S ⊓ Submodule.span K {d} = ⊥ :=
      disjoint_iff.1 ((Submodule.disjoint_span_singleton' hd0).2 hd)
    have hf := Submodule.finrank_sup_add_finrank_inf_eq S (Submodule.span K {d})
    rw [hi, finrank_bot, finrank_span_singleton hd0, h.rank] at hf
    exact hf

theorem cgState_next {A M : Matrix (Fin n) (Fin n) K} (hA : IsSpd A) (hM : IsSpd M) {b x₀ : Fin n → K}
    {y : ℕ → Fin n → K} {ω : ℕ → K} (hy : ∀ j, y (j + 1) = y j + ω j • M.mulVec (b - A.mulVec (y j))) {k : ℕ}
    {S : Submodule K (Fin n → K)} {x g d : Fin n → K} {gh : K} (h : CgState A M b x₀ y k S x g d gh)
    (hg : g ≠ 0) {x' g' : Fin n → K} (hx' : x' = x + (gh / (d ⬝ᵥ A.mulVec d)) • d)
    (hg' : g' = g + (gh / (d ⬝ᵥ A.mulVec d)) • A.mulVec d) :
    CgState A M b x₀ y (k + 1) (S ⊔ Submodule.span K {d}) x' g'
      ((g' ⬝ᵥ M.mulVec g' / gh) • d - M.mulVec g') (g' ⬝ᵥ M.mulVec g') := by
  have hp := cgState_point hA hM hy h hg
  rw [← hx', ← hg'] at hp
  obtain ⟨h1, h2⟩ := cgState_pos hA hM h hg
  have hMg : M.mulVec g ∈ S ⊔ Submodule.span K {d} := by
    have e : M.mulVec g = (d + M.mulVec g) + -d := by abel
    rw [e]
    exact Submodule.add_mem_sup h.direction (Submodule.neg_mem _ (Submodule.mem_span_singleton_self _))
  have hAd : A.mulVec d = ((d ⬝ᵥ A.mulVec d) / gh) • (g' - g) := by
    rw [hg', add_sub_cancel_left, smul_smul, div_mul_div_comm, mul_comm gh, div_self, one_smul]
    exact mul_ne_zero h2.ne' h1.ne'
  have hself : (g' ⬝ᵥ M.mulVec g' / gh) • d - M.mulVec g' ∈
      Submodule.span K {(g' ⬝ᵥ M.mulVec g' / gh) • d - M.mulVec g'} := Submodule.mem_span_singleton_self _
  refine ⟨hp, ?_, ?_, Submodule.mem_sup_left h.start, ?_, rfl⟩
  · intro v hv
    obtain ⟨s, hs, w, hw, rfl⟩ := Submodule.mem_sup.1 hv
    obtain ⟨c, rfl⟩ := Submodule.mem_span_singleton.1 hw
    have e1 : M.mulVec g' ⬝ᵥ A.mulVec s = 0 := by
      rw [← dot_mulVec_symm hM.1]
      exact hp.orthogonal _ (h.krylov s hs)
    have e2 : M.mulVec g' ⬝ᵥ A.mulVec d = (d ⬝ᵥ A.mulVec d) / gh * (g' ⬝ᵥ M.mulVec g') := by
      rw [hAd, dotProduct_smul, smul_eq_mul, ← hAd, dotProduct_sub, ← dot_mulVec_symm hM.1,
        ← dot_mulVec_symm hM.1, hp.orthogonal _ hMg, sub_zero]
    rw [Matrix.mulVec_add, Matrix.mulVec_smul, dotProduct_add, sub_dotProduct, dotProduct_smul, sub_dotProduct,
      smul_dotProduct, smul_dotProduct, h.conjugate s hs, e1, e2]
    simp only [smul_eq_mul]
    have := h1.ne'
    field_simp
    ring
  · rw [sub_add_cancel]
    exact Submodule.mem_sup_right (Submodule.smul_mem _ _ (Submodule.mem_span_singleton_self _))
  · intro v hv
    obtain ⟨s, hs, w, hw, rfl⟩ := Submodule.mem_sup.1 hv
    obtain ⟨c, rfl⟩ := Submodule.mem_span_singleton.1 hw
    have hMg' : M.mulVec g' ∈ S ⊔ Submodule.span K {d} ⊔
        Submodule.span K {(g' ⬝ᵥ M.mulVec g' / gh) • d - M.mulVec g'} := by
      have e : (g' ⬝ᵥ M.mulVec g' / gh) • d + -((g' ⬝ᵥ M.mulVec g' / gh) • d - M.mulVec g')
          = M.mulVec g' := by abel
      have hm := Submodule.add_mem_sup
        (Submodule.mem_sup_right (S := S) (Submodule.smul_mem _ (g' ⬝ᵥ M.mulVec g' / gh)
          (Submodule.mem_span_singleton_self d)))
        (Submodule.neg_mem _ hself)
      rwa [e] at hm
    rw [Matrix.mulVec_add, Matrix.mulVec_add, Matrix.mulVec_smul, Matrix.mulVec_smul, hAd, Matrix.mulVec_smul,
      Matrix.mulVec_sub]
    exact Submodule.add_mem _ (Submodule.mem_sup_left (h.krylov s hs))
      (Submodule.smul_mem _ _ (Submodule.smul_mem _ _ (Submodule.sub_mem _ hMg' (Submodule.mem_sup_left hMg))))

theorem dot_self_eq_zero {g : Fin n → K} (h : g ⬝ᵥ g ≤ 0) : g = 0 := by
  funext i
  have h0 : ∀ j ∈ Finset.univ, 0 ≤ g j * g j := fun j _ => mul_self_nonneg _
  have h1 : g i * g i ≤ 0 := le_trans (Finset.single_le_sum h0 (Finset.mem_univ i)) h
  exact mul_self_eq_zero.1 (le_antisymm h1 (mul_self_nonneg _))

/-- After `n` steps the residual is zero. -/
theorem cgPoint_full {A : Matrix (Fin n) (Fin n) K} {b x₀ : Fin n → K} {y : ℕ → Fin n → K} {k : ℕ}
    {S : Submodule K (Fin n → K)} {x g : Fin n → K} (h : CgPoint A b x₀ y k S x g) :
    k ≤ n ∧ (k = n → g = 0) := by
  have hn : Module.finrank K (Fin n → K) = n := by simp
  refine ⟨?_, fun hk => ?_⟩
  · have := Submodule.finrank_le S
    rw [h.rank, hn] at this
    exact this
  · have hS : S = ⊤ := Submodule.eq_top_of_finrank_eq (by rw [h.rank, hn, hk])
    exact dot_self_eq_zero (h.orthogonal g (by rw [hS]; exact Submodule.mem_top)).le

/-- The iterate is the best approximation in the space searched. -/
theorem cgPoint_best {A : Matrix (Fin n) (Fin n) K} (hA : IsSpd A) {b x₀ : Fin n → K} {y : ℕ → Fin n → K}
    {k : ℕ} {S : Submodule K (Fin n → K)} {x g : Fin n → K} (h : CgPoint A b x₀ y k S x g)
    {xs : Fin n → K} (hxs : A.mulVec xs = b) : energyOf A (xs - x) ≤ energyOf A (xs - y k) := by
  have hw : x - y k ∈ S := by
    have e : x - y k = (x - x₀) - (y k - x₀) := by abel
    rw [e]
    exact Submodule.sub_mem _ h.searched h.other
  have hg : A.mulVec (xs - x) = -g := by
    rw [Matrix.mulVec_sub, hxs, h.residual]
    abel
  have e : xs - y k = (xs - x) + (x - y k) := by abel
  have h0 : 0 ≤ (x - y k) ⬝ᵥ A.mulVec (x - y k) := by
    by_cases hz : x - y k = 0
    · rw [hz, zero_dotProduct]
    · exact (hA.2 _ hz).le
  have h1 : (x - y k) ⬝ᵥ A.mulVec (xs - x) = 0 := by
    rw [hg, dotProduct_neg, dotProduct_comm, h.orthogonal _ hw, neg_zero]
  have h2 : (xs - x) ⬝ᵥ A.mulVec (x - y k) = 0 := by
    rw [dot_mulVec_symm hA.1, dotProduct_comm, h1]
  unfold energyOf
  rw [e, Matrix.mulVec_add, add_dotProduct, dotProduct_add, dotProduct_add, h1, h2]
  linarith

/-- The loop. -/
theorem cgLoop_ok (debug : Bool) {A M : Matrix (Fin n) (Fin n) K} (hA : IsSpd A) (hM : IsSpd M)
    {prec : ℕ → (Fin n → K) → (Fin n → K) → Outcome (Fin n → K)} (hprec : ∀ i h g, prec i h g = .ok (M.mulVec g))
    {tol2 : K} (ht : 0 ≤ tol2) {b x₀ : Fin n → K}
    {y : ℕ → Fin n → K} {ω : ℕ → K} (hy : ∀ j, y (j + 1) = y j + ω j • M.mulVec (b - A.mulVec (y j)))
    (remaining k : ℕ) (hk : n ≤ k + remaining) (S : Submodule K (Fin n → K)) (x g d : Fin n → K) (gh : K)
    (h : CgState A M b x₀ y k S x g d gh) (hg : ¬ g ⬝ᵥ g ≤ tol2) :
    ∃ x' g' steps S', cgLoop debug A prec tol2 remaining k x g d gh = .ok (x', steps) ∧ k < steps ∧
      g' ⬝ᵥ g' ≤ tol2 ∧ CgPoint A b x₀ y steps S' x' g' ∧
      ∃ x'' g'' S'', ¬ g'' ⬝ᵥ g'' ≤ tol2 ∧ CgPoint A b x₀ y (steps - 1) S'' x'' g'' := by
  induction remaining generalizing k S x g d gh with
  | zero =>
    exfalso
    obtain ⟨h1, h2⟩ := cgPoint_full h.toCgPoint
    rw [h2 (by omega), zero_dotProduct] at hg
    exact hg ht
  | succ remaining ih =>
    have hg0 : g ≠ 0 := by
      rintro rfl
      rw [zero_dotProduct] at hg
      exact hg ht
    obtain ⟨h1, h2⟩ := cgState_pos hA hM h hg0
    have hp := cgState_point hA hM hy h hg0
    rw [cgLoop]
    simp only [h2.ne', if_false]
    by_cases hstop : (g + (gh / (d ⬝ᵥ A.mulVec d)) • A.mulVec d) ⬝ᵥ (g + (gh / (d ⬝ᵥ A.mulVec d)) • A.mulVec d)
        ≤ tol2
    · exact ⟨_, _, k + 1, _, by rw [if_pos hstop]; rfl, by omega, hstop, hp, x, g, S, hg, h.toCgPoint⟩
    · rw [if_neg hstop]
      have hrem : remaining ≠ 0 := by
        rintro rfl
        apply hstop
        rw [(cgPoint_full hp).2 (le_antisymm (cgPoint_full hp).1 (by omega)), zero_dotProduct]
        exact ht
      rw [if_neg hrem]
      simp only [hprec, Outcome.ok_bind, h1.ne', if_false]
      obtain ⟨x', g', steps, S', e, hs, hres, hpt⟩ := ih (k + 1) (by omega) _ _ _ _ _
        (cgState_next hA hM hy h hg0 rfl rfl) hstop
      exact ⟨x', g', steps, S', e, by omega, hres, hpt⟩

/-- The solver. -/
theorem cgSolve_ok (debug : Bool) {A M : Matrix (Fin n) (Fin n) K} (hA : IsSpd A) (hM : IsSpd M)
    {prec : ℕ → (Fin n → K) → (Fin n → K) → Outcome (Fin n → K)} (hprec : ∀ i h g, prec i h g = .ok (M.mulVec g))
    {maxSteps : ℕ} (hmax : n ≤ maxSteps) {tol2 : K} (ht : 0 ≤ tol2) (b x₀ h : Fin n → K)
    {y : ℕ → Fin n → K} {ω : ℕ → K} (hy0 : y 0 = x₀)
    (hy : ∀ j, y (j + 1) = y j + ω j • M.mulVec (b - A.mulVec (y j))) :
    ∃ x steps, cgSolve debug A prec maxSteps tol2 b x₀ h = .ok (x, steps) ∧ steps ≤ n ∧
      (A.mulVec x - b) ⬝ᵥ (A.mulVec x - b) ≤ tol2 ∧
      (∀ xs, A.mulVec xs = b → energyOf A (xs - x) ≤ energyOf A (xs - y steps)) ∧
      (0 < steps → ∃ x', tol2 < (A.mulVec x' - b) ⬝ᵥ (A.mulVec x' - b) ∧
        ∀ xs, A.mulVec xs = b → energyOf A (xs - x') ≤ energyOf A (xs - y (steps - 1))) := by
  unfold cgSolve
  by_cases hstop : (A.mulVec x₀ - b) ⬝ᵥ (A.mulVec x₀ - b) ≤ tol2
  · refine ⟨x₀, 0, by simp only [hstop, if_true]; rfl, by omega, hstop, fun xs _ => ?_,
      fun h => absurd h (lt_irrefl 0)⟩
    rw [hy0]
  · have hmax0 : maxSteps ≠ 0 := by
      rintro rfl
      obtain rfl : n = 0 := by omega
      apply hstop
      simpa [dotProduct] using ht
    have hi := cgState_init A M b x₀ y hy0
    obtain ⟨x', g', steps, S', e, -, hres, hpt, x'', g'', S'', hres', hpt'⟩ := cgLoop_ok debug hA hM hprec ht hy maxSteps 0 (by omega) _ _ _ _
      _ hi hstop
    refine ⟨x', steps, ?_, (cgPoint_full hpt).1, ?_, fun xs hxs => cgPoint_best hA hpt hxs,
      fun _ => ⟨x'', ?_, fun xs hxs => cgPoint_best hA hpt' hxs⟩⟩
    · simp only [hstop, if_false, hmax0, hprec, Outcome.ok_bind, e]
    · rw [← hpt.residual]
      exact hres
    · rw [← hpt'.residual]
      exact not_le.1 hres'

end

end Mfmg
