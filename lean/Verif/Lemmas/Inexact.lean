import Verif.Spec.Inexact
import Verif.Lemmas.TwoLevel

/-!
# Eigenvectors computed up to a tolerance: lemmas
-/

set_option autoImplicit false

namespace Mfmg

open Spec

section

variable {K : Type} [Field K]

theorem projectOn_append {n : ℕ} (l m : List (Fin n → K)) (e : Fin n → K) :
    projectOn (l ++ m) e = projectOn l e + projectOn m e := by
  funext i
  simp [projectOn]

theorem mulVec_projectOn {n : ℕ} (A : Matrix (Fin n) (Fin n) K) (l : List (Fin n → K)) (u e : Fin n → K) :
    u ⬝ᵥ A.mulVec (projectOn l e) = (l.map fun f => f ⬝ᵥ e / (f ⬝ᵥ f) * (u ⬝ᵥ A.mulVec f)).sum := by
  have e1 : A.mulVec (projectOn l e)
      = fun i => (l.map fun f => A.mulVec (fun i => f ⬝ᵥ e / (f ⬝ᵥ f) * f i) i).sum :=
    mulVec_sum_list A (fun (f : Fin n → K) i => f ⬝ᵥ e / (f ⬝ᵥ f) * f i) l
  rw [e1, dot_sum_list]
  congr 1
  apply List.map_congr_left
  intro f _
  have : (fun i => f ⬝ᵥ e / (f ⬝ᵥ f) * f i) = (f ⬝ᵥ e / (f ⬝ᵥ f)) • f := rfl
  rw [this, Matrix.mulVec_smul, dotProduct_smul, smul_eq_mul]

theorem projectOn_span {n : ℕ} (l : List (Fin n → K)) (e : Fin n → K) (S : Submodule K (Fin n → K))
    (hS : ∀ f ∈ l, f ∈ S) : projectOn l e ∈ S := by
  induction l with
  | nil =>
    have : projectOn ([] : List (Fin n → K)) e = 0 := by funext i; simp [projectOn]
    rw [this]
    exact S.zero_mem
  | cons f l ih =>
    have : projectOn (f :: l) e = (f ⬝ᵥ e / (f ⬝ᵥ f)) • f + projectOn l e := by
      funext i; simp [projectOn]
    rw [this]
    exact S.add_mem (S.smul_mem _ (hS f (by simp))) (ih fun g hg => hS g (by simp [hg]))

end

section

variable {K : Type} [Field K] [LinearOrder K] [IsStrictOrderedRing K] {n : ℕ}

theorem dot_self_nonneg' (f : Fin n → K) : 0 ≤ f ⬝ᵥ f :=
  Finset.sum_nonneg fun i _ => mul_self_nonneg (f i)

theorem projectOn_norm (l : List (Fin n → K)) (hl : l.Pairwise fun f g => f ⬝ᵥ g = 0) (e : Fin n → K) :
    projectOn l e ⬝ᵥ projectOn l e
      = (l.map fun f => f ⬝ᵥ e / (f ⬝ᵥ f) * (f ⬝ᵥ e / (f ⬝ᵥ f)) * (f ⬝ᵥ f)).sum := by
  rw [dot_projectOn]
  congr 1
  apply List.map_congr_left
  intro f hf
  rw [dotProduct_comm (projectOn l e) f, projectOn_dot l hl e f hf]
  by_cases h : f ⬝ᵥ f = 0
  · rw [h]; simp
  · field_simp

/-- The Cauchy-Schwarz inequality. -/
theorem dot_cauchy (u v : Fin n → K) : (u ⬝ᵥ v) * (u ⬝ᵥ v) ≤ (u ⬝ᵥ u) * (v ⬝ᵥ v) := by
  have := weighted_cauchy (fun _ => (1 : K)) u v (fun _ => one_pos)
  simpa [dotProduct] using this

/-- The mixed term with vectors that are eigenvectors up to their residuals only. -/
theorem mixed_bound (A : Matrix (Fin n) (Fin n) K) (t e : Fin n → K) (lower : K) (hl : 0 < lower)
    (l : List (Fin n → K)) (ht : ∀ f ∈ l, t ⬝ᵥ f = 0) :
    0 ≤ lower * (l.map fun f => f ⬝ᵥ e / (f ⬝ᵥ f) * (f ⬝ᵥ e / (f ⬝ᵥ f)) * (f ⬝ᵥ f)).sum
      + 2 * (l.map fun f => f ⬝ᵥ e / (f ⬝ᵥ f) * (t ⬝ᵥ A.mulVec f)).sum
      + (l.map fun f => residualSq A f).sum / lower * (t ⬝ᵥ t) := by
  induction l with
  | nil => simp
  | cons f l ih =>
    have ih := ih fun g hg => ht g (by simp [hg])
    simp only [List.map_cons, List.sum_cons]
    set c := f ⬝ᵥ e / (f ⬝ᵥ f) with hc
    have hr : t ⬝ᵥ A.mulVec f = t ⬝ᵥ eigenResidual A f := by
      rw [eigenResidual, dotProduct_sub, dotProduct_smul, ht f (by simp)]
      simp
    have key : 0 ≤ lower * (c * c * (f ⬝ᵥ f)) + 2 * (c * (t ⬝ᵥ A.mulVec f))
        + residualSq A f / lower * (t ⬝ᵥ t) := by
      by_cases h : f ⬝ᵥ f = 0
      · have hf := dot_self_eq_zero' f h
        have : c = 0 := by rw [hc, h]; simp
        rw [this, residualSq, h]
        simp
      · have hp : 0 < f ⬝ᵥ f := lt_of_le_of_ne (dot_self_nonneg' f) (Ne.symm h)
        rw [hr]
        set β := t ⬝ᵥ eigenResidual A f with hβ
        have h1 : β * β ≤ (t ⬝ᵥ t) * (eigenResidual A f ⬝ᵥ eigenResidual A f) := dot_cauchy _ _
        have h2 : β * β / (lower * (f ⬝ᵥ f)) ≤ residualSq A f / lower * (t ⬝ᵥ t) := by
          rw [div_le_iff₀ (mul_pos hl hp)]
          refine h1.trans (le_of_eq ?_)
          rw [residualSq]
          field_simp
        have h3 : 0 ≤ (lower * c * (f ⬝ᵥ f) + β) * (lower * c * (f ⬝ᵥ f) + β) / (lower * (f ⬝ᵥ f)) :=
          div_nonneg (mul_self_nonneg _) (mul_pos hl hp).le
        have h4 : (lower * c * (f ⬝ᵥ f) + β) * (lower * c * (f ⬝ᵥ f) + β) / (lower * (f ⬝ᵥ f))
            = lower * (c * c * (f ⬝ᵥ f)) + 2 * (c * β) + β * β / (lower * (f ⬝ᵥ f)) := by
          field_simp
          ring
        linarith
    rw [add_div, add_mul]
    linarith

omit [LinearOrder K] [IsStrictOrderedRing K] in
/-- An agglomerate matrix sees only the values on the agglomerate. -/
theorem energy_onAgg (a : AggData n K)
    (hin : ∀ i j, a.matrix i j ≠ 0 → i.val ∈ a.copy.dofMap ∧ j.val ∈ a.copy.dofMap) (e : Fin n → K) :
    e ⬝ᵥ a.matrix.mulVec e = onAgg a.copy e ⬝ᵥ a.matrix.mulVec (onAgg a.copy e) := by
  unfold dotProduct Matrix.mulVec dotProduct
  apply Finset.sum_congr rfl
  intro i _
  rw [Finset.mul_sum, Finset.mul_sum]
  apply Finset.sum_congr rfl
  intro j _
  by_cases h0 : a.matrix i j = 0
  · simp [h0]
  · obtain ⟨hi, hj⟩ := hin i j h0
    simp [onAgg, hi, hj]

/-- On one agglomerate the omitted eigenvalues, less what the tolerance takes, bound what is left over. -/
theorem leftOver_upTo (a : AggData n K) {exact loose : List (List K)} {tol2 lower : K} (hl : 0 < lower)
    (ha : a.SolvedUpTo exact loose tol2 lower) (e : Fin n → K) :
    (a.omitted - tol2 / lower) * (leftOver a.copy e ⬝ᵥ leftOver a.copy e) ≤ e ⬝ᵥ a.matrix.mulVec e := by
  obtain ⟨t, ht⟩ : ∃ t, t = leftOver a.copy e := ⟨_, rfl⟩
  rw [← ht]
  set E := exact.map (globalVec n a.copy) with hE
  set L := loose.map (globalVec n a.copy) with hL
  have hk : keptVecs n a.copy = E ++ L := by rw [keptVecs, ha.kept, List.map_append]
  obtain ⟨p, hp⟩ : ∃ p, p = projectOn E e := ⟨_, rfl⟩
  obtain ⟨q, hq⟩ : ∃ q, q = projectOn L e := ⟨_, rfl⟩
  have horth : (E ++ L).Pairwise fun f g => f ⬝ᵥ g = 0 := by
    rw [← hk]
    exact List.pairwise_map.2 ha.orthogonal
  have htv : ∀ f ∈ E ++ L, f ⬝ᵥ t = 0 := by
    intro f hf
    have hf' := hf
    rw [← hk] at hf'
    obtain ⟨v, _, rfl⟩ := List.mem_map.1 hf'
    rw [ht, leftOver, dotProduct_sub, dot_onAgg, hk, projectOn_dot _ horth e _ hf, sub_self]
  have h1 := ha.rest t (fun i hi => by
    by_contra hn
    exact hi (by rw [ht]; exact leftOver_off a.copy e hn)) (by
    intro v hv
    apply htv
    rw [← hk]
    exact List.mem_map_of_mem hv)
  have hu : onAgg a.copy e = p + q + t := by
    rw [ht, leftOver, hk, projectOn_append, hp, hq]
    abel
  have hEA : ∀ u : Fin n → K, (∀ f ∈ E, u ⬝ᵥ f = 0) → u ⬝ᵥ a.matrix.mulVec p = 0 := by
    intro u hu0
    rw [hp, mulVec_projectOn]
    apply List.sum_eq_zero
    intro z hz
    obtain ⟨f, hf, rfl⟩ := List.mem_map.1 hz
    obtain ⟨v, hv, rfl⟩ := List.mem_map.1 hf
    obtain ⟨l, hl'⟩ := ha.eigen v hv
    rw [hl', dotProduct_smul, hu0 _ hf]
    simp
  have htp : t ⬝ᵥ a.matrix.mulVec p = 0 := hEA t fun f hf => by
    rw [dotProduct_comm]
    exact htv f (by simp [hf])
  have hqp : q ⬝ᵥ a.matrix.mulVec p = 0 := hEA q fun f hf => by
    rw [dotProduct_comm, hq, dot_projectOn]
    apply List.sum_eq_zero
    intro z hz
    obtain ⟨g, hg, rfl⟩ := List.mem_map.1 hz
    rw [(List.pairwise_append.1 horth).2.2 f hf g hg, mul_zero]
  have hqA := ha.atLeast q (by
    rw [hq]
    refine projectOn_span _ _ _ ?_
    intro f hf
    obtain ⟨v, hv, rfl⟩ := List.mem_map.1 hf
    exact Submodule.subset_span ⟨v, hv, rfl⟩)
  have hmix := mixed_bound a.matrix t e lower hl L (fun f hf => by
    rw [dotProduct_comm]
    exact htv f (by simp [hf]))
  rw [← projectOn_norm L (List.pairwise_append.1 horth).2.1 e, ← mulVec_projectOn, ← hq] at hmix
  have hres : (L.map fun f => residualSq a.matrix f).sum / lower * (t ⬝ᵥ t) ≤ tol2 / lower * (t ⬝ᵥ t) := by
    refine mul_le_mul_of_nonneg_right ?_ (dot_self_nonneg' t)
    refine div_le_div_of_nonneg_right ?_ hl.le
    rw [hL, List.map_map]
    exact ha.residual
  have hpp := ha.psd p
  rw [energy_onAgg a ha.inside e, hu]
  simp only [Matrix.mulVec_add, dotProduct_add, add_dotProduct]
  rw [htp, hqp, form_symm ha.symm p q, hqp, form_symm ha.symm p t, htp, form_symm ha.symm q t]
  linarith

/-- An agglomerate solved up to a tolerance, with the bound less what the tolerance takes. -/
theorem upTo_bounded (a : AggData n K) {exact loose : List (List K)} {tol2 lower : K} (hl : 0 < lower)
    (ha : a.SolvedUpTo exact loose tol2 lower) :
    AggData.Bounded { a with omitted := a.omitted - tol2 / lower } := by
  refine ⟨ha.inside, ?_, ?_, leftOver_upTo a hl ha⟩
  · intro i
    by_cases hi : i.val ∈ a.copy.dofMap
    · exact ha.diagonal i hi
    · change extend a.copy.dofMap a.copy.diag i.val = a.matrix i i
      rw [extend_not_mem hi]
      by_contra h
      exact hi (ha.inside i i (Ne.symm h)).1
  · intro i
    have := ha.psd (Pi.single i 1)
    rw [single_dotProduct, mulVec_single'] at this
    simpa using this

end

end Mfmg
