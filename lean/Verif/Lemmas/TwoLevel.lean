import Verif.Spec.TwoLevel
import Verif.Props.Relaxation
import Mathlib.Algebra.Order.BigOperators.Ring.Finset
import Mathlib.Algebra.Order.Chebyshev

/-!
# Two-level convergence: approximation and smoothing
-/

set_option autoImplicit false

namespace Mfmg

open Spec

section

variable {K : Type} [Field K] [LinearOrder K] [IsStrictOrderedRing K] {n : ℕ}

/-! ### Smoothing -/

/-- The entries of a symmetric positive definite matrix are bounded by its diagonal. -/
theorem entry_sq_le {A : Matrix (Fin n) (Fin n) K} (hA : IsSpd A) (i j : Fin n) :
    A i j * A i j ≤ A i i * A j j := by
  by_cases hij : i = j
  · subst hij; exact le_refl _
  have hj := diag_pos hA j
  have hne : (Pi.single i (A j j) - Pi.single j (A i j) : Fin n → K) ≠ 0 := by
    intro h
    have := congrFun h i
    simp only [Pi.sub_apply, Pi.single_eq_same, Pi.single_eq_of_ne hij, sub_zero, Pi.zero_apply] at this
    exact hj.ne' this
  have h := hA.2 _ hne
  have hs : A j i = A i j := congrFun (congrFun hA.1 i) j
  rw [sub_dotProduct, single_dotProduct, single_dotProduct, Matrix.mulVec_sub, Pi.sub_apply, Pi.sub_apply,
    mulVec_single', mulVec_single', mulVec_single', mulVec_single', hs] at h
  have h2 : 0 < A j j * (A i i * A j j - A i j * A i j) := by linarith
  have := (mul_pos_iff_of_pos_left hj).1 h2
  linarith

/-- A sweep over distinct rows: what it takes from the energy and how the residual before the sweep depends on
the residuals met on the way. -/
theorem sweep_residuals {A : Matrix (Fin n) (Fin n) K} (hA : IsSpd A) (rows : List (Fin n))
    (hrows : rows.Nodup) (e : Fin n → K) :
    ∃ (ρ : Fin n → K) (before : Fin n → Fin n → Bool),
      energyOf A (rows.foldl (errRow A) e)
        = energyOf A e - ∑ j ∈ rows.toFinset, ρ j * ρ j / A j j ∧
      ∀ k ∈ rows, A.mulVec e k
        = ∑ j ∈ rows.toFinset, if before k j then A k j * (ρ j / A j j) else 0 := by
  induction rows generalizing e with
  | nil => exact ⟨fun _ => 0, fun _ _ => false, by simp, by simp⟩
  | cons i rows ih =>
    obtain ⟨hi, hnd⟩ := List.nodup_cons.1 hrows
    obtain ⟨ρ, before, h1, h2⟩ := ih hnd (errRow A e i)
    have hi' : i ∉ rows.toFinset := fun h => hi (List.mem_toFinset.1 h)
    have hpos := (diag_pos hA i).ne'
    refine ⟨Function.update ρ i (A.mulVec e i),
      fun k j => if k = i then j = i else if j = i then true else before k j, ?_, ?_⟩
    · rw [List.foldl_cons, h1, energy_errRow hA, List.toFinset_cons, Finset.sum_insert hi',
        Function.update_self]
      have : ∑ j ∈ rows.toFinset, Function.update ρ i (A.mulVec e i) j
          * Function.update ρ i (A.mulVec e i) j / A j j = ∑ j ∈ rows.toFinset, ρ j * ρ j / A j j := by
        apply Finset.sum_congr rfl
        intro j hj
        have hji : j ≠ i := fun h => hi' (h ▸ hj)
        rw [Function.update_of_ne hji]
      rw [this]
      ring
    · intro k hk
      rw [List.toFinset_cons, Finset.sum_insert hi', Function.update_self]
      by_cases hki : k = i
      · subst hki
        simp only [if_true, decide_true]
        rw [Finset.sum_eq_zero, add_zero, mul_div_cancel₀ _ hpos]
        intro j hj
        have hjk : j ≠ k := fun h => hi' (h ▸ hj)
        simp [hjk]
      · have hk' : k ∈ rows := (List.mem_cons.1 hk).resolve_left hki
        have h3 := h2 k hk'
        have h4 : A.mulVec (errRow A e i) k = A.mulVec e k - A k i * (A.mulVec e i / A i i) := by
          unfold errRow
          rw [Matrix.mulVec_sub, Pi.sub_apply, mulVec_single']
        rw [h4] at h3
        simp only [if_neg hki, if_true]
        have h5 : ∑ j ∈ rows.toFinset, (if (if j = i then true else before k j) = true
            then A k j * (Function.update ρ i (A.mulVec e i) j / A j j) else 0)
            = ∑ j ∈ rows.toFinset, if before k j then A k j * (ρ j / A j j) else 0 := by
          apply Finset.sum_congr rfl
          intro j hj
          have hji : j ≠ i := fun h => hi' (h ▸ hj)
          rw [Function.update_of_ne hji, if_neg hji]
        rw [h5, ← h3]
        ring

theorem diag_inv_sum_nonneg {A : Matrix (Fin n) (Fin n) K} (hA : IsSpd A) (s : Finset (Fin n))
    (r : Fin n → K) : 0 ≤ ∑ j ∈ s, r j * r j / A j j :=
  Finset.sum_nonneg fun j _ => div_nonneg (mul_self_nonneg _) (diag_pos hA j).le

/-- The smoothing property of Gauss-Seidel. -/
theorem sweep_smoothing {A : Matrix (Fin n) (Fin n) K} (hA : IsSpd A) {own : List (Fin n)}
    (hown : ListsAll own) {s : ℕ} (hs : AtMostPerRow A s) (e : Fin n → K) :
    ∑ i, A.mulVec e i * A.mulVec e i / A i i
      ≤ (s : K) * s * (energyOf A e - energyOf A (own.foldl (errRow A) e)) := by
  obtain ⟨ρ, before, h1, h2⟩ := sweep_residuals hA own hown.1 e
  have huniv : own.toFinset = Finset.univ := by
    ext i
    simp [hown.2 i]
  rw [huniv] at h1 h2
  set N : Fin n → Finset (Fin n) := fun k => Finset.univ.filter fun j => A k j ≠ 0 with hN
  have hgain : energyOf A e - energyOf A (own.foldl (errRow A) e) = ∑ j, ρ j * ρ j / A j j := by
    rw [h1]; ring
  rw [hgain]
  have hrow : ∀ k, A.mulVec e k * A.mulVec e k / A k k ≤ (s : K) * ∑ j ∈ N k, ρ j * ρ j / A j j := by
    intro k
    have hk := diag_pos hA k
    rw [div_le_iff₀ hk]
    have e1 : A.mulVec e k = ∑ j ∈ N k, if before k j then A k j * (ρ j / A j j) else 0 := by
      rw [h2 k (hown.2 k)]
      symm
      apply Finset.sum_subset (Finset.subset_univ _)
      intro j _ hj
      have : A k j = 0 := by simpa [hN] using hj
      simp [this]
    have e2 := sq_sum_le_card_mul_sum_sq (s := N k)
      (f := fun j => if before k j then A k j * (ρ j / A j j) else 0)
    rw [← e1] at e2
    have e3 : ∑ j ∈ N k, (if before k j then A k j * (ρ j / A j j) else 0) ^ 2
        ≤ ∑ j ∈ N k, A k k * (ρ j * ρ j / A j j) := by
      apply Finset.sum_le_sum
      intro j _
      have hj := diag_pos hA j
      have hnn : 0 ≤ A k k * (ρ j * ρ j / A j j) :=
        mul_nonneg hk.le (div_nonneg (mul_self_nonneg _) hj.le)
      by_cases hb : before k j
      · rw [if_pos hb]
        have h3 := mul_le_mul_of_nonneg_right (entry_sq_le hA k j) (mul_self_nonneg (ρ j / A j j))
        have h4 : A k k * A j j * (ρ j / A j j * (ρ j / A j j)) = A k k * (ρ j * ρ j / A j j) := by
          field_simp
        rw [h4] at h3
        calc (A k j * (ρ j / A j j)) ^ 2 = A k j * A k j * (ρ j / A j j * (ρ j / A j j)) := by ring
          _ ≤ _ := h3
      · rw [if_neg hb]
        simpa using hnn
    have hcard : ((N k).card : K) ≤ s := by exact_mod_cast hs k
    have hnn2 : 0 ≤ ∑ j ∈ N k, A k k * (ρ j * ρ j / A j j) := Finset.sum_nonneg fun j _ =>
      mul_nonneg hk.le (div_nonneg (mul_self_nonneg _) (diag_pos hA j).le)
    calc A.mulVec e k * A.mulVec e k = A.mulVec e k ^ 2 := by ring
      _ ≤ (N k).card * ∑ j ∈ N k, (if before k j then A k j * (ρ j / A j j) else 0) ^ 2 := e2
      _ ≤ (N k).card * ∑ j ∈ N k, A k k * (ρ j * ρ j / A j j) :=
        mul_le_mul_of_nonneg_left e3 (Nat.cast_nonneg _)
      _ ≤ s * ∑ j ∈ N k, A k k * (ρ j * ρ j / A j j) := mul_le_mul_of_nonneg_right hcard hnn2
      _ = s * (∑ j ∈ N k, ρ j * ρ j / A j j) * A k k := by rw [← Finset.mul_sum]; ring
  have hcols : ∑ k, ∑ j ∈ N k, ρ j * ρ j / A j j ≤ s * ∑ j, ρ j * ρ j / A j j := by
    have hsym : ∀ k j, j ∈ N k ↔ k ∈ N j := by
      intro k j
      have : A j k = A k j := congrFun (congrFun hA.1 k) j
      simp [hN, this]
    have : ∑ k, ∑ j ∈ N k, ρ j * ρ j / A j j = ∑ j, ∑ k ∈ N j, ρ j * ρ j / A j j := by
      apply Finset.sum_comm'
      intro k j
      simp [hsym k j]
    rw [this, Finset.mul_sum]
    apply Finset.sum_le_sum
    intro j _
    rw [Finset.sum_const, nsmul_eq_mul]
    apply mul_le_mul_of_nonneg_right _ (div_nonneg (mul_self_nonneg _) (diag_pos hA j).le)
    exact_mod_cast hs j
  calc ∑ i, A.mulVec e i * A.mulVec e i / A i i
      ≤ ∑ k, (s : K) * ∑ j ∈ N k, ρ j * ρ j / A j j := Finset.sum_le_sum fun k _ => hrow k
    _ = s * ∑ k, ∑ j ∈ N k, ρ j * ρ j / A j j := by rw [Finset.mul_sum]
    _ ≤ s * (s * ∑ j, ρ j * ρ j / A j j) := mul_le_mul_of_nonneg_left hcols (Nat.cast_nonneg _)
    _ = _ := by ring

/-! ### Approximation and smoothing together -/

/-- The Cauchy-Schwarz inequality with the diagonal as weight. -/
theorem weighted_cauchy (d u v : Fin n → K) (hd : ∀ i, 0 < d i) :
    (u ⬝ᵥ v) * (u ⬝ᵥ v) ≤ (∑ i, u i * u i / d i) * ∑ i, d i * (v i * v i) := by
  have := Finset.sum_sq_le_sum_mul_sum_of_sq_le_mul Finset.univ (r := fun i => u i * v i)
    (f := fun i => u i * u i / d i) (g := fun i => d i * (v i * v i))
    (fun i _ => div_nonneg (mul_self_nonneg _) (hd i).le)
    (fun i _ => mul_nonneg (hd i).le (mul_self_nonneg _))
    (fun i _ => le_of_eq (by have := (hd i).ne'; field_simp))
  rw [sq] at this
  exact this

/-- An error whose residual is orthogonal to the coarse vectors is reduced by one sweep. -/
theorem sweep_rate {m : ℕ} {A : Matrix (Fin n) (Fin n) K} (hA : IsSpd A) {own : List (Fin n)}
    (hown : ListsAll own) {s : ℕ} (hs : AtMostPerRow A s) {R : Matrix (Fin m) (Fin n) K} {kappa : K}
    (hk : 0 < kappa) (hR : Approximates R A kappa) (e : Fin n → K) (he : R.mulVec (A.mulVec e) = 0) :
    (s : K) * s * kappa * energyOf A (own.foldl (errRow A) e)
      ≤ ((s : K) * s * kappa - 1) * energyOf A e := by
  by_cases he0 : energyOf A e = 0
  · have h1 := (energy_sweep hA own e).1
    have h2 : 0 ≤ (s : K) * s * kappa :=
      mul_nonneg (mul_nonneg (Nat.cast_nonneg _) (Nat.cast_nonneg _)) hk.le
    rw [he0] at h1 ⊢
    rw [mul_zero]
    exact mul_nonpos_of_nonneg_of_nonpos h2 h1
  have hepos : 0 < energyOf A e := by
    have hne : e ≠ 0 := by
      rintro rfl
      exact he0 (by simp [energyOf])
    exact hA.2 e hne
  obtain ⟨y, hy⟩ := hR e
  have h1 : A.mulVec e ⬝ᵥ (e - R.transpose.mulVec y) = energyOf A e := by
    rw [dotProduct_sub, dotProduct_comm (A.mulVec e) e]
    have : A.mulVec e ⬝ᵥ R.transpose.mulVec y = R.mulVec (A.mulVec e) ⬝ᵥ y := by
      rw [Matrix.dotProduct_mulVec, Matrix.vecMul_transpose]
    rw [this, he, zero_dotProduct, sub_zero]
    rfl
  have h2 := weighted_cauchy (fun i => A i i) (A.mulVec e) (e - R.transpose.mulVec y)
    (fun i => diag_pos hA i)
  rw [h1] at h2
  set ρ := ∑ i, A.mulVec e i * A.mulVec e i / A i i with hρ
  have hρ0 : 0 ≤ ρ := diag_inv_sum_nonneg hA Finset.univ (A.mulVec e)
  have h3 : energyOf A e * energyOf A e ≤ ρ * (kappa * energyOf A e) :=
    h2.trans (mul_le_mul_of_nonneg_left hy hρ0)
  have h4 : energyOf A e ≤ ρ * kappa := by
    have : energyOf A e * energyOf A e ≤ ρ * kappa * energyOf A e := by rw [mul_assoc]; exact h3
    exact le_of_mul_le_mul_right this hepos
  have h5 := sweep_smoothing hA hown hs e
  rw [← hρ] at h5
  have h6 := mul_le_mul_of_nonneg_right h5 hk.le
  linarith

end

/-! ### The assembled restriction matrix approximates -/

section

variable {K : Type} [Field K]

theorem combine_map {α : Type} (w coef : α → K) (l : List α) :
    combine w l (fun p => ((l[p]?).map coef).getD 0) = (l.map fun a => coef a * w a).sum := by
  unfold combine
  congr 1
  apply List.ext_getElem
  · simp
  · intro p h1 h2
    have hp : p < l.length := by simpa using h2
    simp [List.getElem?_eq_getElem hp]

theorem sum_rowsOf (h : CopyData K × List K → K) (cs : List (CopyData K)) :
    ((rowsOf cs).map h).sum = (cs.map fun c => (c.eigenvectors.map fun v => h (c, v)).sum).sum := by
  induction cs with
  | nil => rfl
  | cons c cs ih =>
    rw [show rowsOf (c :: cs) = c.eigenvectors.map (fun v => (c, v)) ++ rowsOf cs from rfl,
      List.map_append, List.sum_append, ih, List.map_map]
    rfl

/-- The projection onto pairwise orthogonal vectors. -/
def projectOn {n : ℕ} (l : List (Fin n → K)) (e : Fin n → K) : Fin n → K := fun i =>
  (l.map fun f => f ⬝ᵥ e / (f ⬝ᵥ f) * f i).sum

/-- Values on the dofs of the agglomerate only. -/
def onAgg {n : ℕ} (c : CopyData K) (e : Fin n → K) : Fin n → K := fun i =>
  if i.val ∈ c.dofMap then e i else 0

theorem globalVec_off {n : ℕ} (c : CopyData K) (v : List K) {i : Fin n} (hi : i.val ∉ c.dofMap) :
    globalVec n c v i = 0 := extend_not_mem hi

/-- The kept eigenvectors with global numbers. -/
def keptVecs (n : ℕ) (c : CopyData K) : List (Fin n → K) := c.eigenvectors.map (globalVec n c)

theorem project_off {n : ℕ} (c : CopyData K) (e : Fin n → K) {i : Fin n} (hi : i.val ∉ c.dofMap) :
    projectOn (keptVecs n c) e i = 0 := by
  unfold projectOn keptVecs
  apply List.sum_eq_zero
  intro z hz
  rw [List.map_map] at hz
  obtain ⟨v, _, rfl⟩ := List.mem_map.1 hz
  simp only [Function.comp_apply]
  rw [globalVec_off c v hi, mul_zero]

theorem dot_sum_list {n : ℕ} {α : Type} (u : Fin n → K) (f : α → Fin n → K) (l : List α) :
    (u ⬝ᵥ fun i => (l.map fun a => f a i).sum) = (l.map fun a => u ⬝ᵥ f a).sum := by
  induction l with
  | nil => simp [dotProduct]
  | cons a l ih =>
    rw [List.map_cons, List.sum_cons, ← ih, ← dotProduct_add]
    rfl

theorem dot_projectOn {n : ℕ} (l : List (Fin n → K)) (u e : Fin n → K) :
    u ⬝ᵥ projectOn l e = (l.map fun f => f ⬝ᵥ e / (f ⬝ᵥ f) * (u ⬝ᵥ f)).sum := by
  have := dot_sum_list u (fun (f : Fin n → K) i => f ⬝ᵥ e / (f ⬝ᵥ f) * f i) l
  refine this.trans ?_
  congr 1
  apply List.map_congr_left
  intro f _
  have : (fun i => f ⬝ᵥ e / (f ⬝ᵥ f) * f i) = (f ⬝ᵥ e / (f ⬝ᵥ f)) • f := rfl
  rw [this, dotProduct_smul, smul_eq_mul]

theorem dot_onAgg {n : ℕ} (c : CopyData K) (v : List K) (e : Fin n → K) :
    globalVec n c v ⬝ᵥ onAgg c e = globalVec n c v ⬝ᵥ e := by
  apply Finset.sum_congr rfl
  intro i _
  by_cases hi : i.val ∈ c.dofMap
  · simp [onAgg, hi]
  · simp [globalVec_off c v hi]

theorem mulVec_sum_list {n : ℕ} {α : Type} (A : Matrix (Fin n) (Fin n) K) (f : α → Fin n → K) (l : List α) :
    (A.mulVec fun i => (l.map fun a => f a i).sum) = fun i => (l.map fun a => A.mulVec (f a) i).sum := by
  funext i
  exact dot_sum_list (A i) f l

theorem mulVec_sum_matrices {n : ℕ} (As : List (Matrix (Fin n) (Fin n) K)) (e : Fin n → K) :
    e ⬝ᵥ As.sum.mulVec e = (As.map fun B => e ⬝ᵥ B.mulVec e).sum := by
  induction As with
  | nil => simp
  | cons B As ih => rw [List.sum_cons, Matrix.add_mulVec, dotProduct_add, ih]; simp

theorem entry_sum_matrices {n : ℕ} (As : List (Matrix (Fin n) (Fin n) K)) (i j : Fin n) :
    As.sum i j = (As.map fun B => B i j).sum := by
  induction As with
  | nil => simp
  | cons B As ih => rw [List.sum_cons, Matrix.add_apply, ih]; simp

end

section

variable {K : Type} [Field K] [LinearOrder K] [IsStrictOrderedRing K] {n : ℕ}

theorem dot_self_eq_zero' (f : Fin n → K) (h : f ⬝ᵥ f = 0) : f = 0 := by
  funext i
  have := (Finset.sum_eq_zero_iff_of_nonneg (fun i _ => mul_self_nonneg (f i))).1 h i (Finset.mem_univ i)
  simpa using this

theorem projectOn_dot (l : List (Fin n → K)) (hl : l.Pairwise fun f g => f ⬝ᵥ g = 0) (e : Fin n → K)
    (f : Fin n → K) (hf : f ∈ l) : f ⬝ᵥ projectOn l e = f ⬝ᵥ e := by
  induction l with
  | nil => simp at hf
  | cons g l ih =>
    obtain ⟨h1, h2⟩ := List.pairwise_cons.1 hl
    rw [dot_projectOn, List.map_cons, List.sum_cons, ← dot_projectOn]
    rcases List.mem_cons.1 hf with rfl | hf
    · have h0 : f ⬝ᵥ projectOn l e = 0 := by
        rw [dot_projectOn]
        apply List.sum_eq_zero
        intro z hz
        obtain ⟨h, hh, rfl⟩ := List.mem_map.1 hz
        rw [h1 h hh, mul_zero]
      rw [h0, add_zero]
      by_cases hff : f ⬝ᵥ f = 0
      · rw [dot_self_eq_zero' f hff]
        simp
      · exact div_mul_cancel₀ _ hff
    · have h0 : f ⬝ᵥ g = 0 := by rw [dotProduct_comm]; exact h1 f hf
      rw [h0, mul_zero, zero_add]
      exact ih h2 hf

/-- What is left of an error on one agglomerate when the kept eigenvectors are taken out. -/
def leftOver (c : CopyData K) (e : Fin n → K) : Fin n → K := onAgg c e - projectOn (keptVecs n c) e

omit [LinearOrder K] [IsStrictOrderedRing K] in
theorem leftOver_off (c : CopyData K) (e : Fin n → K) {i : Fin n} (hi : i.val ∉ c.dofMap) :
    leftOver c e i = 0 := by
  rw [leftOver, Pi.sub_apply, project_off c e hi, onAgg, if_neg hi, sub_zero]

/-- On one agglomerate the omitted eigenvalues bound what is left over. -/
theorem leftOver_bound (a : AggData n K) (ha : a.Solved) (e : Fin n → K) :
    a.omitted * (leftOver a.copy e ⬝ᵥ leftOver a.copy e) ≤ e ⬝ᵥ a.matrix.mulVec e := by
  set t := leftOver a.copy e with ht
  set p := projectOn (keptVecs n a.copy) e with hp
  have horth : (keptVecs n a.copy).Pairwise fun f g => f ⬝ᵥ g = 0 :=
    List.pairwise_map.2 ha.orthogonal
  have htv : ∀ v ∈ a.copy.eigenvectors, globalVec n a.copy v ⬝ᵥ t = 0 := by
    intro v hv
    rw [ht, leftOver, dotProduct_sub, dot_onAgg, projectOn_dot _ horth e _ (List.mem_map_of_mem hv), sub_self]
  have h1 := ha.rest t (fun i hi => by
    by_contra hn
    exact hi (leftOver_off a.copy e hn)) htv
  refine h1.trans ?_
  have hu : onAgg a.copy e = p + t := by rw [ht, leftOver]; abel
  have h2 : e ⬝ᵥ a.matrix.mulVec e = onAgg a.copy e ⬝ᵥ a.matrix.mulVec (onAgg a.copy e) := by
    unfold dotProduct Matrix.mulVec dotProduct
    apply Finset.sum_congr rfl
    intro i _
    rw [Finset.mul_sum, Finset.mul_sum]
    apply Finset.sum_congr rfl
    intro j _
    by_cases h0 : a.matrix i j = 0
    · simp [h0]
    · obtain ⟨hi, hj⟩ := ha.inside i j h0
      simp [onAgg, hi, hj]
  have h3 : t ⬝ᵥ a.matrix.mulVec p = 0 := by
    have e1 : a.matrix.mulVec p = fun i => ((keptVecs n a.copy).map fun f =>
        a.matrix.mulVec (fun i => f ⬝ᵥ e / (f ⬝ᵥ f) * f i) i).sum :=
      mulVec_sum_list a.matrix (fun (f : Fin n → K) i => f ⬝ᵥ e / (f ⬝ᵥ f) * f i) _
    rw [e1, dot_sum_list]
    apply List.sum_eq_zero
    intro z hz
    obtain ⟨f, hf, rfl⟩ := List.mem_map.1 hz
    obtain ⟨v, hv, rfl⟩ := List.mem_map.1 hf
    obtain ⟨l, hl⟩ := ha.eigen v hv
    have : (fun i => globalVec n a.copy v ⬝ᵥ e / (globalVec n a.copy v ⬝ᵥ globalVec n a.copy v)
        * globalVec n a.copy v i)
        = (globalVec n a.copy v ⬝ᵥ e / (globalVec n a.copy v ⬝ᵥ globalVec n a.copy v))
          • globalVec n a.copy v := rfl
    rw [this, Matrix.mulVec_smul, hl, dotProduct_smul, dotProduct_smul, dotProduct_comm t, htv v hv]
    simp
  rw [h2, hu, Matrix.mulVec_add, dotProduct_add, add_dotProduct, add_dotProduct, h3,
    form_symm ha.symm p t, h3]
  have := ha.psd p
  linarith

omit [LinearOrder K] [IsStrictOrderedRing K] in
theorem sum_deviation {α : Type} (l : List α) (d t : α → K) (m : K) :
    (l.map fun a => d a * ((t a - m) * (t a - m))).sum
      = (l.map fun a => d a * (t a * t a)).sum - 2 * m * (l.map fun a => d a * t a).sum
        + m * m * (l.map d).sum := by
  induction l with
  | nil => simp
  | cons a l ih =>
    simp only [List.map_cons, List.sum_cons, ih]
    ring

/-- Weighted mean value: the square of the mean is at most the mean of the squares. -/
theorem mean_sq {α : Type} (l : List α) (d t : α → K) (hd : ∀ a ∈ l, 0 ≤ d a) (g : K) (hg : 0 < g)
    (hsum : (l.map d).sum = g) (m : K) (hm : (l.map fun a => d a / g * t a).sum = m) :
    g * (m * m) ≤ (l.map fun a => d a * (t a * t a)).sum := by
  have h1 : (l.map fun a => d a * t a).sum = g * m := by
    rw [← hm, ← List.sum_map_mul_left]
    congr 1
    apply List.map_congr_left
    intro a _
    rw [← mul_assoc, mul_div_cancel₀ _ hg.ne']
  have h2 := sum_deviation l d t m
  rw [h1, hsum] at h2
  have h3 : 0 ≤ (l.map fun a => d a * ((t a - m) * (t a - m))).sum := by
    apply List.sum_nonneg
    intro z hz
    obtain ⟨a, ha, rfl⟩ := List.mem_map.1 hz
    exact mul_nonneg (hd a ha) (mul_self_nonneg _)
  linarith

omit [LinearOrder K] [IsStrictOrderedRing K] in
theorem sum_sum_list {α : Type} (l : List α) (f : α → Fin n → K) :
    ∑ i, (l.map fun a => f a i).sum = (l.map fun a => ∑ i, f a i).sum := by
  induction l with
  | nil => simp
  | cons a l ih => simp only [List.map_cons, List.sum_cons, Finset.sum_add_distrib, ih]

omit [IsStrictOrderedRing K] in
theorem solved_diag (a : AggData n K) (ha : a.Solved) (i : Fin n) :
    extend a.copy.dofMap a.copy.diag i.val = a.matrix i i := by
  by_cases hi : i.val ∈ a.copy.dofMap
  · exact ha.diagonal i hi
  · rw [extend_not_mem hi]
    by_contra h
    exact hi (ha.inside i i (Ne.symm h)).1

omit [IsStrictOrderedRing K] in
theorem solved_diag_nonneg (a : AggData n K) (ha : a.Solved) (i : Fin n) : 0 ≤ a.matrix i i := by
  have := ha.psd (Pi.single i 1)
  rw [single_dotProduct, mulVec_single'] at this
  simpa using this

/-- What the proof of the approximation uses of an agglomerate: what is left over of an error when the kept
vectors are taken out is bounded by its energy. -/
structure AggData.Bounded (a : AggData n K) : Prop where
  inside : ∀ i j, a.matrix i j ≠ 0 → i.val ∈ a.copy.dofMap ∧ j.val ∈ a.copy.dofMap
  diagonal : ∀ i : Fin n, extend a.copy.dofMap a.copy.diag i.val = a.matrix i i
  nonneg : ∀ i : Fin n, 0 ≤ a.matrix i i
  left : ∀ e : Fin n → K,
    a.omitted * (leftOver a.copy e ⬝ᵥ leftOver a.copy e) ≤ e ⬝ᵥ a.matrix.mulVec e

theorem solved_bounded (a : AggData n K) (ha : a.Solved) : a.Bounded :=
  ⟨ha.inside, solved_diag a ha, solved_diag_nonneg a ha, leftOver_bound a ha⟩

end

end Mfmg
