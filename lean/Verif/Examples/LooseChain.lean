import Verif.Lemmas.Inexact

/-!
# Example: a chain of agglomerates with a small reaction term and inexact eigenvectors

`N` agglomerates with three dofs each on `2 N + 1` dofs; neighbours share one dof. The matrix of an
agglomerate is `[[1 + t, -1, 0], [-1, 2 + t, -1], [0, -1, 1 + t]]`, with eigenvalues `t`, `1 + t`, `3 + t`; one
vector `(1, 1 + ε, 1)` is kept, the eigenvector of `t` if `ε = 0`.
-/

set_option autoImplicit false

namespace Mfmg

variable {K : Type} [Field K]

/-- The matrix of the agglomerate with the dofs `a`, `b`, `c`. -/
def looseMatrix (t : K) {n : ℕ} (a b c : Fin n) : Matrix (Fin n) (Fin n) K :=
  Matrix.of fun i j =>
    t * ((if i = a then 1 else 0) * (if j = a then 1 else 0)
      + (if i = b then 1 else 0) * (if j = b then 1 else 0)
      + (if i = c then 1 else 0) * (if j = c then 1 else 0))
    + ((if i = a then 1 else 0) - (if i = b then 1 else 0))
      * ((if j = a then 1 else 0) - (if j = b then 1 else 0))
    + ((if i = b then 1 else 0) - (if i = c then 1 else 0))
      * ((if j = b then 1 else 0) - (if j = c then 1 else 0))

theorem looseMatrix_mulVec (t : K) {n : ℕ} (a b c : Fin n) (v : Fin n → K) (i : Fin n) :
    (looseMatrix t a b c).mulVec v i
      = (if i = a then 1 else 0) * (t * v a) + (if i = b then 1 else 0) * (t * v b)
        + (if i = c then 1 else 0) * (t * v c)
        + ((if i = a then 1 else 0) - (if i = b then 1 else 0)) * (v a - v b)
        + ((if i = b then 1 else 0) - (if i = c then 1 else 0)) * (v b - v c) := by
  have h : ∀ x : Fin n, ∑ j, (if j = x then (1 : K) else 0) * v j = v x := by
    intro x
    simp
  simp only [Matrix.mulVec, dotProduct, looseMatrix, Matrix.of_apply]
  calc _ = ∑ j, ((if i = a then 1 else 0) * (t * ((if j = a then 1 else 0) * v j))
        + (if i = b then 1 else 0) * (t * ((if j = b then 1 else 0) * v j))
        + (if i = c then 1 else 0) * (t * ((if j = c then 1 else 0) * v j))
        + ((if i = a then 1 else 0) - (if i = b then 1 else 0))
          * ((if j = a then 1 else 0) * v j - (if j = b then 1 else 0) * v j)
        + ((if i = b then 1 else 0) - (if i = c then 1 else 0))
          * ((if j = b then 1 else 0) * v j - (if j = c then 1 else 0) * v j)) := by
        apply Finset.sum_congr rfl
        intro j _
        ring
    _ = _ := by
        simp only [Finset.sum_add_distrib, ← Finset.mul_sum, Finset.sum_sub_distrib, h]

theorem looseMatrix_form (t : K) {n : ℕ} (a b c : Fin n) (w v : Fin n → K) :
    w ⬝ᵥ (looseMatrix t a b c).mulVec v = t * (w a * v a + w b * v b + w c * v c)
      + (w a - w b) * (v a - v b) + (w b - w c) * (v b - v c) := by
  have h : ∀ x : Fin n, ∑ j, w j * (if j = x then (1 : K) else 0) = w x := by
    intro x
    simp
  simp only [dotProduct, looseMatrix_mulVec]
  calc _ = ∑ j, ((w j * (if j = a then 1 else 0)) * (t * v a) + (w j * (if j = b then 1 else 0)) * (t * v b)
        + (w j * (if j = c then 1 else 0)) * (t * v c)
        + (w j * (if j = a then 1 else 0) - w j * (if j = b then 1 else 0)) * (v a - v b)
        + (w j * (if j = b then 1 else 0) - w j * (if j = c then 1 else 0)) * (v b - v c)) := by
        apply Finset.sum_congr rfl
        intro j _
        ring
    _ = _ := by
        simp only [Finset.sum_add_distrib, ← Finset.sum_mul, Finset.sum_sub_distrib, h]
        ring

/-- What the set-up keeps of agglomerate `k`: the constant up to `ε`. -/
def looseCopy (t ε : K) (k : ℕ) : CopyData K where
  eigenvalues := [t]
  eigenvectors := [[1, 1 + ε, 1]]
  diag := [1 + t, 2 + t, 1 + t]
  dofMap := [2 * k, 2 * k + 1, 2 * k + 2]

theorem looseCopy_wf (t ε : K) (k : ℕ) : (looseCopy t ε k).WellFormed :=
  ⟨by simp [looseCopy], by simp [looseCopy], by simp [looseCopy]⟩

/-- Agglomerate `k` of `N`; the eigenvalues left out are at least `1 + t`. -/
def looseAgg (t ε : K) (N : ℕ) (k : Fin N) : AggData (2 * N + 1) K where
  copy := looseCopy t ε k.val
  matrix := looseMatrix t ⟨2 * k.val, by omega⟩ ⟨2 * k.val + 1, by omega⟩ ⟨2 * k.val + 2, by omega⟩
  omitted := 1 + t

/-- All agglomerates of the chain. -/
def looseAggs (t ε : K) (N : ℕ) : List (AggData (2 * N + 1) K) := (List.finRange N).map (looseAgg t ε N)

/-- The matrix of the whole chain. -/
def looseSum (t : K) (N : ℕ) : Matrix (Fin (2 * N + 1)) (Fin (2 * N + 1)) K :=
  ((looseAggs t 0 N).map AggData.matrix).sum

/-- The agglomerates as the single process passes them on. -/
abbrev looseCopies (t ε : K) (N : ℕ) : List (List (CopyData K)) :=
  [(looseAggs t ε N).map AggData.copy]

/-- The sizes of the two levels. -/
abbrev looseDims (t ε : K) (N : ℕ) : ℕ → ℕ :=
  twoLevels (2 * N + 1) (rowsOf (looseCopies t ε N).flatten).length

theorem loose_globalVec (t ε : K) (N : ℕ) (k : Fin N) (i : Fin (2 * N + 1)) :
    globalVec (2 * N + 1) (looseCopy t ε k.val) [1, 1 + ε, 1] i
      = (if i = ⟨2 * k.val, by omega⟩ then 1 else 0) + (1 + ε) * (if i = ⟨2 * k.val + 1, by omega⟩ then 1 else 0)
        + (if i = ⟨2 * k.val + 2, by omega⟩ then 1 else 0) := by
  simp only [globalVec, looseCopy, extend_cons, extend_nil, Fin.ext_iff]
  split_ifs <;> first | (exfalso; omega) | simp

theorem loose_dot (t ε : K) (N : ℕ) (k : Fin N) (w : Fin (2 * N + 1) → K) :
    globalVec (2 * N + 1) (looseCopy t ε k.val) [1, 1 + ε, 1] ⬝ᵥ w
      = w ⟨2 * k.val, by omega⟩ + (1 + ε) * w ⟨2 * k.val + 1, by omega⟩ + w ⟨2 * k.val + 2, by omega⟩ := by
  have h : ∀ x : Fin (2 * N + 1), ∑ j, (if j = x then (1 : K) else 0) * w j = w x := by
    intro x
    simp
  simp only [dotProduct, loose_globalVec]
  simp only [add_mul, mul_assoc, Finset.sum_add_distrib, ← Finset.mul_sum, h]

theorem loose_entry_ne (t ε : K) (N : ℕ) (k : Fin N) (i j : Fin (2 * N + 1))
    (h : (looseAgg t ε N k).matrix i j ≠ 0) :
    i.val ∈ (looseCopy t ε k.val).dofMap ∧ j.val ∈ (looseCopy t ε k.val).dofMap ∧
      i.val ≤ j.val + 1 ∧ j.val ≤ i.val + 1 := by
  simp only [looseAgg, looseMatrix, Matrix.of_apply, Fin.ext_iff] at h
  simp only [looseCopy, List.mem_cons, List.not_mem_nil, or_false]
  by_contra hn
  apply h
  split_ifs <;> first | (exfalso; omega) | ring

theorem loose_sum (t ε : K) (N : ℕ) : looseSum t N = ((looseAggs t ε N).map AggData.matrix).sum := by
  simp only [looseSum, looseAggs, List.map_map]
  rfl

theorem loose_entry (t ε : K) (N : ℕ) (i j : Fin (2 * N + 1)) :
    looseSum t N i j = ((List.finRange N).map fun k => (looseAgg t ε N k).matrix i j).sum := by
  rw [loose_sum t ε, entry_sum_matrices, looseAggs, List.map_map, List.map_map]
  rfl

theorem loose_mulVec (t : K) (N : ℕ) (v : Fin (2 * N + 1) → K) (i : Fin (2 * N + 1)) :
    (looseSum t N).mulVec v i
      = ((List.finRange N).map fun k => (looseAgg t 0 N k).matrix.mulVec v i).sum := by
  have h : ∀ l : List (Fin N), (((l.map (looseAgg t 0 N)).map AggData.matrix).sum).mulVec v i
      = (l.map fun k => (looseAgg t 0 N k).matrix.mulVec v i).sum := by
    intro l
    induction l with
    | nil => simp
    | cons k l ih => simp only [List.map_cons, List.sum_cons, Matrix.add_mulVec, Pi.add_apply, ih]
  exact h _

section

variable [LinearOrder K] [IsStrictOrderedRing K]

/-- The kept vector has the norm `2 + (1 + ε)²`, the Rayleigh quotient `t + 2 ε² / (2 + (1 + ε)²)` and a
residual of the order of `ε`. -/
theorem loose_solved (t ε : K) (ht : 0 < t) (he : 0 ≤ ε) (N : ℕ) (k : Fin N) :
    (looseAgg t ε N k).SolvedUpTo [] [[1, 1 + ε, 1]] (2 * ε ^ 2) t := by
  set m := looseMatrix (K := K) t (n := 2 * N + 1) ⟨2 * k.val, by omega⟩ ⟨2 * k.val + 1, by omega⟩
    ⟨2 * k.val + 2, by omega⟩ with hm
  have hmat : (looseAgg t ε N k).matrix = m := rfl
  have hcopy : (looseAgg t ε N k).copy = looseCopy t ε k.val := rfl
  set z := globalVec (2 * N + 1) (looseCopy t ε k.val) [1, 1 + ε, 1] with hz
  have hz0 : z ⟨2 * k.val, by omega⟩ = 1 := by rw [hz, loose_globalVec]; simp
  have hz1 : z ⟨2 * k.val + 1, by omega⟩ = 1 + ε := by rw [hz, loose_globalVec]; simp
  have hz2 : z ⟨2 * k.val + 2, by omega⟩ = 1 := by rw [hz, loose_globalVec]; simp
  have hzz : z ⬝ᵥ z = 2 + (1 + ε) * (1 + ε) := by
    rw [hz, loose_dot, ← hz, hz0, hz1, hz2]; ring
  have hzpos : 0 < z ⬝ᵥ z := by rw [hzz]; nlinarith
  have hzm : z ⬝ᵥ m.mulVec z = t * (z ⬝ᵥ z) + 2 * ε ^ 2 := by
    rw [looseMatrix_form, hz0, hz1, hz2, hzz]; ring
  have hpsd : ∀ v, 0 ≤ v ⬝ᵥ m.mulVec v := by
    intro v
    rw [looseMatrix_form]
    have := mul_self_nonneg (v ⟨2 * k.val, by omega⟩ - v ⟨2 * k.val + 1, by omega⟩)
    have := mul_self_nonneg (v ⟨2 * k.val + 1, by omega⟩ - v ⟨2 * k.val + 2, by omega⟩)
    have : 0 ≤ t * (v ⟨2 * k.val, by omega⟩ * v ⟨2 * k.val, by omega⟩
        + v ⟨2 * k.val + 1, by omega⟩ * v ⟨2 * k.val + 1, by omega⟩
        + v ⟨2 * k.val + 2, by omega⟩ * v ⟨2 * k.val + 2, by omega⟩) :=
      mul_nonneg ht.le (add_nonneg (add_nonneg (mul_self_nonneg _) (mul_self_nonneg _)) (mul_self_nonneg _))
    linarith
  have hnorm : ∀ w : Fin (2 * N + 1) → K, (∀ i, w i ≠ 0 → i.val ∈ (looseCopy t ε k.val).dofMap) →
      w ⬝ᵥ w = w ⟨2 * k.val, by omega⟩ * w ⟨2 * k.val, by omega⟩
        + w ⟨2 * k.val + 1, by omega⟩ * w ⟨2 * k.val + 1, by omega⟩
        + w ⟨2 * k.val + 2, by omega⟩ * w ⟨2 * k.val + 2, by omega⟩ := by
    intro w hw
    have h := loose_dot t (0 : K) N k fun i => w i * w i
    have h2 : w ⬝ᵥ w = globalVec (2 * N + 1) (looseCopy t 0 k.val) [1, 1 + 0, 1] ⬝ᵥ fun i => w i * w i := by
      simp only [dotProduct]
      apply Finset.sum_congr rfl
      intro i _
      rw [loose_globalVec]
      by_cases hi : w i = 0
      · simp [hi]
      · have := hw i hi
        simp only [looseCopy, List.mem_cons, List.not_mem_nil, or_false] at this
        simp only [Fin.ext_iff]
        split_ifs <;> first | (exfalso; omega) | simp
    rw [h2, h]
    ring
  refine ⟨rfl, ?_, ?_, hpsd, ?_, ?_, ?_, ?_, ?_, ?_⟩
  · intro i j h
    exact ⟨(loose_entry_ne t ε N k i j h).1, (loose_entry_ne t ε N k i j h).2.1⟩
  · ext i j
    simp only [looseAgg, looseMatrix, Matrix.transpose_apply, Matrix.of_apply]
    ring
  · intro i hi
    simp only [looseAgg, looseCopy, looseMatrix, Matrix.of_apply, extend_cons, extend_nil, Fin.ext_iff]
    simp only [looseAgg, looseCopy, List.mem_cons, List.not_mem_nil, or_false] at hi
    split_ifs <;> first | (exfalso; omega) | ring
  · simp [looseAgg, looseCopy]
  · intro v hv
    simp at hv
  · rw [List.map_singleton, List.sum_singleton, hmat, hcopy, ← hz, residualSq, div_le_iff₀ hzpos]
    have hoff : ∀ i, eigenResidual m z i ≠ 0 → i.val ∈ (looseCopy t ε k.val).dofMap := by
      intro i hi
      by_contra hn
      apply hi
      simp only [looseCopy, List.mem_cons, List.not_mem_nil, or_false] at hn
      have hzi : z i = 0 := by
        rw [hz, loose_globalVec]
        simp only [Fin.ext_iff]
        split_ifs <;> first | (exfalso; omega) | simp
      rw [eigenResidual, Pi.sub_apply, Pi.smul_apply, looseMatrix_mulVec, hzi]
      simp only [Fin.ext_iff]
      split_ifs <;> first | (exfalso; omega) | simp
    have hq : rayleigh m z = t + 2 * ε ^ 2 / (2 + (1 + ε) * (1 + ε)) := by
      rw [rayleigh, hzm, hzz]
      have : 2 + (1 + ε) * (1 + ε) ≠ 0 := by rw [← hzz]; exact hzpos.ne'
      field_simp
    rw [hnorm _ hoff]
    set θ := 2 * ε ^ 2 / (2 + (1 + ε) * (1 + ε)) with hθ
    have hθz : θ * (2 + (1 + ε) * (1 + ε)) = 2 * ε ^ 2 := by
      rw [hθ, div_mul_cancel₀]
      rw [← hzz]; exact hzpos.ne'
    have hr0 : eigenResidual m z ⟨2 * k.val, by omega⟩ = - ε - θ := by
      rw [eigenResidual, Pi.sub_apply, Pi.smul_apply, looseMatrix_mulVec, hz0, hz1, hz2, hq]
      simp
    have hr1 : eigenResidual m z ⟨2 * k.val + 1, by omega⟩ = 2 * ε - θ * (1 + ε) := by
      rw [eigenResidual, Pi.sub_apply, Pi.smul_apply, looseMatrix_mulVec, hz0, hz1, hz2, hq]
      simp
      ring
    have hr2 : eigenResidual m z ⟨2 * k.val + 2, by omega⟩ = - ε - θ := by
      rw [eigenResidual, Pi.sub_apply, Pi.smul_apply, looseMatrix_mulVec, hz0, hz1, hz2, hq]
      simp
    rw [hr0, hr1, hr2, hzz]
    have hθ0 : 0 ≤ θ := by rw [hθ]; positivity
    have e1 : (-ε - θ) * (-ε - θ) + (2 * ε - θ * (1 + ε)) * (2 * ε - θ * (1 + ε)) + (-ε - θ) * (-ε - θ)
        = 6 * ε ^ 2 + θ * (θ * (2 + (1 + ε) * (1 + ε))) - 4 * ε ^ 2 * θ := by ring
    rw [e1, hθz]
    have : 0 ≤ ε ^ 2 * θ := mul_nonneg (sq_nonneg _) hθ0
    have : 0 ≤ ε ^ 2 * ε := mul_nonneg (sq_nonneg _) he
    have : 0 ≤ ε ^ 2 * (ε * ε) := mul_nonneg (sq_nonneg _) (mul_nonneg he he)
    nlinarith
  · intro w hw
    obtain ⟨c, rfl⟩ : ∃ c : K, c • z = w := by
      have : {f | ∃ v ∈ ([[1, 1 + ε, 1]] : List (List K)), f = globalVec (2 * N + 1) (looseAgg t ε N k).copy v}
          = {z} := by
        ext f
        simp [hz, hcopy]
      rw [this] at hw
      exact Submodule.mem_span_singleton.1 hw
    rw [hmat, Matrix.mulVec_smul, smul_dotProduct, dotProduct_smul, smul_dotProduct, dotProduct_smul, hzm]
    simp only [smul_eq_mul]
    have : 0 ≤ c * (c * (2 * ε ^ 2)) := by
      rw [← mul_assoc]
      exact mul_nonneg (mul_self_nonneg c) (by positivity)
    linarith
  · intro w hw hort
    have h0 := hort [1, 1 + ε, 1] (by simp [looseAgg, looseCopy])
    rw [hcopy, ← hz, hz, loose_dot] at h0
    rw [hmat, looseMatrix_form, hnorm w hw, show (looseAgg t ε N k).omitted = 1 + t from rfl]
    set x := w ⟨2 * k.val, by omega⟩
    set y := w ⟨2 * k.val + 1, by omega⟩
    set u := w ⟨2 * k.val + 2, by omega⟩
    have hu : u = - x - (1 + ε) * y := by linarith
    have h1 : (x - y) * (x - y) + (y - u) * (y - u) - (x * x + y * y + u * u)
        = (3 + 2 * ε) * (y * y) := by rw [hu]; ring
    have h2 : 0 ≤ (3 + 2 * ε) * (y * y) := mul_nonneg (by linarith) (mul_self_nonneg _)
    linarith

theorem loose_spd (t : K) (ht : 0 < t) (N : ℕ) (hN : 0 < N) : IsSpd (looseSum t N) := by
  refine ⟨?_, ?_⟩
  · ext i j
    rw [Matrix.transpose_apply, loose_entry t 0, loose_entry t 0]
    congr 1
    apply List.map_congr_left
    intro k _
    have := congrFun (congrFun (loose_solved t 0 ht le_rfl N k).symm i) j
    rwa [Matrix.transpose_apply] at this
  · intro v hv
    rw [looseSum, mulVec_sum_matrices, looseAggs, List.map_map, List.map_map]
    have hnn : ∀ k : Fin N, 0 ≤ v ⬝ᵥ (looseAgg t 0 N k).matrix.mulVec v :=
      fun k => (loose_solved t 0 ht le_rfl N k).psd v
    obtain ⟨i, hi⟩ : ∃ i, v i ≠ 0 := by
      by_contra h
      push Not at h
      exact hv (funext h)
    obtain ⟨k, hk⟩ : ∃ k : Fin N, i.val = 2 * k.val ∨ i.val = 2 * k.val + 1 ∨ i.val = 2 * k.val + 2 := by
      by_cases h : i.val / 2 < N
      · refine ⟨⟨i.val / 2, h⟩, ?_⟩
        simp only
        omega
      · refine ⟨⟨N - 1, by omega⟩, ?_⟩
        simp only
        omega
    have hpos : 0 < v ⬝ᵥ (looseAgg t 0 N k).matrix.mulVec v := by
      rw [show (looseAgg t 0 N k).matrix = looseMatrix _ _ _ _ from rfl, looseMatrix_form]
      have e0 := mul_self_nonneg (v ⟨2 * k.val, by omega⟩)
      have e1 := mul_self_nonneg (v ⟨2 * k.val + 1, by omega⟩)
      have e2 := mul_self_nonneg (v ⟨2 * k.val + 2, by omega⟩)
      have e3 := mul_self_nonneg (v ⟨2 * k.val, by omega⟩ - v ⟨2 * k.val + 1, by omega⟩)
      have e4 := mul_self_nonneg (v ⟨2 * k.val + 1, by omega⟩ - v ⟨2 * k.val + 2, by omega⟩)
      have hi2 : 0 < v i * v i := lt_of_le_of_ne (mul_self_nonneg _) (Ne.symm (mul_self_ne_zero.2 hi))
      have hsum : 0 < v ⟨2 * k.val, by omega⟩ * v ⟨2 * k.val, by omega⟩
          + v ⟨2 * k.val + 1, by omega⟩ * v ⟨2 * k.val + 1, by omega⟩
          + v ⟨2 * k.val + 2, by omega⟩ * v ⟨2 * k.val + 2, by omega⟩ := by
        rcases hk with h | h | h
        · rw [show i = ⟨2 * k.val, by omega⟩ from Fin.ext h] at hi2
          linarith
        · rw [show i = ⟨2 * k.val + 1, by omega⟩ from Fin.ext h] at hi2
          linarith
        · rw [show i = ⟨2 * k.val + 2, by omega⟩ from Fin.ext h] at hi2
          linarith
      have := mul_pos ht hsum
      linarith
    refine lt_of_lt_of_le hpos (List.single_le_sum ?_ _ ?_)
    · intro x hx
      obtain ⟨k', _, rfl⟩ := List.mem_map.1 hx
      exact hnn k'
    · exact List.mem_map.2 ⟨k, List.mem_finRange k, rfl⟩

omit [IsStrictOrderedRing K] in
theorem loose_perRow (t : K) (N : ℕ) : AtMostPerRow (looseSum t N) 3 := by
  intro i
  have hsub : (Finset.univ.filter fun j => looseSum t N i j ≠ 0)
      ⊆ Finset.univ.filter fun j : Fin (2 * N + 1) => i.val ≤ j.val + 1 ∧ j.val ≤ i.val + 1 := by
    intro j hj
    rw [Finset.mem_filter] at hj ⊢
    refine ⟨hj.1, ?_⟩
    by_contra hn
    apply hj.2
    rw [loose_entry t 0]
    apply List.sum_eq_zero
    intro x hx
    obtain ⟨k, _, rfl⟩ := List.mem_map.1 hx
    by_contra hne
    exact hn (loose_entry_ne t 0 N k i j hne).2.2
  refine le_trans (Finset.card_le_card hsub) ?_
  have hinj : (Finset.univ.filter fun j : Fin (2 * N + 1) => i.val ≤ j.val + 1 ∧ j.val ≤ i.val + 1).image
      (fun j => j.val + 1) ⊆ Finset.Icc i.val (i.val + 2) := by
    intro x hx
    obtain ⟨j, hj, rfl⟩ := Finset.mem_image.1 hx
    rw [Finset.mem_filter] at hj
    rw [Finset.mem_Icc]
    omega
  rw [← Finset.card_image_of_injective _ (f := fun j : Fin (2 * N + 1) => j.val + 1) (by
    intro x y hxy
    exact Fin.ext (by simpa using hxy))]
  refine le_trans (Finset.card_le_card hinj) ?_
  rw [Nat.card_Icc]
  omega

theorem loose_diag_le (t ε : K) (ht : 0 < t) (N : ℕ) (k : Fin N) (i : Fin (2 * N + 1)) :
    (looseAgg t ε N k).matrix i i ≤ 2 + t := by
  simp only [looseAgg, looseMatrix, Matrix.of_apply, Fin.ext_iff]
  split_ifs <;> first | (exfalso; omega) | (norm_num; linarith)

theorem loose_diag_ne (t ε : K) (ht : 0 < t) (N : ℕ) (k : Fin N) (i : Fin (2 * N + 1))
    (hi : i.val ∈ (looseAgg t ε N k).copy.dofMap) : (looseAgg t ε N k).matrix i i ≠ 0 := by
  simp only [looseAgg, looseCopy, List.mem_cons, List.not_mem_nil, or_false] at hi
  apply ne_of_gt
  simp only [looseAgg, looseMatrix, Matrix.of_apply, Fin.ext_iff]
  split_ifs <;> first | (exfalso; omega) | (norm_num; linarith)

theorem loose_own (t ε : K) (he : 0 ≤ ε) (N : ℕ) :
    OwnIndependent ((looseAggs t ε N).map AggData.copy) := by
  intro pre c post hsplit y hy q hq
  have hmap : (looseAggs t ε N).map AggData.copy
      = (List.finRange N).map fun k : Fin N => looseCopy t ε k.val := by
    rw [looseAggs, List.map_map]
    rfl
  rw [hmap] at hsplit
  have hnd : (pre ++ c :: post).Nodup := by
    rw [← hsplit]
    refine List.Nodup.map ?_ (List.nodup_finRange N)
    intro k k' h
    have := congrArg CopyData.dofMap h
    simp only [looseCopy, List.cons.injEq] at this
    exact Fin.ext (by omega)
  have hmem : ∀ d ∈ pre ++ c :: post, ∃ k : Fin N, d = looseCopy t ε k.val := by
    intro d hd
    rw [← hsplit] at hd
    obtain ⟨k, _, rfl⟩ := List.mem_map.1 hd
    exact ⟨k, rfl⟩
  obtain ⟨k, rfl⟩ := hmem c (by simp)
  have h := hy (2 * k.val + 1) (by simp [looseCopy]) (by
    intro d hd hx
    obtain ⟨k', rfl⟩ := hmem d (by
      rw [List.mem_append] at hd
      rw [List.mem_append, List.mem_cons]
      tauto)
    simp only [looseCopy, List.mem_cons, List.not_mem_nil, or_false] at hx
    have : k'.val = k.val := by omega
    rw [this] at hd
    have hnd' := (List.nodup_middle.1 hnd)
    exact (List.nodup_cons.1 hnd').1 hd)
  have hq0 : q = 0 := by
    simp only [looseCopy, List.length_cons, List.length_nil] at hq
    omega
  subst hq0
  have he' : extend (looseCopy t ε k.val).dofMap ([1, 1 + ε, 1] : List K) (2 * k.val + 1) = 1 + ε := by
    simp [looseCopy, extend_cons]
  have hr : (List.range (looseCopy t ε k.val).eigenvectors.length) = [0] := by
    simp [looseCopy]
  rw [hr] at h
  have hv : (looseCopy t ε k.val).eigenvectors.getD 0 [] = [1, 1 + ε, 1] := rfl
  rw [List.map_singleton, List.sum_singleton, hv, he'] at h
  have hne : (1 + ε) ≠ 0 := by linarith
  exact (mul_eq_zero.1 h).resolve_right hne

end

end Mfmg
