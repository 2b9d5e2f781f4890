import Verif.Lemmas.TwoLevel

/-!
# Example: a chain of agglomerates

`N` agglomerates with three dofs each on `2 N + 1` dofs; neighbours share one dof. The matrix of an
agglomerate is `[[2, -1, 0], [-1, 3, -1], [0, -1, 2]]`, with eigenvalues 1, 2, 4; the constant is kept.
-/

set_option autoImplicit false

namespace Mfmg

variable {K : Type} [Field K]

/-- The matrix of the agglomerate with the dofs `a`, `b`, `c`. -/
def chainMatrix {n : ℕ} (a b c : Fin n) : Matrix (Fin n) (Fin n) K :=
  Matrix.of fun i j =>
    (if i = a then 1 else 0) * (if j = a then 1 else 0) + (if i = b then 1 else 0) * (if j = b then 1 else 0)
    + (if i = c then 1 else 0) * (if j = c then 1 else 0)
    + ((if i = a then 1 else 0) - (if i = b then 1 else 0))
      * ((if j = a then 1 else 0) - (if j = b then 1 else 0))
    + ((if i = b then 1 else 0) - (if i = c then 1 else 0))
      * ((if j = b then 1 else 0) - (if j = c then 1 else 0))

theorem chainMatrix_mulVec {n : ℕ} (a b c : Fin n) (v : Fin n → K) (i : Fin n) :
    (chainMatrix a b c).mulVec v i
      = (if i = a then 1 else 0) * v a + (if i = b then 1 else 0) * v b + (if i = c then 1 else 0) * v c
        + ((if i = a then 1 else 0) - (if i = b then 1 else 0)) * (v a - v b)
        + ((if i = b then 1 else 0) - (if i = c then 1 else 0)) * (v b - v c) := by
  have h : ∀ x : Fin n, ∑ j, (if j = x then (1 : K) else 0) * v j = v x := by
    intro x
    simp
  simp only [Matrix.mulVec, dotProduct, chainMatrix, Matrix.of_apply]
  calc _ = ∑ j, ((if i = a then 1 else 0) * ((if j = a then 1 else 0) * v j)
        + (if i = b then 1 else 0) * ((if j = b then 1 else 0) * v j)
        + (if i = c then 1 else 0) * ((if j = c then 1 else 0) * v j)
        + ((if i = a then 1 else 0) - (if i = b then 1 else 0))
          * ((if j = a then 1 else 0) * v j - (if j = b then 1 else 0) * v j)
        + ((if i = b then 1 else 0) - (if i = c then 1 else 0))
          * ((if j = b then 1 else 0) * v j - (if j = c then 1 else 0) * v j)) := by
        apply Finset.sum_congr rfl
        intro j _
        ring
    _ = _ := by
        simp only [Finset.sum_add_distrib, ← Finset.mul_sum, Finset.sum_sub_distrib, h]

theorem chainMatrix_form {n : ℕ} (a b c : Fin n) (w v : Fin n → K) :
    w ⬝ᵥ (chainMatrix a b c).mulVec v = w a * v a + w b * v b + w c * v c
      + (w a - w b) * (v a - v b) + (w b - w c) * (v b - v c) := by
  have h : ∀ x : Fin n, ∑ j, w j * (if j = x then (1 : K) else 0) = w x := by
    intro x
    simp
  simp only [dotProduct, chainMatrix_mulVec]
  calc _ = ∑ j, ((w j * (if j = a then 1 else 0)) * v a + (w j * (if j = b then 1 else 0)) * v b
        + (w j * (if j = c then 1 else 0)) * v c
        + (w j * (if j = a then 1 else 0) - w j * (if j = b then 1 else 0)) * (v a - v b)
        + (w j * (if j = b then 1 else 0) - w j * (if j = c then 1 else 0)) * (v b - v c)) := by
        apply Finset.sum_congr rfl
        intro j _
        ring
    _ = _ := by
        simp only [Finset.sum_add_distrib, ← Finset.sum_mul, Finset.sum_sub_distrib, h]

/-- What the set-up keeps of agglomerate `k`: the constant, with eigenvalue 1. -/
def chainCopy (k : ℕ) : CopyData K where
  eigenvalues := [1]
  eigenvectors := [[1, 1, 1]]
  diag := [2, 3, 2]
  dofMap := [2 * k, 2 * k + 1, 2 * k + 2]

theorem chainCopy_wf (k : ℕ) : (chainCopy (K := K) k).WellFormed :=
  ⟨by simp [chainCopy], by simp [chainCopy], by simp [chainCopy]⟩

/-- Agglomerate `k` of `N`; the eigenvalues left out are at least 2. -/
def chainAgg (N : ℕ) (k : Fin N) : AggData (2 * N + 1) K where
  copy := chainCopy k.val
  matrix := chainMatrix ⟨2 * k.val, by omega⟩ ⟨2 * k.val + 1, by omega⟩ ⟨2 * k.val + 2, by omega⟩
  omitted := 2

/-- All agglomerates of the chain. -/
def chainAggs (N : ℕ) : List (AggData (2 * N + 1) K) := (List.finRange N).map (chainAgg N)

/-- The matrix of the whole chain. -/
def chainSum (N : ℕ) : Matrix (Fin (2 * N + 1)) (Fin (2 * N + 1)) K :=
  ((chainAggs N).map AggData.matrix).sum

/-- The agglomerates as the single process passes them on. -/
abbrev chainCopies (K : Type) [Field K] (N : ℕ) : List (List (CopyData K)) :=
  [(chainAggs N).map AggData.copy]

/-- The sizes of the two levels. -/
abbrev chainDims (K : Type) [Field K] (N : ℕ) : ℕ → ℕ :=
  twoLevels (2 * N + 1) (rowsOf (chainCopies K N).flatten).length

theorem chain_globalVec (N : ℕ) (k : Fin N) (i : Fin (2 * N + 1)) :
    globalVec (2 * N + 1) (chainCopy (K := K) k.val) [1, 1, 1] i
      = if i.val = 2 * k.val ∨ i.val = 2 * k.val + 1 ∨ i.val = 2 * k.val + 2 then 1 else 0 := by
  simp only [globalVec, chainCopy, extend_cons, extend_nil]
  split_ifs <;> first | rfl | omega

theorem chain_entry_ne (N : ℕ) (k : Fin N) (i j : Fin (2 * N + 1))
    (h : (chainAgg (K := K) N k).matrix i j ≠ 0) :
    i.val ∈ (chainCopy (K := K) k.val).dofMap ∧ j.val ∈ (chainCopy (K := K) k.val).dofMap ∧
      i.val ≤ j.val + 1 ∧ j.val ≤ i.val + 1 := by
  simp only [chainAgg, chainMatrix, Matrix.of_apply, Fin.ext_iff] at h
  simp only [chainCopy, List.mem_cons, List.not_mem_nil, or_false]
  by_contra hn
  apply h
  split_ifs <;> first | (exfalso; omega) | ring

theorem chain_entry (N : ℕ) (i j : Fin (2 * N + 1)) :
    chainSum (K := K) N i j = ((List.finRange N).map fun k => (chainAgg N k).matrix i j).sum := by
  rw [chainSum, entry_sum_matrices, chainAggs, List.map_map, List.map_map]
  rfl

section

variable [LinearOrder K] [IsStrictOrderedRing K]

theorem chain_solved (N : ℕ) (k : Fin N) : (chainAgg (K := K) N k).Solved := by
  have hsum : ∀ w : Fin (2 * N + 1) → K,
      globalVec (2 * N + 1) (chainCopy (K := K) k.val) [1, 1, 1] ⬝ᵥ w
        = w ⟨2 * k.val, by omega⟩ + w ⟨2 * k.val + 1, by omega⟩ + w ⟨2 * k.val + 2, by omega⟩ := by
    intro w
    have h : ∀ x : Fin (2 * N + 1), ∑ j, (if j = x then (1 : K) else 0) * w j = w x := by
      intro x
      simp
    rw [← h, ← h ⟨2 * k.val + 1, by omega⟩, ← h ⟨2 * k.val + 2, by omega⟩, ← Finset.sum_add_distrib,
      ← Finset.sum_add_distrib, dotProduct]
    apply Finset.sum_congr rfl
    intro j _
    rw [chain_globalVec]
    simp only [Fin.ext_iff]
    split_ifs <;> first | (exfalso; omega) | ring
  refine ⟨?_, ?_, ?_, ?_, ?_, ?_, ?_⟩
  · intro i j h
    exact ⟨(chain_entry_ne N k i j h).1, (chain_entry_ne N k i j h).2.1⟩
  · ext i j
    simp only [chainAgg, chainMatrix, Matrix.transpose_apply, Matrix.of_apply]
    ring
  · intro v
    rw [show (chainAgg (K := K) N k).matrix = chainMatrix _ _ _ from rfl, chainMatrix_form]
    have := mul_self_nonneg (v ⟨2 * k.val, by omega⟩)
    have := mul_self_nonneg (v ⟨2 * k.val + 1, by omega⟩)
    have := mul_self_nonneg (v ⟨2 * k.val + 2, by omega⟩)
    have := mul_self_nonneg (v ⟨2 * k.val, by omega⟩ - v ⟨2 * k.val + 1, by omega⟩)
    have := mul_self_nonneg (v ⟨2 * k.val + 1, by omega⟩ - v ⟨2 * k.val + 2, by omega⟩)
    linarith
  · intro i hi
    simp only [chainAgg, chainCopy, chainMatrix, Matrix.of_apply, extend_cons, extend_nil, Fin.ext_iff]
    simp only [chainAgg, chainCopy, List.mem_cons, List.not_mem_nil, or_false] at hi
    split_ifs <;> first | (exfalso; omega) | ring
  · intro v hv
    have hv' : v = [1, 1, 1] := by simpa [chainAgg, chainCopy] using hv
    subst hv'
    refine ⟨1, ?_⟩
    funext i
    rw [show (chainAgg (K := K) N k).matrix = chainMatrix _ _ _ from rfl, chainMatrix_mulVec, one_smul,
      show (chainAgg (K := K) N k).copy = chainCopy k.val from rfl]
    simp only [chain_globalVec, Fin.ext_iff, true_or, or_true, if_true]
    split_ifs <;> first | (exfalso; omega) | ring
  · simp [chainAgg, chainCopy]
  · intro w hw hort
    have h0 := hort [1, 1, 1] (by simp [chainAgg, chainCopy])
    rw [show (chainAgg (K := K) N k).copy = chainCopy k.val from rfl, hsum] at h0
    have hww : w ⬝ᵥ w = w ⟨2 * k.val, by omega⟩ * w ⟨2 * k.val, by omega⟩
        + w ⟨2 * k.val + 1, by omega⟩ * w ⟨2 * k.val + 1, by omega⟩
        + w ⟨2 * k.val + 2, by omega⟩ * w ⟨2 * k.val + 2, by omega⟩ := by
      rw [← hsum fun i => w i * w i]
      simp only [dotProduct]
      apply Finset.sum_congr rfl
      intro i _
      rw [chain_globalVec]
      split_ifs with h
      · ring
      · have : w i = 0 := by
          by_contra hne
          have := hw i hne
          simp only [chainAgg, chainCopy, List.mem_cons, List.not_mem_nil, or_false] at this
          exact h this
        rw [this]
        ring
    rw [hww, show (chainAgg (K := K) N k).matrix = chainMatrix _ _ _ from rfl, chainMatrix_form,
      show (chainAgg (K := K) N k).omitted = 2 from rfl]
    have := mul_self_nonneg (w ⟨2 * k.val + 1, by omega⟩)
    have e : w ⟨2 * k.val + 1, by omega⟩ = - (w ⟨2 * k.val, by omega⟩ + w ⟨2 * k.val + 2, by omega⟩) := by
      linarith
    rw [e] at this ⊢
    nlinarith

theorem chain_spd (N : ℕ) (hN : 0 < N) : IsSpd (chainSum (K := K) N) := by
  refine ⟨?_, ?_⟩
  · ext i j
    rw [Matrix.transpose_apply, chain_entry, chain_entry]
    congr 1
    apply List.map_congr_left
    intro k _
    have := congrFun (congrFun (chain_solved (K := K) N k).symm i) j
    rwa [Matrix.transpose_apply] at this
  · intro v hv
    rw [chainSum, mulVec_sum_matrices, chainAggs, List.map_map, List.map_map]
    have hnn : ∀ k : Fin N, 0 ≤ v ⬝ᵥ (chainAgg (K := K) N k).matrix.mulVec v :=
      fun k => (chain_solved N k).psd v
    obtain ⟨i, hi⟩ : ∃ i, v i ≠ 0 := by
      by_contra h
      push Not at h
      exact hv (funext h)
    obtain ⟨k, hk⟩ : ∃ k : Fin N, i.val = 2 * k.val ∨ i.val = 2 * k.val + 1 ∨ i.val = 2 * k.val + 2 := by
      by_cases h : i.val / 2 < N
      · refine ⟨⟨i.val / 2, h⟩, ?_⟩
        simp only
        omega
      · refine ⟨⟨N - 1, by omega⟩, ?_⟩
        simp only
        omega
    have hpos : 0 < v ⬝ᵥ (chainAgg (K := K) N k).matrix.mulVec v := by
      rw [show (chainAgg (K := K) N k).matrix = chainMatrix _ _ _ from rfl, chainMatrix_form]
      have e0 := mul_self_nonneg (v ⟨2 * k.val, by omega⟩)
      have e1 := mul_self_nonneg (v ⟨2 * k.val + 1, by omega⟩)
      have e2 := mul_self_nonneg (v ⟨2 * k.val + 2, by omega⟩)
      have e3 := mul_self_nonneg (v ⟨2 * k.val, by omega⟩ - v ⟨2 * k.val + 1, by omega⟩)
      have e4 := mul_self_nonneg (v ⟨2 * k.val + 1, by omega⟩ - v ⟨2 * k.val + 2, by omega⟩)
      have hi2 : 0 < v i * v i := lt_of_le_of_ne (mul_self_nonneg _) (Ne.symm (mul_self_ne_zero.2 hi))
      rcases hk with h | h | h
      · rw [show i = ⟨2 * k.val, by omega⟩ from Fin.ext h] at hi2
        linarith
      · rw [show i = ⟨2 * k.val + 1, by omega⟩ from Fin.ext h] at hi2
        linarith
      · rw [show i = ⟨2 * k.val + 2, by omega⟩ from Fin.ext h] at hi2
        linarith
    refine lt_of_lt_of_le hpos (List.single_le_sum ?_ _ ?_)
    · intro x hx
      obtain ⟨k', _, rfl⟩ := List.mem_map.1 hx
      exact hnn k'
    · exact List.mem_map.2 ⟨k, List.mem_finRange k, rfl⟩

omit [IsStrictOrderedRing K] in
theorem chain_perRow (N : ℕ) : AtMostPerRow (chainSum (K := K) N) 3 := by
  intro i
  have hsub : (Finset.univ.filter fun j => chainSum (K := K) N i j ≠ 0)
      ⊆ Finset.univ.filter fun j : Fin (2 * N + 1) => i.val ≤ j.val + 1 ∧ j.val ≤ i.val + 1 := by
    intro j hj
    rw [Finset.mem_filter] at hj ⊢
    refine ⟨hj.1, ?_⟩
    by_contra hn
    apply hj.2
    rw [chain_entry]
    apply List.sum_eq_zero
    intro x hx
    obtain ⟨k, _, rfl⟩ := List.mem_map.1 hx
    by_contra hne
    exact hn (chain_entry_ne N k i j hne).2.2
  refine le_trans (Finset.card_le_card hsub) ?_
  have hinj : (Finset.univ.filter fun j : Fin (2 * N + 1) => i.val ≤ j.val + 1 ∧ j.val ≤ i.val + 1).image
      (fun j => j.val + 1) ⊆ Finset.Icc i.val (i.val + 2) := by
    intro x hx
    obtain ⟨j, hj, rfl⟩ := Finset.mem_image.1 hx
    rw [Finset.mem_filter] at hj
    rw [Finset.mem_Icc]
    omega
  rw [← Finset.card_image_of_injective _ (f := fun j : Fin (2 * N + 1) => j.val + 1) (by
    intro x y hxy
    exact Fin.ext (by simpa using hxy))]
  refine le_trans (Finset.card_le_card hinj) ?_
  rw [Nat.card_Icc]
  omega

theorem chain_diag_le (N : ℕ) (k : Fin N) (i : Fin (2 * N + 1)) :
    (chainAgg (K := K) N k).matrix i i ≤ 3 / 2 * (chainAgg (K := K) N k).omitted := by
  simp only [chainAgg, chainMatrix, Matrix.of_apply, Fin.ext_iff]
  split_ifs <;> first | (exfalso; omega) | norm_num

theorem chain_diag_ne (N : ℕ) (k : Fin N) (i : Fin (2 * N + 1))
    (hi : i.val ∈ (chainAgg (K := K) N k).copy.dofMap) : (chainAgg (K := K) N k).matrix i i ≠ 0 := by
  simp only [chainAgg, chainCopy, List.mem_cons, List.not_mem_nil, or_false] at hi
  simp only [chainAgg, chainMatrix, Matrix.of_apply, Fin.ext_iff]
  split_ifs <;> first | (exfalso; omega) | norm_num

end

theorem chain_own (N : ℕ) : OwnIndependent ((chainAggs (K := K) N).map AggData.copy) := by
  intro pre c post hsplit y hy q hq
  have hmap : (chainAggs (K := K) N).map AggData.copy
      = (List.finRange N).map fun k : Fin N => chainCopy (K := K) k.val := by
    rw [chainAggs, List.map_map]
    rfl
  rw [hmap] at hsplit
  have hnd : (pre ++ c :: post).Nodup := by
    rw [← hsplit]
    refine List.Nodup.map ?_ (List.nodup_finRange N)
    intro k k' h
    have := congrArg CopyData.dofMap h
    simp only [chainCopy, List.cons.injEq] at this
    exact Fin.ext (by omega)
  have hmem : ∀ d ∈ pre ++ c :: post, ∃ k : Fin N, d = chainCopy k.val := by
    intro d hd
    rw [← hsplit] at hd
    obtain ⟨k, _, rfl⟩ := List.mem_map.1 hd
    exact ⟨k, rfl⟩
  obtain ⟨k, rfl⟩ := hmem c (by simp)
  have h := hy (2 * k.val + 1) (by simp [chainCopy]) (by
    intro d hd hx
    obtain ⟨k', rfl⟩ := hmem d (by
      rw [List.mem_append] at hd
      rw [List.mem_append, List.mem_cons]
      tauto)
    simp only [chainCopy, List.mem_cons, List.not_mem_nil, or_false] at hx
    have : k'.val = k.val := by omega
    rw [this] at hd
    have hnd' := (List.nodup_middle.1 hnd)
    exact (List.nodup_cons.1 hnd').1 hd)
  have hq0 : q = 0 := by
    simp only [chainCopy, List.length_cons, List.length_nil] at hq
    omega
  subst hq0
  have he : extend (chainCopy (K := K) k.val).dofMap ([1, 1, 1] : List K) (2 * k.val + 1) = 1 := by
    simp [chainCopy, extend_cons]
  have hr : (List.range (chainCopy (K := K) k.val).eigenvectors.length) = [0] := by
    simp [chainCopy]
  rw [hr] at h
  have hv : (chainCopy (K := K) k.val).eigenvectors.getD 0 [] = [1, 1, 1] := rfl
  rw [List.map_singleton, List.sum_singleton, hv, he, mul_one] at h
  exact h

end Mfmg
