import Verif.Props.Relaxation

/-!
# Symmetric Gauss-Seidel on several processes
-/

set_option autoImplicit false

namespace Mfmg

open Spec

section

variable {K : Type} [Field K] {n : ℕ}

/-- The rows and columns of one process; the identity elsewhere. -/
def ownMatrix (A : Matrix (Fin n) (Fin n) K) (own : List (Fin n)) : Matrix (Fin n) (Fin n) K :=
  Matrix.of fun i j => if i ∈ own ∧ j ∈ own then A i j else if i = j then 1 else 0

theorem ownMatrix_mulVec (A : Matrix (Fin n) (Fin n) K) {own : List (Fin n)} (hown : own.Nodup)
    (x : Fin n → K) {i : Fin n} (hi : i ∈ own) :
    (ownMatrix A own).mulVec x i = (own.map fun j => A i j * x j).sum := by
  rw [← List.sum_toFinset _ hown]
  simp only [Matrix.mulVec, dotProduct, ownMatrix, Matrix.of_apply]
  rw [← Finset.sum_subset (Finset.subset_univ own.toFinset)]
  · apply Finset.sum_congr rfl
    intro j hj
    rw [if_pos ⟨hi, List.mem_toFinset.1 hj⟩]
  · intro j _ hj
    have hj' : j ∉ own := fun h => hj (List.mem_toFinset.2 h)
    rw [if_neg fun h => hj' h.2, if_neg fun (h : i = j) => hj' (h ▸ hi), zero_mul]

theorem relaxRow_own (A : Matrix (Fin n) (Fin n) K) {own : List (Fin n)} (hown : own.Nodup)
    (b x : Fin n → K) {i : Fin n} (hi : i ∈ own) :
    relaxRow A own b x i = relaxFull (ownMatrix A own) b x i := by
  unfold relaxRow relaxFull
  rw [ownMatrix_mulVec A hown x hi]
  have : ownMatrix A own i i = A i i := by simp [ownMatrix, hi]
  rw [this]

theorem sweep_own (A : Matrix (Fin n) (Fin n) K) {own : List (Fin n)} (hown : own.Nodup)
    (b : Fin n → K) (rows : List (Fin n)) (hrows : ∀ i ∈ rows, i ∈ own) (x : Fin n → K) :
    rows.foldl (relaxRow A own b) x = rows.foldl (relaxFull (ownMatrix A own) b) x := by
  induction rows generalizing x with
  | nil => rfl
  | cons i rows ih =>
    rw [List.foldl_cons, List.foldl_cons, relaxRow_own A hown b x (hrows i (by simp)),
      ih fun j hj => hrows j (by simp [hj])]

theorem sweep_off (A : Matrix (Fin n) (Fin n) K) (own : List (Fin n)) (b : Fin n → K)
    (rows : List (Fin n)) (x : Fin n → K) {i : Fin n} (hi : i ∉ rows) :
    rows.foldl (relaxRow A own b) x i = x i := by
  induction rows generalizing x with
  | nil => rfl
  | cons k rows ih =>
    rw [List.foldl_cons, ih _ fun h => hi (by simp [h])]
    exact Function.update_of_ne (fun h => hi (by simp [h])) _ _

/-- The processes change only their own rows. -/
theorem localVmult_off (kind : Relaxation) (A : Matrix (Fin n) (Fin n) K) (own : List (Fin n))
    (r : Fin n → K) {i : Fin n} (hi : i ∉ own) : localVmult kind A own r i = 0 := by
  cases kind
  · exact sweep_off A own r _ 0 (by simp [hi])
  · exact sweep_off A own r _ 0 hi
  · simp [localVmult, hi]

theorem dot_restrict (own : List (Fin n)) (u v : Fin n → K) :
    restrictTo own u ⬝ᵥ v = restrictTo own u ⬝ᵥ restrictTo own v := by
  apply Finset.sum_congr rfl
  intro i _
  unfold restrictTo
  split <;> simp

theorem ownMatrix_restrict (A : Matrix (Fin n) (Fin n) K) (own : List (Fin n)) (w : Fin n → K) :
    energyOf (ownMatrix A own) (restrictTo own w) = energyOf A (restrictTo own w) := by
  unfold energyOf dotProduct Matrix.mulVec dotProduct
  apply Finset.sum_congr rfl
  intro i _
  by_cases hi : i ∈ own
  · congr 1
    apply Finset.sum_congr rfl
    intro j _
    by_cases hj : j ∈ own
    · simp [ownMatrix, hi, hj]
    · simp [restrictTo, hj]
  · simp [restrictTo, hi]

/-- Summation over all rows is summation over the rows of every process. -/
theorem sum_procs {procs : List (List (Fin n))} (h : ListsAll procs.flatten) (f : Fin n → K) :
    ∑ i, f i = (procs.map fun own => (own.map f).sum).sum := by
  rw [← sum_listsAll h f, List.map_flatten, List.sum_flatten, List.map_map]
  rfl

theorem procs_nodup {procs : List (List (Fin n))} (h : ListsAll procs.flatten) {own : List (Fin n)}
    (ho : own ∈ procs) : own.Nodup := (List.nodup_flatten.1 h.1).1 own ho

theorem procs_count {procs : List (List (Fin n))} (h : ListsAll procs.flatten) (i : Fin n) :
    (procs.countP fun own => i ∈ own) = 1 := by
  obtain ⟨h1, h2⟩ := h
  have h3 : i ∈ procs.flatten := h2 i
  clear h2
  induction procs with
  | nil => simp at h3
  | cons own procs ih =>
    rw [List.flatten_cons, List.nodup_append] at h1
    rw [List.countP_cons]
    by_cases hi : i ∈ own
    · have : (procs.countP fun own => i ∈ own) = 0 := by
        rw [List.countP_eq_zero]
        intro o ho hio
        exact h1.2.2 i hi i (List.mem_flatten.2 ⟨o, ho, by simpa using hio⟩) rfl
      simp [this, hi]
    · rw [List.flatten_cons, List.mem_append] at h3
      rw [ih h1.2.1 (h3.resolve_left hi)]
      simp [hi]

/-- The preconditioner on the rows of one process is the one of this process. -/
theorem relaxVmult_own (kind : Relaxation) (A : Matrix (Fin n) (Fin n) K)
    {procs : List (List (Fin n))} (h : ListsAll procs.flatten) (r : Fin n → K) {own : List (Fin n)}
    (ho : own ∈ procs) {i : Fin n} (hi : i ∈ own) :
    relaxVmult kind A procs r i = localVmult kind A own r i := by
  unfold relaxVmult
  have hc := procs_count h i
  clear h
  induction procs with
  | nil => simp at ho
  | cons o procs ih =>
    rw [List.countP_cons] at hc
    rw [List.map_cons, List.sum_cons]
    have hz : (procs.countP fun own => i ∈ own) = 0 →
        (procs.map fun own => localVmult kind A own r i).sum = 0 := by
      intro h0
      rw [List.countP_eq_zero] at h0
      apply List.sum_eq_zero
      intro y hy
      obtain ⟨o', ho', rfl⟩ := List.mem_map.1 hy
      exact localVmult_off kind A o' r (by simpa using h0 o' ho')
    by_cases hio : i ∈ o
    · have h0 : (procs.countP fun own => i ∈ own) = 0 := by
        simp [hio] at hc
        simpa [List.countP_eq_zero] using hc
      rw [hz h0, add_zero]
      rcases List.mem_cons.1 ho with rfl | ho'
      · rfl
      · rw [List.countP_eq_zero] at h0
        exact absurd (by simpa using hi) (h0 own ho')
    · rw [localVmult_off kind A o r hio, zero_add]
      rcases List.mem_cons.1 ho with rfl | ho'
      · exact absurd hi hio
      · exact ih ho' (by simpa [hio] using hc)

theorem restrict_relaxVmult (kind : Relaxation) (A : Matrix (Fin n) (Fin n) K)
    {procs : List (List (Fin n))} (h : ListsAll procs.flatten) (r : Fin n → K) {own : List (Fin n)}
    (ho : own ∈ procs) :
    restrictTo own (relaxVmult kind A procs r) = localVmult kind A own r := by
  funext i
  unfold restrictTo
  split
  · next hi => exact relaxVmult_own kind A h r ho hi
  · next hi => exact (localVmult_off kind A own r hi).symm

theorem dot_procs {procs : List (List (Fin n))} (h : ListsAll procs.flatten) (u v : Fin n → K) :
    u ⬝ᵥ v = (procs.map fun own => restrictTo own u ⬝ᵥ v).sum := by
  have := sum_procs h fun i => u i * v i
  unfold dotProduct
  rw [this]
  congr 1
  apply List.map_congr_left
  intro own ho
  rw [← List.sum_toFinset _ (procs_nodup h ho)]
  rw [← Finset.sum_subset (Finset.subset_univ own.toFinset)]
  · apply Finset.sum_congr rfl
    intro i hi
    rw [restrictTo, if_pos (List.mem_toFinset.1 hi)]
  · intro i _ hi
    rw [restrictTo, if_neg fun h => hi (List.mem_toFinset.2 h), zero_mul]

end

section

variable {K : Type} [Field K] [LinearOrder K] [IsStrictOrderedRing K] {n : ℕ}

theorem ownMatrix_spd {A : Matrix (Fin n) (Fin n) K} (hA : IsSpd A) (own : List (Fin n)) :
    IsSpd (ownMatrix A own) := by
  refine ⟨?_, ?_⟩
  · ext i j
    have h : A j i = A i j := by
      have := congrFun (congrFun hA.1 i) j
      exact this
    simp only [ownMatrix, Matrix.transpose_apply, Matrix.of_apply, h, and_comm (a := j ∈ own),
      eq_comm (a := j)]
  · intro v hv
    have h1 : v ⬝ᵥ (ownMatrix A own).mulVec v = energyOf A (restrictTo own v)
        + ∑ i, (if i ∈ own then 0 else v i * v i) := by
      unfold energyOf dotProduct Matrix.mulVec dotProduct
      rw [← Finset.sum_add_distrib]
      apply Finset.sum_congr rfl
      intro i _
      by_cases hi : i ∈ own
      · rw [if_pos hi, add_zero]
        have : restrictTo own v i = v i := by simp [restrictTo, hi]
        rw [this]
        congr 1
        apply Finset.sum_congr rfl
        intro j _
        by_cases hj : j ∈ own
        · simp [ownMatrix, restrictTo, hi, hj]
        · have hij : i ≠ j := fun h => hj (h ▸ hi)
          simp [ownMatrix, restrictTo, hj, hij]
      · simp [ownMatrix, restrictTo, hi]
    rw [h1]
    have h2 : ∀ i ∈ Finset.univ, (0 : K) ≤ if i ∈ own then 0 else v i * v i := by
      intro i _
      split
      · exact le_refl _
      · exact mul_self_nonneg _
    by_cases hr : restrictTo own v = 0
    · have h0 : energyOf A (restrictTo own v) = 0 := by rw [hr]; simp [energyOf]
      rw [h0, zero_add]
      obtain ⟨i, hi⟩ := Function.ne_iff.1 hv
      have hio : i ∉ own := by
        intro h
        have := congrFun hr i
        rw [restrictTo, if_pos h] at this
        exact hi this
      refine Finset.sum_pos' h2 ⟨i, Finset.mem_univ i, ?_⟩
      rw [if_neg hio]
      exact lt_of_le_of_ne (mul_self_nonneg _) (Ne.symm (mul_self_ne_zero.2 hi))
    · exact add_pos_of_pos_of_nonneg (hA.2 _ hr) (Finset.sum_nonneg h2)

/-- Symmetric Gauss-Seidel on one process: the energy of the correction is at most its product with the
residual, and the correction is not zero unless the residual is. -/
theorem local_sgs {A : Matrix (Fin n) (Fin n) K} (hA : IsSpd A) {own : List (Fin n)} (hown : own.Nodup)
    (r : Fin n → K) :
    energyOf A (localVmult .symmetricGaussSeidel A own r)
      ≤ localVmult .symmetricGaussSeidel A own r ⬝ᵥ r ∧
    (localVmult .symmetricGaussSeidel A own r = 0 → ∀ i ∈ own, r i = 0) := by
  set B := ownMatrix A own with hB
  have hspd : IsSpd B := ownMatrix_spd hA own
  set z := localVmult .symmetricGaussSeidel A own r with hz
  have hzr : restrictTo own z = z := by
    funext i
    unfold restrictTo
    split
    · rfl
    · next hi => exact (localVmult_off _ A own r hi).symm
  have hEz : energyOf A z = energyOf B z := by
    rw [← hzr, hB, ownMatrix_restrict]
  set u := B⁻¹.mulVec r with hu
  have hur : B.mulVec u = r := mulVec_inv (spd_det hspd) r
  have hzs : z = (own ++ own.reverse).foldl (relaxFull B r) 0 := by
    rw [hz, localVmult, sweep_own A hown r _ (by simp)]
  have herr : u - z = (own ++ own.reverse).foldl (errRow B) u := by
    rw [hzs, err_sweep B r u hur, sub_zero]
  have hT : u ⬝ᵥ B.mulVec (u - z) = energyOf B (own.foldl (errRow B) u) := by
    rw [herr, List.foldl_append, ← errSweep_symm hspd.1]
    rfl
  have hle : energyOf B (u - z) ≤ energyOf B (own.foldl (errRow B) u) := by
    rw [herr, List.foldl_append]
    exact (energy_sweep hspd own.reverse _).1
  have hg := energy_gain hspd.1 u z
  have h1 : u ⬝ᵥ B.mulVec (u - z) = energyOf B u - z ⬝ᵥ r := by
    rw [Matrix.mulVec_sub, dotProduct_sub, form_symm hspd.1 u z, hur]
    unfold energyOf
    rw [hur]
  have h2 : energyOf B z = z ⬝ᵥ B.mulVec z := rfl
  rw [hur] at hg
  refine ⟨by rw [hEz]; linarith, ?_⟩
  intro h0 i hi
  have h3 := (energy_sweep hspd (own ++ own.reverse) u).2 (by rw [← herr, h0, sub_zero]) i (by simp [hi])
  rw [hur] at h3
  exact h3

/-- Symmetric Gauss-Seidel on several processes: twice the product of correction and residual exceeds the
energy of the correction. -/
theorem sgs_gain {A : Matrix (Fin n) (Fin n) K} (hA : IsSpd A) {procs : List (List (Fin n))}
    (hprocs : ListsAll procs.flatten) (hw : WeaklyCoupled A procs) (r : Fin n → K) (hr : r ≠ 0) :
    energyOf A (relaxVmult .symmetricGaussSeidel A procs r)
      < 2 * (relaxVmult .symmetricGaussSeidel A procs r ⬝ᵥ r) := by
  set w := relaxVmult .symmetricGaussSeidel A procs r with hwd
  have hne : w ≠ 0 := by
    intro h0
    obtain ⟨i, hi⟩ := Function.ne_iff.1 hr
    obtain ⟨own, ho, hio⟩ := List.mem_flatten.1 (hprocs.2 i)
    apply hi
    refine (local_sgs hA (procs_nodup hprocs ho) r).2 ?_ i hio
    rw [← restrict_relaxVmult _ A hprocs r ho, ← hwd, h0]
    funext j
    simp [restrictTo]
  refine (hw w hne).trans_le ?_
  apply mul_le_mul_of_nonneg_left _ (by norm_num)
  rw [dot_procs hprocs]
  apply List.sum_le_sum
  intro own ho
  rw [hwd, restrict_relaxVmult _ A hprocs r ho]
  exact (local_sgs hA (procs_nodup hprocs ho) r).1

/-- A smoother of several processes in one step. -/
theorem sgs_decreases {A : Matrix (Fin n) (Fin n) K} (hA : IsSpd A) {procs : List (List (Fin n))}
    (hprocs : ListsAll procs.flatten) (hw : WeaklyCoupled A procs) (e : Fin n → K) (he : e ≠ 0) :
    energyOf A (e - relaxVmult .symmetricGaussSeidel A procs (A.mulVec e)) < energyOf A e := by
  have h := sgs_gain hA hprocs hw (A.mulVec e) (spd_mulVec_ne hA he)
  have hg := energy_gain hA.1 e (relaxVmult .symmetricGaussSeidel A procs (A.mulVec e))
  have h2 : energyOf A (relaxVmult .symmetricGaussSeidel A procs (A.mulVec e))
    = relaxVmult .symmetricGaussSeidel A procs (A.mulVec e) ⬝ᵥ
      A.mulVec (relaxVmult .symmetricGaussSeidel A procs (A.mulVec e)) := rfl
  linarith

omit [LinearOrder K] [IsStrictOrderedRing K] in
theorem sum_single_procs {procs : List (List (Fin n))} (h : procs.flatten.Nodup) (i j : Fin n) (c : K) :
    (procs.map fun own => if i ∈ own ∧ j ∈ own then c else 0).sum
      = if ∃ own ∈ procs, i ∈ own ∧ j ∈ own then c else 0 := by
  induction procs with
  | nil => simp
  | cons o procs ih =>
    rw [List.flatten_cons, List.nodup_append] at h
    rw [List.map_cons, List.sum_cons]
    by_cases ho : i ∈ o ∧ j ∈ o
    · rw [if_pos ho, if_pos ⟨o, by simp, ho⟩, List.sum_eq_zero, add_zero]
      intro y hy
      obtain ⟨o', ho', rfl⟩ := List.mem_map.1 hy
      rw [if_neg]
      intro h'
      exact h.2.2 i ho.1 i (List.mem_flatten.2 ⟨o', ho', h'.1⟩) rfl
    · rw [if_neg ho, zero_add, ih h.2.1]
      congr 1
      simp [ho]

omit [LinearOrder K] [IsStrictOrderedRing K] in
/-- The energies of the parts, added: only pairs of rows on one process count. -/
theorem sum_parts {procs : List (List (Fin n))} (h : procs.flatten.Nodup)
    (A : Matrix (Fin n) (Fin n) K) (w : Fin n → K) :
    (procs.map fun own => energyOf A (restrictTo own w)).sum
      = ∑ i, ∑ j, if ∃ own ∈ procs, i ∈ own ∧ j ∈ own then w i * (A i j * w j) else 0 := by
  have h1 : ∀ own : List (Fin n), energyOf A (restrictTo own w)
      = ∑ i, ∑ j, if i ∈ own ∧ j ∈ own then w i * (A i j * w j) else 0 := by
    intro own
    unfold energyOf dotProduct Matrix.mulVec dotProduct
    apply Finset.sum_congr rfl
    intro i _
    rw [Finset.mul_sum]
    apply Finset.sum_congr rfl
    intro j _
    by_cases hi : i ∈ own <;> by_cases hj : j ∈ own <;> simp [restrictTo, hi, hj]
  have h2 : ∀ f : List (Fin n) → Fin n → K, (procs.map fun own => ∑ i, f own i).sum
      = ∑ i, (procs.map fun own => f own i).sum := by
    intro f
    clear h
    induction procs with
    | nil => simp
    | cons o procs ih => simp only [List.map_cons, List.sum_cons, ih, Finset.sum_add_distrib]
  simp only [h1]
  rw [h2]
  apply Finset.sum_congr rfl
  intro i _
  rw [h2]
  apply Finset.sum_congr rfl
  intro j _
  exact sum_single_procs h i j _

/-- If the processes can be coloured with two colours such that processes of the same colour are not coupled,
the coupling is weak. -/
theorem weaklyCoupled_of_colour {A : Matrix (Fin n) (Fin n) K} (hA : IsSpd A)
    {procs : List (List (Fin n))} (hprocs : ListsAll procs.flatten) (colour : Fin n → Bool)
    (hsame : ∀ own ∈ procs, ∀ i ∈ own, ∀ j ∈ own, colour i = colour j)
    (hfree : ∀ own ∈ procs, ∀ i ∈ own, ∀ j, j ∉ own → colour i = colour j → A i j = 0) :
    WeaklyCoupled A procs := by
  intro w hw
  set v : Fin n → K := fun i => (if colour i then 1 else -1) * w i with hv
  have hv0 : v ≠ 0 := by
    intro h0
    apply hw
    funext i
    have := congrFun h0 i
    simp only [hv, Pi.zero_apply] at this
    split at this
    · simpa using this
    · simpa using this
  have h1 : energyOf A w + energyOf A v
      = 2 * (procs.map fun own => energyOf A (restrictTo own w)).sum := by
    rw [sum_parts hprocs.1]
    unfold energyOf dotProduct Matrix.mulVec dotProduct
    rw [← Finset.sum_add_distrib, Finset.mul_sum]
    apply Finset.sum_congr rfl
    intro i _
    rw [Finset.mul_sum, Finset.mul_sum, ← Finset.sum_add_distrib, Finset.mul_sum]
    apply Finset.sum_congr rfl
    intro j _
    obtain ⟨own, ho, hi⟩ := List.mem_flatten.1 (hprocs.2 i)
    by_cases hex : ∃ own ∈ procs, i ∈ own ∧ j ∈ own
    · rw [if_pos hex]
      obtain ⟨o, ho', hi', hj'⟩ := hex
      have := hsame o ho' i hi' j hj'
      simp only [hv, this]
      split <;> ring
    · rw [if_neg hex]
      have hj : j ∉ own := fun h => hex ⟨own, ho, hi, h⟩
      by_cases hc : colour i = colour j
      · dsimp only
        rw [hfree own ho i hi j hj hc]
        ring
      · simp only [hv]
        cases h1 : colour i <;> cases h2 : colour j
        · exact absurd (h1.trans h2.symm) hc
        · simp
        · simp
        · exact absurd (h1.trans h2.symm) hc
  have h2 : 0 < energyOf A v := hA.2 v hv0
  linarith

/-- On one or two processes the coupling is always weak. -/
theorem weaklyCoupled_two {A : Matrix (Fin n) (Fin n) K} (hA : IsSpd A)
    {procs : List (List (Fin n))} (hprocs : ListsAll procs.flatten) (htwo : procs.length ≤ 2) :
    WeaklyCoupled A procs := by
  match procs, htwo with
  | [], _ =>
    refine weaklyCoupled_of_colour hA hprocs (fun _ => true) (by simp) (by simp)
  | [own], _ =>
    refine weaklyCoupled_of_colour hA hprocs (fun _ => true) (by simp) ?_
    intro o ho i _ j hj
    rw [List.mem_singleton] at ho
    subst ho
    exact absurd (by simpa using hprocs.2 j) hj
  | [o1, o2], _ =>
    have hd : ∀ i ∈ o2, i ∉ o1 := by
      have := hprocs.1
      simp only [List.flatten_cons, List.flatten_nil, List.append_nil, List.nodup_append] at this
      intro i hi h
      exact this.2.2 i h i hi rfl
    have hall : ∀ i, i ∈ o1 ∨ i ∈ o2 := by
      intro i
      simpa using hprocs.2 i
    refine weaklyCoupled_of_colour hA hprocs (fun i => i ∈ o1) ?_ ?_
    · intro own ho i hi j hj
      rcases List.mem_cons.1 ho with rfl | ho
      · simp [hi, hj]
      · rw [List.mem_singleton] at ho
        subst ho
        simp [hd i hi, hd j hj]
    · intro own ho i hi j hj hc
      exfalso
      rcases List.mem_cons.1 ho with rfl | ho
      · simp [hi, hj] at hc
      · rw [List.mem_singleton] at ho
        subst ho
        have := (hall j).resolve_right hj
        simp [hd i hi, this] at hc

end

end Mfmg
