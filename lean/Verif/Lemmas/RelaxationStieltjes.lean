import Verif.Lemmas.RelaxationProcs
import Verif.Spec.Ilu

/-!
# Relaxation on several processes for Stieltjes matrices
-/

set_option autoImplicit false

namespace Mfmg

open Spec

section

variable {K : Type} [Field K] [LinearOrder K] [IsStrictOrderedRing K] {n : ℕ}

/-- Changing signs of couplings, or making them smaller, leaves a Stieltjes matrix positive definite. -/
theorem stieltjes_signs {A : Matrix (Fin n) (Fin n) K} (hA : IsStieltjes A) (s : Fin n → Fin n → K)
    (hd : ∀ i, s i i = 1) (hs : ∀ i j, |s i j| ≤ 1) (w : Fin n → K) (hw : w ≠ 0) :
    0 < ∑ i, ∑ j, s i j * (w i * (A i j * w j)) := by
  have hne : (fun i => |w i|) ≠ 0 := by
    intro h
    apply hw
    funext i
    exact abs_eq_zero.1 (congrFun h i)
  refine lt_of_lt_of_le (hA.1.2 _ hne) ?_
  unfold dotProduct Matrix.mulVec dotProduct
  refine Finset.sum_le_sum fun i _ => ?_
  rw [Finset.mul_sum]
  refine Finset.sum_le_sum fun j _ => ?_
  by_cases hij : i = j
  · subst hij
    rw [hd, one_mul, mul_left_comm, mul_left_comm (w i), abs_mul_abs_self]
  · have h1 : -(|w i| * |w j|) ≤ -(s i j * (w i * w j)) := by
      rw [neg_le_neg_iff]
      refine (le_abs_self _).trans ?_
      rw [abs_mul, abs_mul]
      exact mul_le_of_le_one_left (mul_nonneg (abs_nonneg _) (abs_nonneg _)) (hs i j)
    have h2 : 0 ≤ -(A i j) := neg_nonneg.2 (hA.2 i j hij)
    have h3 := mul_le_mul_of_nonneg_left h1 h2
    calc |w i| * (A i j * |w j|) = -A i j * -(|w i| * |w j|) := by ring
      _ ≤ -A i j * -(s i j * (w i * w j)) := h3
      _ = s i j * (w i * (A i j * w j)) := by ring

/-- For Stieltjes matrices the coupling is weak, whatever the processes. -/
theorem weaklyCoupled_stieltjes {A : Matrix (Fin n) (Fin n) K} (hA : IsStieltjes A)
    {procs : List (List (Fin n))} (hprocs : ListsAll procs.flatten) : WeaklyCoupled A procs := by
  intro w hw
  classical
  have h := stieltjes_signs hA (fun i j => if ∃ own ∈ procs, i ∈ own ∧ j ∈ own then 1 else -1)
    (by
      intro i
      obtain ⟨own, ho, hi⟩ := List.mem_flatten.1 (hprocs.2 i)
      exact if_pos ⟨own, ho, hi, hi⟩)
    (by
      intro i j
      split <;> simp) w hw
  have e : ∑ i, ∑ j, (if ∃ own ∈ procs, i ∈ own ∧ j ∈ own then (1 : K) else -1) * (w i * (A i j * w j))
      = 2 * (procs.map fun own => energyOf A (restrictTo own w)).sum - energyOf A w := by
    rw [sum_parts hprocs.1]
    unfold energyOf dotProduct Matrix.mulVec dotProduct
    rw [Finset.mul_sum, ← Finset.sum_sub_distrib]
    refine Finset.sum_congr rfl fun i _ => ?_
    rw [Finset.mul_sum, Finset.mul_sum, ← Finset.sum_sub_distrib]
    refine Finset.sum_congr rfl fun j _ => ?_
    split <;> ring
  rw [e] at h
  linarith

/-! ### One sweep on several processes -/

/-- Relaxing every row of a list once decreases the energy by the sum of the squared changes, weighted by the
diagonal. -/
theorem energy_sweep_eq {A : Matrix (Fin n) (Fin n) K} (hA : IsSpd A) (rows : List (Fin n))
    (hr : rows.Nodup) (e : Fin n → K) :
    energyOf A (rows.foldl (errRow A) e) = energyOf A e
      - (rows.map fun i => A i i * (e i - rows.foldl (errRow A) e i) ^ 2).sum ∧
    ∀ i, i ∉ rows → rows.foldl (errRow A) e i = e i := by
  induction rows generalizing e with
  | nil => simp
  | cons k rows ih =>
    obtain ⟨hk, hr'⟩ := List.nodup_cons.1 hr
    obtain ⟨h1, h2⟩ := ih hr' (errRow A e k)
    have hoff : ∀ i, i ≠ k → errRow A e k i = e i := by
      intro i hi
      simp [errRow, hi]
    refine ⟨?_, ?_⟩
    · rw [List.foldl_cons, h1, energy_errRow hA, List.map_cons, List.sum_cons, h2 k hk]
      have h3 : A k k * (e k - errRow A e k k) ^ 2 = A.mulVec e k * A.mulVec e k / A k k := by
        have := (diag_pos hA k).ne'
        simp only [errRow, Pi.sub_apply, Pi.single_eq_same, sub_sub_cancel]
        field_simp
      have h4 : (rows.map fun i => A i i * (errRow A e k i - rows.foldl (errRow A) (errRow A e k) i) ^ 2)
          = rows.map fun i => A i i * (e i - rows.foldl (errRow A) (errRow A e k) i) ^ 2 := by
        apply List.map_congr_left
        intro i hi
        have hne : i ≠ k := fun h => hk (h ▸ hi)
        rw [hoff i hne]
      rw [h3, h4]
      ring
    · intro i hi
      rw [List.mem_cons, not_or] at hi
      rw [List.foldl_cons, h2 i hi.2, hoff i hi.1]

/-- Gauss-Seidel on one process. -/
theorem local_gs {A : Matrix (Fin n) (Fin n) K} (hA : IsSpd A) {own : List (Fin n)} (hown : own.Nodup)
    (r : Fin n → K) :
    2 * (localVmult .gaussSeidel A own r ⬝ᵥ r)
      = (own.map fun i => A i i * localVmult .gaussSeidel A own r i ^ 2).sum
        + energyOf A (localVmult .gaussSeidel A own r) ∧
    (localVmult .gaussSeidel A own r = 0 → ∀ i ∈ own, r i = 0) := by
  set B := ownMatrix A own with hB
  have hspd : IsSpd B := ownMatrix_spd hA own
  set z := localVmult .gaussSeidel A own r with hz
  have hzr : restrictTo own z = z := by
    funext i
    unfold restrictTo
    split
    · rfl
    · next hi => exact (localVmult_off _ A own r hi).symm
  have hEz : energyOf A z = energyOf B z := by
    rw [← hzr, hB, ownMatrix_restrict]
  set u := B⁻¹.mulVec r with hu
  have hur : B.mulVec u = r := mulVec_inv (spd_det hspd) r
  have hzs : z = own.foldl (relaxFull B r) 0 := by
    rw [hz, localVmult, sweep_own A hown r _ (by simp)]
  have herr : u - z = own.foldl (errRow B) u := by
    rw [hzs, err_sweep B r u hur, sub_zero]
  have hsw := (energy_sweep_eq hspd own hown u).1
  rw [← herr] at hsw
  have hmap : (own.map fun i => B i i * (u i - (u - z) i) ^ 2) = own.map fun i => A i i * z i ^ 2 := by
    apply List.map_congr_left
    intro i hi
    simp [hB, ownMatrix, hi]
  rw [hmap] at hsw
  have hg := energy_gain hspd.1 u z
  have h2 : energyOf B z = z ⬝ᵥ B.mulVec z := rfl
  rw [hur] at hg
  refine ⟨by rw [hEz]; linarith, ?_⟩
  intro h0 i hi
  have h3 := (energy_sweep hspd own u).2 (by rw [← herr, h0, sub_zero]) i hi
  rw [hur] at h3
  exact h3

/-- Gauss-Seidel on several processes: twice the product of correction and residual. -/
theorem gs_product {A : Matrix (Fin n) (Fin n) K} (hA : IsSpd A) {procs : List (List (Fin n))}
    (hprocs : ListsAll procs.flatten) (r : Fin n → K) :
    2 * (relaxVmult .gaussSeidel A procs r ⬝ᵥ r)
      = ∑ i, A i i * relaxVmult .gaussSeidel A procs r i ^ 2
        + (procs.map fun own => energyOf A (restrictTo own (relaxVmult .gaussSeidel A procs r))).sum := by
  rw [dot_procs hprocs, sum_procs hprocs, ← List.sum_map_mul_left, ← List.sum_map_add]
  congr 1
  apply List.map_congr_left
  intro own ho
  have hl := (local_gs hA (procs_nodup hprocs ho) r).1
  have hm : (own.map fun i => A i i * relaxVmult .gaussSeidel A procs r i ^ 2)
      = own.map fun i => A i i * localVmult .gaussSeidel A own r i ^ 2 := by
    apply List.map_congr_left
    intro i hi
    rw [relaxVmult_own _ A hprocs r ho hi]
  rw [restrict_relaxVmult _ A hprocs r ho, hm]
  exact hl

theorem gs_injective {A : Matrix (Fin n) (Fin n) K} (hA : IsSpd A) {procs : List (List (Fin n))}
    (hprocs : ListsAll procs.flatten) {r : Fin n → K} (h : relaxVmult .gaussSeidel A procs r = 0) :
    r = 0 := by
  funext i
  obtain ⟨own, ho, hio⟩ := List.mem_flatten.1 (hprocs.2 i)
  refine (local_gs hA (procs_nodup hprocs ho) r).2 ?_ i hio
  rw [← restrict_relaxVmult _ A hprocs r ho, h]
  funext j
  simp [restrictTo]

/-- The change of the energy in one step. -/
theorem gs_energy {A : Matrix (Fin n) (Fin n) K} (hA : IsSpd A) {procs : List (List (Fin n))}
    (hprocs : ListsAll procs.flatten) (e : Fin n → K) :
    energyOf A (e - relaxVmult .gaussSeidel A procs (A.mulVec e))
      = energyOf A e + (energyOf A (relaxVmult .gaussSeidel A procs (A.mulVec e))
        - (∑ i, A i i * relaxVmult .gaussSeidel A procs (A.mulVec e) i ^ 2
          + (procs.map fun own =>
              energyOf A (restrictTo own (relaxVmult .gaussSeidel A procs (A.mulVec e)))).sum)) := by
  have hp := gs_product hA hprocs (A.mulVec e)
  have hg := energy_gain hA.1 e (relaxVmult .gaussSeidel A procs (A.mulVec e))
  have h2 : energyOf A (relaxVmult .gaussSeidel A procs (A.mulVec e))
    = relaxVmult .gaussSeidel A procs (A.mulVec e) ⬝ᵥ
      A.mulVec (relaxVmult .gaussSeidel A procs (A.mulVec e)) := rfl
  linarith

/-- The condition of `C75_gauss_seidel_iff` for Stieltjes matrices. -/
theorem gs_stieltjes {A : Matrix (Fin n) (Fin n) K} (hA : IsStieltjes A) {procs : List (List (Fin n))}
    (hprocs : ListsAll procs.flatten) (w : Fin n → K) (hw : w ≠ 0) :
    energyOf A w < ∑ i, A i i * w i ^ 2
      + (procs.map fun own => energyOf A (restrictTo own w)).sum := by
  classical
  have h := stieltjes_signs hA
    (fun i j => if i = j then 1 else if ∃ own ∈ procs, i ∈ own ∧ j ∈ own then 0 else -1)
    (fun i => if_pos rfl)
    (by
      intro i j
      split
      · simp
      · split <;> simp) w hw
  have e : ∑ i, ∑ j, (if i = j then (1 : K) else if ∃ own ∈ procs, i ∈ own ∧ j ∈ own then 0 else -1)
        * (w i * (A i j * w j))
      = ∑ i, A i i * w i ^ 2 + (procs.map fun own => energyOf A (restrictTo own w)).sum
        - energyOf A w := by
    rw [sum_parts hprocs.1]
    unfold energyOf dotProduct Matrix.mulVec dotProduct
    rw [← Finset.sum_add_distrib, ← Finset.sum_sub_distrib]
    refine Finset.sum_congr rfl fun i _ => ?_
    have h1 : A i i * w i ^ 2 = ∑ j, if i = j then w i * (A i j * w j) else 0 := by
      rw [Finset.sum_ite_eq, if_pos (Finset.mem_univ i)]
      ring
    rw [h1, Finset.mul_sum, ← Finset.sum_add_distrib, ← Finset.sum_sub_distrib]
    refine Finset.sum_congr rfl fun j _ => ?_
    by_cases hij : i = j
    · subst hij
      obtain ⟨own, ho, hi⟩ := List.mem_flatten.1 (hprocs.2 i)
      rw [if_pos rfl, if_pos rfl, if_pos ⟨own, ho, hi, hi⟩]
      ring
    · rw [if_neg hij, if_neg hij]
      split <;> ring
  rw [e] at h
  linarith

/-- The condition of `C75_jacobi_iff` for Stieltjes matrices. -/
theorem jacobi_stieltjes {A : Matrix (Fin n) (Fin n) K} (hA : IsStieltjes A) (w : Fin n → K) (hw : w ≠ 0) :
    0 < w ⬝ᵥ (2 • Matrix.diagonal (fun i => A i i) - A).mulVec w := by
  have h := stieltjes_signs hA (fun i j => if i = j then 1 else -1) (fun i => if_pos rfl)
    (by
      intro i j
      split <;> simp) w hw
  have e : w ⬝ᵥ (2 • Matrix.diagonal (fun i => A i i) - A).mulVec w
      = ∑ i, ∑ j, (if i = j then (1 : K) else -1) * (w i * (A i j * w j)) := by
    unfold dotProduct Matrix.mulVec dotProduct
    refine Finset.sum_congr rfl fun i _ => ?_
    rw [Finset.mul_sum]
    refine Finset.sum_congr rfl fun j _ => ?_
    beta_reduce
    rw [two_smul, Matrix.sub_apply, Matrix.add_apply]
    by_cases hij : i = j
    · subst hij
      rw [if_pos rfl, Matrix.diagonal_apply_eq]
      ring
    · rw [if_neg hij, Matrix.diagonal_apply_ne _ hij]
      ring
  rw [e]
  exact h

end

end Mfmg
