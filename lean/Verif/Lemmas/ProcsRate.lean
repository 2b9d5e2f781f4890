import Verif.Spec.ProcsRate
import Verif.Lemmas.RelaxationProcs
import Verif.Lemmas.TwoLevel

/-!
# Symmetric Gauss-Seidel on several processes: what it takes from the energy
-/

set_option autoImplicit false

namespace Mfmg

open Spec

section

variable {K : Type} [Field K] {n : ℕ}

/-- After a forward sweep over the rows from the error `e` to `e'`: every residual comes from the rows that
follow. -/
def SweptRows (B : Matrix (Fin n) (Fin n) K) (e e' : Fin n → K) : List (Fin n) → Prop
  | [] => True
  | i :: rest => B.mulVec e' i = - (rest.map fun j => B i j * (e j - e' j)).sum ∧ SweptRows B e e' rest

theorem sweep_err_off (B : Matrix (Fin n) (Fin n) K) (rows : List (Fin n)) (e : Fin n → K) {i : Fin n}
    (hi : i ∉ rows) : rows.foldl (errRow B) e i = e i := by
  induction rows generalizing e with
  | nil => rfl
  | cons k rows ih =>
    rw [List.foldl_cons, ih _ fun h => hi (by simp [h])]
    have hik : i ≠ k := fun h => hi (by simp [h])
    simp [errRow, Pi.single_eq_of_ne hik]

/-- The difference of two errors that agree outside of distinct rows. -/
theorem mulVec_diff_rows (B : Matrix (Fin n) (Fin n) K) {rows : List (Fin n)} (hrows : rows.Nodup)
    (e e' : Fin n → K) (h : ∀ i, i ∉ rows → e' i = e i) (i : Fin n) :
    B.mulVec e' i = B.mulVec e i - (rows.map fun j => B i j * (e j - e' j)).sum := by
  rw [← List.sum_toFinset _ hrows, Finset.sum_subset (Finset.subset_univ rows.toFinset)]
  · unfold Matrix.mulVec dotProduct
    rw [← Finset.sum_sub_distrib]
    apply Finset.sum_congr rfl
    intro j _
    ring
  · intro j _ hj
    rw [h j fun h' => hj (List.mem_toFinset.2 h'), sub_self, mul_zero]

theorem sweptRows_congr (B : Matrix (Fin n) (Fin n) K) {e₁ e₂ e' : Fin n → K} (rows : List (Fin n))
    (h : ∀ i ∈ rows, e₁ i = e₂ i) (hs : SweptRows B e₁ e' rows) : SweptRows B e₂ e' rows := by
  induction rows with
  | nil => trivial
  | cons i rows ih =>
    refine ⟨?_, ih (fun j hj => h j (by simp [hj])) hs.2⟩
    rw [hs.1]
    congr 2
    apply List.map_congr_left
    intro j hj
    rw [h j (by simp [hj])]

theorem sweep_swept (B : Matrix (Fin n) (Fin n) K) (hd : ∀ i, B i i ≠ 0) (rows : List (Fin n))
    (hrows : rows.Nodup) (e : Fin n → K) : SweptRows B e (rows.foldl (errRow B) e) rows := by
  induction rows generalizing e with
  | nil => trivial
  | cons i rows ih =>
    obtain ⟨hi, hnd⟩ := List.nodup_cons.1 hrows
    rw [List.foldl_cons]
    have hsame : ∀ j ∈ rows, errRow B e i j = e j := by
      intro j hj
      have : j ≠ i := fun h => hi (h ▸ hj)
      simp [errRow, Pi.single_eq_of_ne this]
    refine ⟨?_, sweptRows_congr B rows hsame (ih hnd (errRow B e i))⟩
    have h0 : B.mulVec (errRow B e i) i = 0 := by
      unfold errRow
      rw [Matrix.mulVec_sub, Pi.sub_apply, mulVec_single', mul_div_cancel₀ _ (hd i), sub_self]
    rw [mulVec_diff_rows B hnd (errRow B e i) _ (fun k hk => sweep_err_off B rows _ hk) i, h0, zero_sub]
    congr 2
    apply List.map_congr_left
    intro j hj
    rw [hsame j hj]

theorem followers_congr (A B : Matrix (Fin n) (Fin n) K) {w w' : Fin n → K} (rows : List (Fin n))
    (h : ∀ i ∈ rows, w i = w' i) (hAB : ∀ i ∈ rows, ∀ j ∈ rows, A i j = B i j) :
    followers A w rows = followers B w' rows := by
  induction rows with
  | nil => rfl
  | cons i rows ih =>
    have h1 : (rows.map fun j => A i j * w j) = rows.map fun j => B i j * w' j := by
      apply List.map_congr_left
      intro j hj
      rw [h j (by simp [hj]), hAB i (by simp) j (by simp [hj])]
    rw [followers, followers, h1, hAB i (by simp) i (by simp),
      ih (fun j hj => h j (by simp [hj])) fun a ha b hb => hAB a (by simp [ha]) b (by simp [hb])]

end

section

variable {K : Type} [Field K] [LinearOrder K] [IsStrictOrderedRing K] {n : ℕ}

omit [IsStrictOrderedRing K] in
theorem energy_nonneg' {A : Matrix (Fin n) (Fin n) K} (hA : IsSpd A) (e : Fin n → K) :
    0 ≤ energyOf A e := by
  by_cases h : e = 0
  · simp [h, energyOf]
  · exact (hA.2 e h).le

theorem followers_nonneg {A : Matrix (Fin n) (Fin n) K} (hA : IsSpd A) (w : Fin n → K)
    (rows : List (Fin n)) : 0 ≤ followers A w rows := by
  induction rows with
  | nil => exact le_refl _
  | cons i rows ih => exact add_nonneg (div_nonneg (mul_self_nonneg _) (diag_pos hA i).le) ih

theorem processEnergy_nonneg {A : Matrix (Fin n) (Fin n) K} (hA : IsSpd A)
    (procs : List (List (Fin n))) (w : Fin n → K) : 0 ≤ processEnergy A procs w := by
  apply List.sum_nonneg
  intro x hx
  obtain ⟨own, _, rfl⟩ := List.mem_map.1 hx
  exact add_nonneg (energy_nonneg' hA _) (followers_nonneg hA _ _)

/-- What the sweep backward takes from the energy after a sweep forward. -/
theorem backward_energy {B : Matrix (Fin n) (Fin n) K} (hB : IsSpd B) (e e' : Fin n → K)
    (rows : List (Fin n)) (hrows : rows.Nodup) (hs : SweptRows B e e' rows) :
    energyOf B (rows.reverse.foldl (errRow B) e')
      = energyOf B e' - followers B (e - rows.reverse.foldl (errRow B) e') rows := by
  induction rows with
  | nil => simp [followers]
  | cons i rows ih =>
    obtain ⟨hi, hnd⟩ := List.nodup_cons.1 hrows
    have ih' := ih hnd hs.2
    rw [List.reverse_cons, List.foldl_append, List.foldl_cons, List.foldl_nil]
    set mid := rows.reverse.foldl (errRow B) e' with hmid
    rw [energy_errRow hB, ih', followers]
    have hsame : ∀ j ∈ rows, errRow B mid i j = mid j := by
      intro j hj
      have : j ≠ i := fun h => hi (h ▸ hj)
      simp [errRow, Pi.single_eq_of_ne this]
    have hres : B.mulVec mid i = - (rows.map fun j => B i j * (e - errRow B mid i) j).sum := by
      rw [mulVec_diff_rows B hnd e' mid (fun k hk => sweep_err_off B _ _ (by simpa using hk)) i, hs.1,
        ← neg_add', ← List.sum_map_add]
      congr 2
      apply List.map_congr_left
      intro j hj
      rw [Pi.sub_apply, hsame j hj]
      ring
    have hf : followers B (e - mid) rows = followers B (e - errRow B mid i) rows :=
      followers_congr B B rows (fun j hj => by rw [Pi.sub_apply, Pi.sub_apply, hsame j hj]) fun _ _ _ _ => rfl
    rw [hres, hf]
    ring

/-- The smoothing property of a sweep over some rows. -/
theorem rows_smoothing {A : Matrix (Fin n) (Fin n) K} (hA : IsSpd A) {rows : List (Fin n)}
    (hrows : rows.Nodup) {s : ℕ} (hs : ∀ i ∈ rows, (rows.toFinset.filter fun j => A i j ≠ 0).card ≤ s)
    (e : Fin n → K) :
    ∑ i ∈ rows.toFinset, A.mulVec e i * A.mulVec e i / A i i
      ≤ (s : K) * s * (energyOf A e - energyOf A (rows.foldl (errRow A) e)) := by
  obtain ⟨ρ, before, h1, h2⟩ := sweep_residuals hA rows hrows e
  set S := rows.toFinset with hS
  set N : Fin n → Finset (Fin n) := fun k => S.filter fun j => A k j ≠ 0 with hN
  have hgain : energyOf A e - energyOf A (rows.foldl (errRow A) e) = ∑ j ∈ S, ρ j * ρ j / A j j := by
    rw [h1]; ring
  rw [hgain]
  have hmem : ∀ k ∈ S, k ∈ rows := fun k hk => List.mem_toFinset.1 hk
  have hrow : ∀ k ∈ S, A.mulVec e k * A.mulVec e k / A k k ≤ (s : K) * ∑ j ∈ N k, ρ j * ρ j / A j j := by
    intro k hkS
    have hk := diag_pos hA k
    rw [div_le_iff₀ hk]
    have e1 : A.mulVec e k = ∑ j ∈ N k, if before k j then A k j * (ρ j / A j j) else 0 := by
      rw [h2 k (hmem k hkS)]
      symm
      apply Finset.sum_subset (Finset.filter_subset _ _)
      intro j hj hj'
      have : A k j = 0 := by
        by_contra hne
        exact hj' (Finset.mem_filter.2 ⟨hj, hne⟩)
      simp [this]
    have e2 := sq_sum_le_card_mul_sum_sq (s := N k)
      (f := fun j => if before k j then A k j * (ρ j / A j j) else 0)
    rw [← e1] at e2
    have e3 : ∑ j ∈ N k, (if before k j then A k j * (ρ j / A j j) else 0) ^ 2
        ≤ ∑ j ∈ N k, A k k * (ρ j * ρ j / A j j) := by
      apply Finset.sum_le_sum
      intro j _
      have hj := diag_pos hA j
      have hnn : 0 ≤ A k k * (ρ j * ρ j / A j j) :=
        mul_nonneg hk.le (div_nonneg (mul_self_nonneg _) hj.le)
      by_cases hb : before k j
      · rw [if_pos hb]
        have h3 := mul_le_mul_of_nonneg_right (entry_sq_le hA k j) (mul_self_nonneg (ρ j / A j j))
        have h4 : A k k * A j j * (ρ j / A j j * (ρ j / A j j)) = A k k * (ρ j * ρ j / A j j) := by
          field_simp
        rw [h4] at h3
        calc (A k j * (ρ j / A j j)) ^ 2 = A k j * A k j * (ρ j / A j j * (ρ j / A j j)) := by ring
          _ ≤ _ := h3
      · rw [if_neg hb]
        simpa using hnn
    have hcard : ((N k).card : K) ≤ s := by exact_mod_cast hs k (hmem k hkS)
    have hnn2 : 0 ≤ ∑ j ∈ N k, A k k * (ρ j * ρ j / A j j) := Finset.sum_nonneg fun j _ =>
      mul_nonneg hk.le (div_nonneg (mul_self_nonneg _) (diag_pos hA j).le)
    calc A.mulVec e k * A.mulVec e k = A.mulVec e k ^ 2 := by ring
      _ ≤ (N k).card * ∑ j ∈ N k, (if before k j then A k j * (ρ j / A j j) else 0) ^ 2 := e2
      _ ≤ (N k).card * ∑ j ∈ N k, A k k * (ρ j * ρ j / A j j) :=
        mul_le_mul_of_nonneg_left e3 (Nat.cast_nonneg _)
      _ ≤ s * ∑ j ∈ N k, A k k * (ρ j * ρ j / A j j) := mul_le_mul_of_nonneg_right hcard hnn2
      _ = s * (∑ j ∈ N k, ρ j * ρ j / A j j) * A k k := by rw [← Finset.mul_sum]; ring
  have hcols : ∑ k ∈ S, ∑ j ∈ N k, ρ j * ρ j / A j j ≤ s * ∑ j ∈ S, ρ j * ρ j / A j j := by
    have : ∑ k ∈ S, ∑ j ∈ N k, ρ j * ρ j / A j j = ∑ j ∈ S, ∑ k ∈ N j, ρ j * ρ j / A j j := by
      apply Finset.sum_comm'
      intro k j
      have : A j k = A k j := congrFun (congrFun hA.1 k) j
      simp only [hN, Finset.mem_filter, this]
      tauto
    rw [this, Finset.mul_sum]
    apply Finset.sum_le_sum
    intro j hj
    rw [Finset.sum_const, nsmul_eq_mul]
    apply mul_le_mul_of_nonneg_right _ (div_nonneg (mul_self_nonneg _) (diag_pos hA j).le)
    exact_mod_cast hs j (hmem j hj)
  calc ∑ i ∈ S, A.mulVec e i * A.mulVec e i / A i i
      ≤ ∑ k ∈ S, (s : K) * ∑ j ∈ N k, ρ j * ρ j / A j j := Finset.sum_le_sum hrow
    _ = s * ∑ k ∈ S, ∑ j ∈ N k, ρ j * ρ j / A j j := by rw [Finset.mul_sum]
    _ ≤ s * (s * ∑ j ∈ S, ρ j * ρ j / A j j) := mul_le_mul_of_nonneg_left hcols (Nat.cast_nonneg _)
    _ = _ := by ring

/-- Symmetric Gauss-Seidel on one process: the product of the correction with the residual is the energy of
the correction with its coupling to the following rows, and it bounds the residual. -/
theorem local_sgs_energy {A : Matrix (Fin n) (Fin n) K} (hA : IsSpd A) {own : List (Fin n)} (hown : own.Nodup)
    (r : Fin n → K) :
    localVmult .symmetricGaussSeidel A own r ⬝ᵥ r
      = energyOf A (localVmult .symmetricGaussSeidel A own r)
        + followers A (localVmult .symmetricGaussSeidel A own r) own ∧
    ∀ {s : ℕ}, AtMostPerRow A s → ∑ i ∈ own.toFinset, r i * r i / A i i
      ≤ (s : K) * s * (localVmult .symmetricGaussSeidel A own r ⬝ᵥ r) := by
  set B := ownMatrix A own with hB
  have hspd : IsSpd B := ownMatrix_spd hA own
  set z := localVmult .symmetricGaussSeidel A own r with hz
  have hzr : restrictTo own z = z := by
    funext i
    unfold restrictTo
    split
    · rfl
    · next hi => exact (localVmult_off _ A own r hi).symm
  have hEz : energyOf A z = energyOf B z := by
    rw [← hzr, hB, ownMatrix_restrict]
  set u := B⁻¹.mulVec r with hu
  have hur : B.mulVec u = r := mulVec_inv (spd_det hspd) r
  have hzs : z = (own ++ own.reverse).foldl (relaxFull B r) 0 := by
    rw [hz, localVmult, sweep_own A hown r _ (by simp)]
  have herr : u - z = own.reverse.foldl (errRow B) (own.foldl (errRow B) u) := by
    rw [hzs, err_sweep B r u hur, sub_zero, List.foldl_append]
  have hT : u ⬝ᵥ B.mulVec (u - z) = energyOf B (own.foldl (errRow B) u) := by
    rw [herr, ← errSweep_symm hspd.1]
    rfl
  have hback := backward_energy hspd u _ own hown
    (sweep_swept B (fun i => (diag_pos hspd i).ne') own hown u)
  rw [← herr, sub_sub_cancel] at hback
  have hg := energy_gain hspd.1 u z
  have h1 : u ⬝ᵥ B.mulVec (u - z) = energyOf B u - z ⬝ᵥ r := by
    rw [Matrix.mulVec_sub, dotProduct_sub, form_symm hspd.1 u z, hur]
    unfold energyOf
    rw [hur]
  have h2 : energyOf B z = z ⬝ᵥ B.mulVec z := rfl
  rw [hur] at hg
  have hBA : ∀ i ∈ own, ∀ j ∈ own, A i j = B i j := by
    intro i hi j hj
    simp [hB, ownMatrix, hi, hj]
  have hf : followers A z own = followers B z own := followers_congr A B own (fun _ _ => rfl) hBA
  refine ⟨by rw [hEz, hf]; linarith, ?_⟩
  intro s hs
  have hsm := rows_smoothing hspd hown (s := s) (by
    intro i hi
    refine le_trans (Finset.card_le_card ?_) (hs i)
    intro j hj
    obtain ⟨hj1, hj2⟩ := Finset.mem_filter.1 hj
    rw [← hBA i hi j (List.mem_toFinset.1 hj1)] at hj2
    exact Finset.mem_filter.2 ⟨Finset.mem_univ j, hj2⟩) u
  rw [hur, ← hT, h1] at hsm
  have e1 : ∑ i ∈ own.toFinset, r i * r i / A i i = ∑ i ∈ own.toFinset, r i * r i / B i i := by
    apply Finset.sum_congr rfl
    intro i hi
    have := List.mem_toFinset.1 hi
    rw [hBA i this i this]
  rw [e1]
  refine hsm.trans (le_of_eq ?_)
  ring

variable {A : Matrix (Fin n) (Fin n) K} (hA : IsSpd A) {procs : List (List (Fin n))}
  (hprocs : ListsAll procs.flatten)

include hA hprocs

/-- Symmetric Gauss-Seidel on several processes: the product of the correction with the residual is the energy
of the correction on the processes. -/
theorem procs_sgs_energy (r : Fin n → K) :
    relaxVmult .symmetricGaussSeidel A procs r ⬝ᵥ r
      = processEnergy A procs (relaxVmult .symmetricGaussSeidel A procs r) := by
  rw [dot_procs hprocs, processEnergy]
  congr 1
  apply List.map_congr_left
  intro own ho
  rw [restrict_relaxVmult _ A hprocs r ho, (local_sgs_energy hA (procs_nodup hprocs ho) r).1]
  congr 1
  exact followers_congr A A own (fun i hi => (relaxVmult_own _ A hprocs r ho hi).symm) fun _ _ _ _ => rfl

theorem procs_sgs_smoothing {s : ℕ} (hs : AtMostPerRow A s) (r : Fin n → K) :
    ∑ i, r i * r i / A i i ≤ (s : K) * s * (relaxVmult .symmetricGaussSeidel A procs r ⬝ᵥ r) := by
  rw [sum_procs hprocs, dot_procs hprocs, ← List.sum_map_mul_left]
  apply List.sum_le_sum
  intro own ho
  rw [restrict_relaxVmult _ A hprocs r ho, ← List.sum_toFinset _ (procs_nodup hprocs ho)]
  exact (local_sgs_energy hA (procs_nodup hprocs ho) r).2 hs

/-- What one smoothing step takes from the energy, exactly. -/
theorem procs_sgs_gain (e : Fin n → K) :
    energyOf A (e - relaxVmult .symmetricGaussSeidel A procs (A.mulVec e))
      = energyOf A e - (2 * processEnergy A procs (relaxVmult .symmetricGaussSeidel A procs (A.mulVec e))
        - energyOf A (relaxVmult .symmetricGaussSeidel A procs (A.mulVec e))) := by
  have hg := energy_gain hA.1 e (relaxVmult .symmetricGaussSeidel A procs (A.mulVec e))
  rw [← procs_sgs_energy hA hprocs (A.mulVec e)]
  have h2 : energyOf A (relaxVmult .symmetricGaussSeidel A procs (A.mulVec e))
    = relaxVmult .symmetricGaussSeidel A procs (A.mulVec e) ⬝ᵥ
      A.mulVec (relaxVmult .symmetricGaussSeidel A procs (A.mulVec e)) := rfl
  rw [hg, h2]

/-- The corrections are all vectors. -/
theorem procs_sgs_surjective (w : Fin n → K) :
    ∃ e, relaxVmult .symmetricGaussSeidel A procs (A.mulVec e) = w := by
  have hinj : Function.Injective (relaxLin .symmetricGaussSeidel A procs) := by
    rw [injective_iff_map_eq_zero]
    intro r hr
    funext i
    obtain ⟨own, ho, hio⟩ := List.mem_flatten.1 (hprocs.2 i)
    refine (local_sgs hA (procs_nodup hprocs ho) r).2 ?_ i hio
    rw [← restrict_relaxVmult _ A hprocs r ho]
    have : relaxVmult .symmetricGaussSeidel A procs r = 0 := hr
    rw [this]
    funext j
    simp [restrictTo]
  obtain ⟨r, hr⟩ := LinearMap.injective_iff_surjective.1 hinj w
  refine ⟨A⁻¹.mulVec r, ?_⟩
  rw [mulVec_inv (spd_det hA)]
  exact hr

/-- The smoothing property on several processes. -/
theorem procs_smoothing {s : ℕ} (hs : AtMostPerRow A s) {c : K} (hc : c ≤ 2) (hw : CoupledAtMost A procs c)
    (e : Fin n → K) :
    (2 - c) * ∑ i, A.mulVec e i * A.mulVec e i / A i i ≤ (s : K) * s *
      (energyOf A e - energyOf A (e - relaxVmult .symmetricGaussSeidel A procs (A.mulVec e))) := by
  have h1 := procs_sgs_smoothing hA hprocs hs (A.mulVec e)
  rw [procs_sgs_energy hA hprocs] at h1
  have h2 := hw (relaxVmult .symmetricGaussSeidel A procs (A.mulVec e))
  rw [procs_sgs_gain hA hprocs e]
  set p := processEnergy A procs (relaxVmult .symmetricGaussSeidel A procs (A.mulVec e))
  set w := energyOf A (relaxVmult .symmetricGaussSeidel A procs (A.mulVec e))
  have h3 := mul_le_mul_of_nonneg_left h1 (sub_nonneg.2 hc)
  have h4 : (s : K) * s * ((2 - c) * p) ≤ (s : K) * s * (2 * p - w) :=
    mul_le_mul_of_nonneg_left (by linarith) (mul_nonneg (Nat.cast_nonneg _) (Nat.cast_nonneg _))
  have h5 : energyOf A e - (energyOf A e - (2 * p - w)) = 2 * p - w := by ring
  rw [h5]
  refine h3.trans (le_trans (le_of_eq ?_) h4)
  ring

end

end Mfmg
