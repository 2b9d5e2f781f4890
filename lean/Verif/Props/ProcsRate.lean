import Verif.Lemmas.ProcsRate
import Verif.Props.RelaxationProcs
import Verif.Props.CgRate

/-!
# The rate of convergence on several processes (C94)
-/

set_option autoImplicit false

namespace Mfmg

open Spec

section

variable {K : Type} [Field K] [LinearOrder K] [IsStrictOrderedRing K]

/-- An error whose residual is orthogonal to the coarse vectors is reduced by one smoothing step. -/
theorem procs_rate {m n : ℕ} {A : Matrix (Fin n) (Fin n) K} (hA : IsSpd A) {procs : List (List (Fin n))}
    (hprocs : ListsAll procs.flatten) {s : ℕ} (hs : AtMostPerRow A s) {c : K} (hc : c ≤ 2)
    (hw : CoupledAtMost A procs c) {R : Matrix (Fin m) (Fin n) K} {kappa : K}
    (hk : 0 < kappa) (hR : Approximates R A kappa) (e : Fin n → K) (he : R.mulVec (A.mulVec e) = 0) :
    (2 - c) * energyOf A e ≤ (s : K) * s * kappa *
      (energyOf A e - energyOf A (e - relaxVmult .symmetricGaussSeidel A procs (A.mulVec e))) := by
  have h5 := procs_smoothing hA hprocs hs hc hw e
  by_cases he0 : e = 0
  · have hz : relaxVmult .symmetricGaussSeidel A procs (A.mulVec 0) = (0 : Fin n → K) := by
      rw [Matrix.mulVec_zero]
      exact map_zero (relaxLin .symmetricGaussSeidel A procs)
    rw [he0, hz, sub_zero, sub_self, mul_zero]
    simp [energyOf]
  have hepos : 0 < energyOf A e := hA.2 e he0
  obtain ⟨y, hy⟩ := hR e
  have h1 : A.mulVec e ⬝ᵥ (e - R.transpose.mulVec y) = energyOf A e := by
    rw [dotProduct_sub, dotProduct_comm (A.mulVec e) e]
    have : A.mulVec e ⬝ᵥ R.transpose.mulVec y = R.mulVec (A.mulVec e) ⬝ᵥ y := by
      rw [Matrix.dotProduct_mulVec, Matrix.vecMul_transpose]
    rw [this, he, zero_dotProduct, sub_zero]
    rfl
  have h2 := weighted_cauchy (fun i => A i i) (A.mulVec e) (e - R.transpose.mulVec y)
    (fun i => diag_pos hA i)
  rw [h1] at h2
  set ρ := ∑ i, A.mulVec e i * A.mulVec e i / A i i with hρ
  have hρ0 : 0 ≤ ρ := diag_inv_sum_nonneg hA Finset.univ (A.mulVec e)
  have h3 : energyOf A e * energyOf A e ≤ ρ * (kappa * energyOf A e) :=
    h2.trans (mul_le_mul_of_nonneg_left hy hρ0)
  have h4 : energyOf A e ≤ ρ * kappa := by
    have : energyOf A e * energyOf A e ≤ ρ * kappa * energyOf A e := by rw [mul_assoc]; exact h3
    exact le_of_mul_le_mul_right this hepos
  have h6 := mul_le_mul_of_nonneg_right h5 hk.le
  have h7 := mul_le_mul_of_nonneg_left h4 (sub_nonneg.2 hc)
  linarith

/-- One smoothing step does not increase the energy. -/
theorem procs_decrease {n : ℕ} {A : Matrix (Fin n) (Fin n) K} (hA : IsSpd A) {procs : List (List (Fin n))}
    (hprocs : ListsAll procs.flatten) {c : K} (hc : c ≤ 2) (hw : CoupledAtMost A procs c) (e : Fin n → K) :
    energyOf A (e - relaxVmult .symmetricGaussSeidel A procs (A.mulVec e)) ≤ energyOf A e := by
  rw [procs_sgs_gain hA hprocs]
  have h1 := hw (relaxVmult .symmetricGaussSeidel A procs (A.mulVec e))
  have h2 := mul_le_mul_of_nonneg_right hc
    (processEnergy_nonneg hA procs (relaxVmult .symmetricGaussSeidel A procs (A.mulVec e)))
  linarith

variable {dims : ℕ → ℕ} {procs : ∀ l, List (List (Fin (dims l)))} (hprocs : ∀ l, ListsAll (procs l).flatten)
  {A : Matrix (Fin (dims 0)) (Fin (dims 0)) K} (hA : IsSpd A)
  {R : ∀ l, Matrix (Fin (dims (l + 1))) (Fin (dims l)) K} (hR : ∀ l, IndependentRows (R l))

include hprocs hA hR

theorem procs_cycle_rate {L s : ℕ} {kappa : K} (hk : 0 < kappa) {c : K} (hc : c < 2)
    (hone : 2 - c ≤ (s : K) * s * kappa)
    (hs : ∀ l, l + 1 < L → AtMostPerRow (coarseMatrix dims A R l) s)
    (hw : ∀ l, l + 1 < L → CoupledAtMost (coarseMatrix dims A R l) (procs l) c)
    (happrox : ∀ l, l + 1 < L → StronglyApproximates (R l) (coarseMatrix dims A R l) kappa)
    (n : ℕ) (hn : 0 < n) (hL : 0 < L) (b x xs : Fin (dims 0) → K) (hxs : A.mulVec xs = b) :
    energyOf A (xs - cycle (matrixData .symmetricGaussSeidel dims procs A R) n (L - 1) 0 b x)
      ≤ (1 - (2 - c) / ((s : K) * s * kappa)) * energyOf A (xs - x) := by
  set D := matrixData .symmetricGaussSeidel dims procs A R with hD
  have hen : ∀ l (e : Fin (dims l) → K), energy D (fun l => dotForm (dims l)) l e
      = energyOf (coarseMatrix dims A R l) e := fun l e =>
    dotProduct_comm ((coarseMatrix dims A R l).mulVec e) e
  have hchain := matrixData_chain .symmetricGaussSeidel dims procs A hA R hR L
  have hspd := coarseMatrix_spd dims A hA R hR
  have hpos : 0 < (s : K) * s * kappa := by linarith
  have hmain := cycle_rate (δ := (2 - c) / ((s : K) * s * kappa)) hchain (by
      intro l hl e
      rw [← hD, hen, hen]
      exact procs_decrease (hspd l) (hprocs l) hc.le (hw l hl) e)
    (by rw [div_le_one hpos]; exact hone) (by
      intro l hl e z hz
      rw [← hD] at hz ⊢
      obtain ⟨y, hy⟩ := happrox l hl e
      have e1 := correction_energy hchain l hl e z z hz
      have e2 := correction_energy hchain l hl e z y hz
      have h0 : energy D (fun l => dotForm (dims l)) (l + 1) (z - z) = 0 := by
        rw [sub_self]; unfold energy; simp
      have h3 : 0 ≤ energy D (fun l => dotForm (dims l)) (l + 1) (z - y) := hchain.psd (l + 1) hl (z - y)
      rw [← hD] at e1 e2
      rw [h0] at e1
      have h4 : energy D (fun l => dotForm (dims l)) l (e - D.P l z)
          ≤ energy D (fun l => dotForm (dims l)) l (e - D.P l y) := by linarith
      rw [hen l (e - D.P l y)] at h4
      have h5 := h4.trans hy
      have h6 := procs_smoothing (hspd l) (hprocs l) (hs l hl) hc.le (hw l hl) e
      have h7 := mul_le_mul_of_nonneg_left h5 (sub_nonneg.2 hc.le)
      have h8 := mul_le_mul_of_nonneg_left h6 hk.le
      rw [hen l (e - D.B l (D.A l e)), hen l e]
      have h9 : (2 - c) / ((s : K) * s * kappa) * energy D (fun l => dotForm (dims l)) l (e - D.P l z)
          ≤ energyOf (coarseMatrix dims A R l) e - energyOf (coarseMatrix dims A R l)
            (e - D.B l (D.A l e)) := by
        rw [div_mul_eq_mul_div, div_le_iff₀ hpos]
        refine h7.trans ?_
        refine le_trans (le_of_eq ?_) (h8.trans (le_of_eq ?_))
        · ring
        · change _ = (energyOf (coarseMatrix dims A R l) e - energyOf (coarseMatrix dims A R l)
            (e - relaxVmult .symmetricGaussSeidel (coarseMatrix dims A R l) (procs l)
              ((coarseMatrix dims A R l).mulVec e))) * _
          ring
      linarith) n hn (L - 1) 0 (by omega) b x xs hxs
  rw [← hD, hen, hen] at hmain
  exact hmain

omit [IsStrictOrderedRing K] in
theorem procs_symmetric [IsStrictOrderedRing K] (L : ℕ) : Symmetric
    (matrixData .symmetricGaussSeidel dims procs A R) (fun l => dotForm (dims l)) L := by
  have hchain := matrixData_chain .symmetricGaussSeidel dims procs A hA R hR L
  have hspd := coarseMatrix_spd dims A hA R hR
  refine ⟨hchain.form, hchain.A, ?_, hchain.RP, ?_⟩
  · intro l _ x y
    exact C75_processes_symmetric (procs l) (hprocs l) _ (hspd l) x y
  · intro l _ x y
    have hi : ((coarseMatrix dims A R l)⁻¹).transpose = (coarseMatrix dims A R l)⁻¹ := by
      rw [Matrix.transpose_nonsing_inv, (hspd l).1]
    change (coarseMatrix dims A R l)⁻¹.mulVec x ⬝ᵥ y = x ⬝ᵥ (coarseMatrix dims A R l)⁻¹.mulVec y
    rw [dotProduct_comm, form_symm hi]

theorem procs_convergent {c : K} (hc : c ≤ 2) (L l : ℕ) (hl : l + 1 < L)
    (hw : CoupledAtMost (coarseMatrix dims A R l) (procs l) c) : SmootherConvergent
    (matrixData .symmetricGaussSeidel dims procs A R) (fun l => dotForm (dims l)) l := by
  have hspd := coarseMatrix_spd dims A hA R hR
  have hsym := procs_symmetric hprocs hA hR L
  set D := matrixData .symmetricGaussSeidel dims procs A R with hD
  intro x
  set w := D.B l x with hwd
  have h1 : dotForm (dims l) (2 • w - D.B l (D.A l w)) x
      = 2 * (w ⬝ᵥ x) - w ⬝ᵥ (coarseMatrix dims A R l).mulVec w := by
    have := hsym.B l hl (D.A l w) x
    rw [map_sub, LinearMap.sub_apply, this, ← hwd, map_nsmul, LinearMap.smul_apply]
    change 2 • (w ⬝ᵥ x) - (coarseMatrix dims A R l).mulVec w ⬝ᵥ w = _
    rw [dotProduct_comm w ((coarseMatrix dims A R l).mulVec w), two_nsmul, two_mul]
  change 0 ≤ dotForm (dims l) (2 • w - D.B l (D.A l w)) x
  rw [h1]
  have h2 : w ⬝ᵥ x = processEnergy (coarseMatrix dims A R l) (procs l) w :=
    procs_sgs_energy (hspd l) (hprocs l) x
  have h3 : w ⬝ᵥ (coarseMatrix dims A R l).mulVec w
      ≤ c * processEnergy (coarseMatrix dims A R l) (procs l) w := hw w
  have h4 := mul_le_mul_of_nonneg_right hc (processEnergy_nonneg (hspd l) (procs l) w)
  rw [h2]
  linarith

theorem procs_lower {L s : ℕ} {kappa : K} (hk : 0 < kappa) {c : K} (hc : c < 2)
    (hone : 2 - c ≤ (s : K) * s * kappa)
    (hs : ∀ l, l + 1 < L → AtMostPerRow (coarseMatrix dims A R l) s)
    (hw : ∀ l, l + 1 < L → CoupledAtMost (coarseMatrix dims A R l) (procs l) c)
    (happrox : ∀ l, l + 1 < L → Approximates (R l) (coarseMatrix dims A R l) kappa)
    (n : ℕ) (hn : 0 < n) (hL : 0 < L) (u : Fin (dims 0) → K) :
    ((2 - c) / ((s : K) * s * kappa)) ^ (L - 1) * energyOf A u ≤ A.mulVec u ⬝ᵥ
      M (matrixData .symmetricGaussSeidel dims procs A R) n (L - 1) 0 (A.mulVec u) := by
  have hspd := coarseMatrix_spd dims A hA R hR
  have hchain := matrixData_chain .symmetricGaussSeidel dims procs A hA R hR L
  set D := matrixData .symmetricGaussSeidel dims procs A R with hD
  have hen : ∀ l (e : Fin (dims l) → K), energy D (fun l => dotForm (dims l)) l e
      = energyOf (coarseMatrix dims A R l) e := fun l e =>
    dotProduct_comm ((coarseMatrix dims A R l).mulVec e) e
  have hpos : 0 < (s : K) * s * kappa := by linarith
  have hmain := M_lower (δ := (2 - c) / ((s : K) * s * kappa)) hchain (procs_symmetric hprocs hA hR L)
    (fun l hl => procs_convergent hprocs hA hR hc.le L l hl (hw l hl))
    (div_nonneg (by linarith) hpos.le)
    (by rw [div_le_one hpos]; exact hone) n (by
      intro l hl v hv
      obtain ⟨m, rfl⟩ : ∃ m, n = m + 1 := ⟨n - 1, by omega⟩
      have hmono : ∀ (k : ℕ) (v : Fin (dims l) → K), energy D (fun l => dotForm (dims l)) l ((S D l ^ k) v)
          ≤ energy D (fun l => dotForm (dims l)) l v := by
        intro k v
        induction k with
        | zero => simp
        | succ k ih =>
          rw [pow_succ', Module.End.mul_apply]
          refine le_trans ?_ ih
          change energy D _ l ((S D l ^ k) v - D.B l (D.A l ((S D l ^ k) v))) ≤ _
          rw [hen, hen]
          exact procs_decrease (hspd l) (hprocs l) hc.le (hw l hl) _
      rw [pow_succ, Module.End.mul_apply]
      refine (hmono m _).trans ?_
      change energy D _ l (v - D.B l (D.A l v)) ≤ _
      have hr := procs_rate (hspd l) (hprocs l) (hs l hl) hc.le (hw l hl) hk (happrox l hl) v hv
      rw [hen, hen]
      have h3 : (2 - c) / ((s : K) * s * kappa) * energyOf (coarseMatrix dims A R l) v
          ≤ energyOf (coarseMatrix dims A R l) v - energyOf (coarseMatrix dims A R l)
            (v - D.B l (D.A l v)) := by
        rw [div_mul_eq_mul_div, div_le_iff₀ hpos]
        exact hr.trans (le_of_eq (mul_comm _ _))
      linarith) (L - 1) 0 (by omega) u
  rw [hen] at hmain
  rw [dotProduct_comm]
  exact hmain

end

section

variable {K : Type} [Field K] [LinearOrder K] [IsStrictOrderedRing K]

/-- **C94**, one smoothing step of symmetric Gauss-Seidel on any number of processes: it decreases the energy
of every error if and only if the energy of every vector is less than twice its energy on the processes. -/
theorem C94_smoother {n : ℕ} (procs : List (List (Fin n))) (hprocs : ListsAll procs.flatten)
    (A : Matrix (Fin n) (Fin n) K) (hA : IsSpd A) :
    (∀ b x xs : Fin n → K, A.mulVec xs = b → x ≠ xs →
      energyOf A (xs - dealiiSmootherApply .symmetricGaussSeidel procs (matrixOp A) b x)
        < energyOf A (xs - x)) ↔
    ∀ w : Fin n → K, w ≠ 0 → energyOf A w < 2 * processEnergy A procs w := by
  constructor
  · intro h w hw
    obtain ⟨e, he⟩ := procs_sgs_surjective hA hprocs w
    have hne : (0 : Fin n → K) ≠ e := by
      rintro rfl
      apply hw
      rw [← he, Matrix.mulVec_zero]
      exact map_zero (relaxLin .symmetricGaussSeidel A procs)
    have h1 := h (A.mulVec e) 0 e rfl hne
    rw [err_smoother .symmetricGaussSeidel procs A _ 0 e rfl, sub_zero] at h1
    have h2 := procs_sgs_gain hA hprocs e
    rw [he] at h1 h2
    linarith
  · intro h b x xs hxs hx
    rw [err_smoother .symmetricGaussSeidel procs A b x xs hxs]
    have hne : relaxVmult .symmetricGaussSeidel A procs (A.mulVec (xs - x)) ≠ 0 := by
      intro h0
      have hr : A.mulVec (xs - x) = 0 := by
        funext i
        obtain ⟨own, ho, hio⟩ := List.mem_flatten.1 (hprocs.2 i)
        refine (local_sgs hA (procs_nodup hprocs ho) _).2 ?_ i hio
        rw [← restrict_relaxVmult _ A hprocs _ ho, h0]
        funext j
        simp [restrictTo]
      exact spd_mulVec_ne hA (sub_ne_zero.2 (Ne.symm hx)) hr
    have h1 := h _ hne
    rw [procs_sgs_gain hA hprocs]
    linarith

/-- **C94**, standalone: on any number of processes, with symmetric Gauss-Seidel smoothing (also by default), at
least one smoothing step, restriction matrices of full rank that approximate errors strongly with the constant
`kappa`, at most `s` entries per row and, on every level but the coarsest, processes coupled with a factor `c`
less than two, every cycle multiplies the energy of the error at most by `1 - (2 - c) / (s² kappa)`: the bound
depends on neither the number of processes nor the number of levels or unknowns.  Missing: processes coupled
with the factor two, where no such bound exists (`C94_one_row_violated`). -/
theorem C94_rate_partial (debug timer : Bool) (p : Params) (type : Option (List Char))
    (htype : dealiiSmoother debug true type = .ok .symmetricGaussSeidel) (dims : ℕ → ℕ)
    (procs : ∀ l, List (List (Fin (dims l)))) (hprocs : ∀ l, ListsAll (procs l).flatten)
    (A : Matrix (Fin (dims 0)) (Fin (dims 0)) K) (hA : IsSpd A)
    (R : ∀ l, Matrix (Fin (dims (l + 1))) (Fin (dims l)) K) (hR : ∀ l, IndependentRows (R l))
    (s : ℕ) (hs : ∀ l, l + 1 < (p.maxLevels.getD 2).toNat → AtMostPerRow (coarseMatrix dims A R l) s)
    (c : K) (hc : c < 2)
    (hw : ∀ l, l + 1 < (p.maxLevels.getD 2).toNat → CoupledAtMost (coarseMatrix dims A R l) (procs l) c)
    (kappa : K) (hk : 0 < kappa) (hone : 2 - c ≤ (s : K) * s * kappa)
    (happrox : ∀ l, l + 1 < (p.maxLevels.getD 2).toNat →
      StronglyApproximates (R l) (coarseMatrix dims A R l) kappa)
    (solve : ∀ l, Matrix (Fin (dims l)) (Fin (dims l)) K → (Fin (dims l) → K) → Fin (dims l) → K)
    (hsolve : ∀ l, SolvesExactly (solve l)) (hlev : 2 ≤ p.maxLevels.getD 2)
    (hfast : p.fastAp.getD false = false) (hpre : p.isPreconditioner = some false)
    (hsteps : 0 < toUnsigned (p.nSmoothingSteps.getD 1)) :
    ∃ H, (buildHierarchy debug timer (some p)
        (.ok (matrixHelpers debug type dims procs A R solve))).result = .ok H ∧
      ∀ fresh (x b xs : Fin (dims 0) → K), A.mulVec xs = b →
        ∃ y, (H.vmult fresh x b).result = .ok y ∧
          energyOf A (xs - y) ≤ (1 - (2 - c) / ((s : K) * s * kappa)) * energyOf A (xs - x) := by
  obtain ⟨H, hH, hlin, hL, hp, hn⟩ := matrixHelpers_build debug timer p type _ _ htype rfl
    dims procs A hA R hR solve hsolve (by omega) hfast
  refine ⟨H, hH, ?_⟩
  intro fresh x b xs hxs
  have hp' : H.isPreconditioner = false := by rw [hp, hpre]; rfl
  have hL2 : 2 ≤ H.numLevels := by omega
  refine ⟨_, C04_cycle_is_textbook H _ hlin fresh x b (Or.inr hL2), ?_⟩
  rw [hp']
  exact procs_cycle_rate hprocs hA hR hk hc hone (fun l hl => hs l (by omega)) (fun l hl => hw l (by omega))
    (fun l hl => happrox l (by omega)) H.nSmoothingSteps (by omega) (by omega) b x xs hxs

/-- **C94**, as a preconditioner: under the same conditions the cycle is spectrally equivalent to the inverse of
the matrix with the ratio `2 s² kappa / (2 - c)`. -/
theorem C94_preconditioner_partial (debug timer : Bool) (p : Params) (type : Option (List Char))
    (htype : dealiiSmoother debug true type = .ok .symmetricGaussSeidel) (dims : ℕ → ℕ)
    (procs : ∀ l, List (List (Fin (dims l)))) (hprocs : ∀ l, ListsAll (procs l).flatten)
    (A : Matrix (Fin (dims 0)) (Fin (dims 0)) K) (hA : IsSpd A)
    (R : ∀ l, Matrix (Fin (dims (l + 1))) (Fin (dims l)) K) (hR : ∀ l, IndependentRows (R l))
    (s : ℕ) (hs : ∀ l, l + 1 < (p.maxLevels.getD 2).toNat → AtMostPerRow (coarseMatrix dims A R l) s)
    (c : K) (hc : c < 2)
    (hw : ∀ l, l + 1 < (p.maxLevels.getD 2).toNat → CoupledAtMost (coarseMatrix dims A R l) (procs l) c)
    (kappa : K) (hk : 0 < kappa) (hone : 2 - c ≤ (s : K) * s * kappa)
    (happrox : ∀ l, l + 1 < (p.maxLevels.getD 2).toNat →
      StronglyApproximates (R l) (coarseMatrix dims A R l) kappa)
    (solve : ∀ l, Matrix (Fin (dims l)) (Fin (dims l)) K → (Fin (dims l) → K) → Fin (dims l) → K)
    (hsolve : ∀ l, SolvesExactly (solve l)) (hlev : 0 < p.maxLevels.getD 2)
    (hfast : p.fastAp.getD false = false) (hpre : p.isPreconditioner.getD true = true)
    (hsteps : 0 < toUnsigned (p.nSmoothingSteps.getD 1)) :
    ∃ H, (buildHierarchy debug timer (some p)
        (.ok (matrixHelpers debug type dims procs A R solve))).result = .ok H ∧
      ∀ fresh (x b u : Fin (dims 0) → K), A.mulVec u = b →
        ∃ y, (H.vmult fresh x b).result = .ok y ∧
          energyOf A u ≤ 2 * ((s : K) * s * kappa / (2 - c)) * (b ⬝ᵥ y) ∧ b ⬝ᵥ y ≤ energyOf A u := by
  obtain ⟨H, hH, hlin, hL, hp, hn⟩ := matrixHelpers_build debug timer p type _ _ htype rfl
    dims procs A hA R hR solve hsolve hlev hfast
  refine ⟨H, hH, ?_⟩
  intro fresh x b u hu
  have hp' : H.isPreconditioner = true := by rw [hp, hpre]
  have hpos : 0 < (s : K) * s * kappa := by linarith
  have hd : 0 < 2 - c := by linarith
  refine ⟨_, vmult_pre H _ hlin hp' fresh x b, ?_, ?_⟩
  · have hrate := procs_cycle_rate hprocs hA hR hk hc hone
      (fun l hl => hs l (by omega)) (fun l hl => hw l (by omega)) (fun l hl => happrox l (by omega))
      H.nSmoothingSteps (by omega) (L := H.numLevels) (by omega) b 0 u hu
    rw [sub_zero, ← hu] at hrate
    have hlow := strong_lower hA hR (by rw [div_le_one hpos]; exact hone)
      H.nSmoothingSteps (L := H.numLevels) (by omega) u hrate
    rw [cycle_zero, hu, div_div, div_mul_eq_mul_div, div_le_iff₀ (by positivity)] at hlow
    rw [mul_div_assoc', div_mul_eq_mul_div, le_div_iff₀ hd]
    linarith
  · have hup := M_upper (procs_symmetric hprocs hA hR H.numLevels)
      (matrixData_variational hA hR .symmetricGaussSeidel _ H.numLevels (by omega))
      H.nSmoothingSteps (H.numLevels - 1) 0 (by omega) u
    have hen : energy (matrixData .symmetricGaussSeidel dims procs A R)
        (fun l => dotForm (dims l)) 0 u = energyOf A u := dotProduct_comm (A.mulVec u) u
    rw [hen] at hup
    rw [← hu, dotProduct_comm]
    exact hup

/-- **C94**, under the weaker approximation of C77 on every level: with `q = (2 - c) / (s² kappa)` the cycle of
`L` levels is spectrally equivalent to the inverse with the ratio `1 / q ^ (L - 1)`, and in standalone mode it
multiplies the energy of the error at most by `1 - q ^ (L - 1)`. -/
theorem C94_weak_partial (debug timer : Bool) (p : Params) (type : Option (List Char))
    (htype : dealiiSmoother debug true type = .ok .symmetricGaussSeidel) (dims : ℕ → ℕ)
    (procs : ∀ l, List (List (Fin (dims l)))) (hprocs : ∀ l, ListsAll (procs l).flatten)
    (A : Matrix (Fin (dims 0)) (Fin (dims 0)) K) (hA : IsSpd A)
    (R : ∀ l, Matrix (Fin (dims (l + 1))) (Fin (dims l)) K) (hR : ∀ l, IndependentRows (R l))
    (s : ℕ) (hs : ∀ l, l + 1 < (p.maxLevels.getD 2).toNat → AtMostPerRow (coarseMatrix dims A R l) s)
    (c : K) (hc : c < 2)
    (hw : ∀ l, l + 1 < (p.maxLevels.getD 2).toNat → CoupledAtMost (coarseMatrix dims A R l) (procs l) c)
    (kappa : K) (hk : 0 < kappa) (hone : 2 - c ≤ (s : K) * s * kappa)
    (happrox : ∀ l, l + 1 < (p.maxLevels.getD 2).toNat →
      Approximates (R l) (coarseMatrix dims A R l) kappa)
    (solve : ∀ l, Matrix (Fin (dims l)) (Fin (dims l)) K → (Fin (dims l) → K) → Fin (dims l) → K)
    (hsolve : ∀ l, SolvesExactly (solve l)) (hlev : 2 ≤ p.maxLevels.getD 2)
    (hfast : p.fastAp.getD false = false)
    (hsteps : 0 < toUnsigned (p.nSmoothingSteps.getD 1)) :
    ∃ H, (buildHierarchy debug timer (some p)
        (.ok (matrixHelpers debug type dims procs A R solve))).result = .ok H ∧
      ∀ fresh (x b u : Fin (dims 0) → K), A.mulVec u = b →
        ∃ y, (H.vmult fresh x b).result = .ok y ∧
          (p.isPreconditioner.getD true = true →
            ((2 - c) / ((s : K) * s * kappa)) ^ ((p.maxLevels.getD 2).toNat - 1) * energyOf A u ≤ b ⬝ᵥ y ∧
            b ⬝ᵥ y ≤ energyOf A u) ∧
          (p.isPreconditioner.getD true = false →
            energyOf A (u - y)
              ≤ (1 - ((2 - c) / ((s : K) * s * kappa)) ^ ((p.maxLevels.getD 2).toNat - 1))
                * energyOf A (u - x)) := by
  obtain ⟨H, hH, hlin, hL, hp, hn⟩ := matrixHelpers_build debug timer p type _ _ htype rfl
    dims procs A hA R hR solve hsolve (by omega) hfast
  refine ⟨H, hH, ?_⟩
  intro fresh x b u hu
  have hsym := procs_symmetric hprocs hA hR H.numLevels
  have hvar := matrixData_variational hA hR .symmetricGaussSeidel procs H.numLevels (by omega)
  have hlower := procs_lower hprocs hA hR hk hc hone (L := H.numLevels) (fun l hl => hs l (by omega))
      (fun l hl => hw l (by omega)) (fun l hl => happrox l (by omega)) H.nSmoothingSteps (by omega) (by omega)
  have hup := M_upper hsym hvar H.nSmoothingSteps (H.numLevels - 1) 0 (by omega)
  have hen : ∀ v, energy (matrixData .symmetricGaussSeidel dims procs A R)
      (fun l => dotForm (dims l)) 0 v = energyOf A v := fun v => dotProduct_comm (A.mulVec v) v
  by_cases hpre : H.isPreconditioner = true
  · refine ⟨_, vmult_pre H _ hlin hpre fresh x b, ?_, ?_⟩
    · intro _
      constructor
      · have h1 := hlower u
        rw [hu, hL] at h1
        rw [hL]
        exact h1
      · have h2 := hup u
        rw [hen] at h2
        rw [← hu, dotProduct_comm]
        exact h2
    · intro h
      rw [← hp, hpre] at h
      cases h
  · have hpre' : H.isPreconditioner = false := by simpa using hpre
    refine ⟨_, vmult_sa H _ hlin hpre' (by omega) fresh x b, ?_, ?_⟩
    · intro h
      rw [← hp, hpre'] at h
      cases h
    · intro _
      have hM := M_nonneg hsym H.nSmoothingSteps (H.numLevels - 1) 0 (by omega)
        (fun l hl => procs_convergent hprocs hA hR hc.le H.numLevels l hl (hw l (by omega))) (by
          intro l _ v
          have hspd := coarseMatrix_spd dims A hA R hR l
          set w := (coarseMatrix dims A R l)⁻¹.mulVec v with hwd
          have hwv : (coarseMatrix dims A R l).mulVec w = v := mulVec_inv (spd_det hspd) v
          change 0 ≤ w ⬝ᵥ v
          rw [← hwv]
          by_cases h0 : w = 0
          · rw [h0, zero_dotProduct]
          · exact (hspd.2 w h0).le)
      have h1 := energy_error_le_aux hsym hvar H.nSmoothingSteps (H.numLevels - 1) 0 (by omega) (u - x) hM
      have h2 := hlower (u - x)
      rw [hen, hen] at h1
      have h3 : b - (matrixData .symmetricGaussSeidel dims procs A R).A 0 x
          = (matrixData .symmetricGaussSeidel dims procs A R).A 0 (u - x) := by
        rw [map_sub]
        exact congrArg (· - _) hu.symm
      rw [h3, ← sub_sub]
      refine h1.trans ?_
      rw [dotProduct_comm] at h2
      have h4 : dotForm (dims 0) (M (matrixData .symmetricGaussSeidel dims procs A R)
          H.nSmoothingSteps (H.numLevels - 1) 0
          ((matrixData .symmetricGaussSeidel dims procs A R).A 0 (u - x)))
          ((matrixData .symmetricGaussSeidel dims procs A R).A 0 (u - x))
          = M (matrixData .symmetricGaussSeidel dims procs A R)
          H.nSmoothingSteps (H.numLevels - 1) 0 (A.mulVec (u - x)) ⬝ᵥ A.mulVec (u - x) := rfl
      rw [h4]
      rw [hL] at h2 ⊢
      linarith

end

end Mfmg
