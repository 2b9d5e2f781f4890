import Verif.Lemmas.TwoLevel
import Verif.Examples.Chain

/-!
# The rate of convergence of the two-level cycle (C77)
-/

set_option autoImplicit false

namespace Mfmg

open Spec

section

variable {K : Type} [Field K] [LinearOrder K] [IsStrictOrderedRing K]

/-- The assembled restriction matrix approximates, from the bound of what is left over. -/
theorem approximation_of_bounded (debug dynAdds : Bool) (gdiag : ℕ → K) (css : List (List (CopyData K)))
    (hcs : ∀ cs ∈ css, ∀ c ∈ cs, c.WellFormed) (n : ℕ) (aggs : List (AggData n K))
    (haggs : css.flatten = aggs.map AggData.copy) (hsolved : ∀ a ∈ aggs, a.Bounded)
    (A : Matrix (Fin n) (Fin n) K) (hA : IsSpd A) (hsum : A = (aggs.map AggData.matrix).sum)
    (hdiag : ∀ i : Fin n, gdiag i.val = A i i) (kappa : K) (hk : 0 < kappa)
    (hkappa : ∀ a ∈ aggs, ∀ i : Fin n, i.val ∈ a.copy.dofMap → a.matrix i i ≤ kappa * a.omitted) :
    ∃ a, assembleAll debug dynAdds gdiag (css.map collect) = .ok a ∧
      Approximates (a.R.block (rowsOf css.flatten).length n) A kappa := by
  obtain ⟨a, h, h1⟩ := transpose_rows debug dynAdds gdiag css hcs n
  refine ⟨a, h, ?_⟩
  intro e
  set coef : CopyData K × List K → K := fun cv =>
    globalVec n cv.1 cv.2 ⬝ᵥ e / (globalVec n cv.1 cv.2 ⬝ᵥ globalVec n cv.1 cv.2) with hcoef
  set y : ℕ → K := fun p => (((rowsOf css.flatten)[p]?).map coef).getD 0 with hy
  refine ⟨fun p => y p.val, ?_⟩
  have hval : ∀ i : Fin n, (e - (a.R.block (rowsOf css.flatten).length n).transpose.mulVec
      fun p => y p.val) i = (aggs.map fun b => b.matrix i i / A i i * leftOver b.copy e i).sum := by
    intro i
    have e1 : ((a.R.block (rowsOf css.flatten).length n).transpose.mulVec fun p => y p.val) i
        = (aggs.map fun b => b.matrix i i / A i i * projectOn (keptVecs n b.copy) e i).sum := by
      refine (h1 y i.val i.isLt).trans ?_
      have := combine_map (fun cv : CopyData K × List K =>
        extend cv.1.dofMap cv.1.diag i.val / gdiag i.val * extend cv.1.dofMap cv.2 i.val) coef
        (rowsOf css.flatten)
      refine this.trans ?_
      rw [sum_rowsOf, haggs, List.map_map]
      congr 1
      apply List.map_congr_left
      intro b hb
      simp only [Function.comp_apply]
      rw [(hsolved b hb).diagonal, hdiag, projectOn, keptVecs, List.map_map,
        ← List.sum_map_mul_left]
      congr 1
      apply List.map_congr_left
      intro v _
      simp only [Function.comp_apply, hcoef]
      change _ * (_ * globalVec n b.copy v i) = _
      ring
    have e2 : (aggs.map fun b => b.matrix i i / A i i * onAgg b.copy e i).sum = e i := by
      have : (aggs.map fun b => b.matrix i i / A i i * onAgg b.copy e i)
          = aggs.map fun b => b.matrix i i * (e i / A i i) := by
        apply List.map_congr_left
        intro b hb
        by_cases hi : i.val ∈ b.copy.dofMap
        · rw [onAgg, if_pos hi]; ring
        · have : b.matrix i i = 0 := by
            rw [← (hsolved b hb).diagonal, extend_not_mem hi]
          rw [this]; ring
      rw [this, List.sum_map_mul_right]
      have e3 : (aggs.map fun b => b.matrix i i).sum = A i i := by
        rw [hsum, entry_sum_matrices, List.map_map]
        rfl
      rw [e3, mul_div_cancel₀ _ (diag_pos hA i).ne']
    rw [Pi.sub_apply, e1]
    conv_lhs => rw [← e2]
    have e3 : ∀ l : List (AggData n K),
        (l.map fun b => b.matrix i i / A i i * onAgg b.copy e i).sum
          - (l.map fun b => b.matrix i i / A i i * projectOn (keptVecs n b.copy) e i).sum
        = (l.map fun b => b.matrix i i / A i i * leftOver b.copy e i).sum := by
      intro l
      induction l with
      | nil => simp
      | cons b l ih =>
        simp only [List.map_cons, List.sum_cons]
        rw [← ih, leftOver, Pi.sub_apply]
        ring
    exact e3 aggs
  have hpoint : ∀ i : Fin n, A i i * ((e - (a.R.block (rowsOf css.flatten).length n).transpose.mulVec
      fun p => y p.val) i * (e - (a.R.block (rowsOf css.flatten).length n).transpose.mulVec
      fun p => y p.val) i) ≤ (aggs.map fun b => b.matrix i i * (leftOver b.copy e i
        * leftOver b.copy e i)).sum := by
    intro i
    refine mean_sq aggs (fun b => b.matrix i i) (fun b => leftOver b.copy e i)
      (fun b hb => (hsolved b hb).nonneg i) (A i i) (diag_pos hA i) ?_ _ (hval i).symm
    rw [hsum, entry_sum_matrices, List.map_map]
    rfl
  refine (Finset.sum_le_sum fun i _ => hpoint i).trans ?_
  rw [sum_sum_list aggs fun b i => b.matrix i i * (leftOver b.copy e i * leftOver b.copy e i)]
  unfold energyOf
  rw [hsum, mulVec_sum_matrices, List.map_map, ← List.sum_map_mul_left]
  apply List.sum_le_sum
  intro b hb
  simp only [Function.comp_apply]
  have hb1 : ∑ i, b.matrix i i * (leftOver b.copy e i * leftOver b.copy e i)
      ≤ kappa * (b.omitted * (leftOver b.copy e ⬝ᵥ leftOver b.copy e)) := by
    rw [dotProduct, ← mul_assoc, Finset.mul_sum]
    apply Finset.sum_le_sum
    intro i _
    by_cases hi : i.val ∈ b.copy.dofMap
    · exact mul_le_mul_of_nonneg_right (hkappa b hb i hi) (mul_self_nonneg _)
    · rw [leftOver_off b.copy e hi]
      simp
  exact hb1.trans (mul_le_mul_of_nonneg_left ((hsolved b hb).left e) hk.le)

/-- **C77**, approximation: if the problem is the sum of the agglomerate matrices, the eigenvectors were
computed correctly and no diagonal element of an agglomerate is more than `kappa` times its omitted
eigenvalues, the assembled restriction matrix approximates every error up to `kappa` times its energy. -/
theorem C77_approximation (debug dynAdds : Bool) (gdiag : ℕ → K) (css : List (List (CopyData K)))
    (hcs : ∀ cs ∈ css, ∀ c ∈ cs, c.WellFormed) (n : ℕ) (aggs : List (AggData n K))
    (haggs : css.flatten = aggs.map AggData.copy) (hsolved : ∀ a ∈ aggs, a.Solved)
    (A : Matrix (Fin n) (Fin n) K) (hA : IsSpd A) (hsum : A = (aggs.map AggData.matrix).sum)
    (hdiag : ∀ i : Fin n, gdiag i.val = A i i) (kappa : K) (hk : 0 < kappa)
    (hkappa : ∀ a ∈ aggs, ∀ i : Fin n, i.val ∈ a.copy.dofMap → a.matrix i i ≤ kappa * a.omitted) :
    ∃ a, assembleAll debug dynAdds gdiag (css.map collect) = .ok a ∧
      Approximates (a.R.block (rowsOf css.flatten).length n) A kappa := by
  exact approximation_of_bounded debug dynAdds gdiag css hcs n aggs haggs
    (fun a ha => solved_bounded a (hsolved a ha)) A hA hsum hdiag kappa hk hkappa

/-- One smoothing step after the coarse correction. -/
theorem relax_rate {m n : ℕ} {kind : Relaxation} (hk : IsSweep kind) {A : Matrix (Fin n) (Fin n) K}
    (hA : IsSpd A) {own : List (Fin n)} (hown : ListsAll own) {s : ℕ} (hs : AtMostPerRow A s)
    {R : Matrix (Fin m) (Fin n) K} {kappa : K} (hk0 : 0 < kappa) (hR : Approximates R A kappa)
    (e : Fin n → K) (he : R.mulVec (A.mulVec e) = 0) :
    (s : K) * s * kappa * energyOf A (e - relaxVmult kind A [own] (A.mulVec e))
      ≤ ((s : K) * s * kappa - 1) * energyOf A e := by
  rw [err_relax hk A hown]
  have h1 := sweep_rate hA hown hs hk0 hR e he
  have h0 : 0 ≤ (s : K) * s * kappa :=
    mul_nonneg (mul_nonneg (Nat.cast_nonneg _) (Nat.cast_nonneg _)) hk0.le
  cases kind
  · refine (mul_le_mul_of_nonneg_left ?_ h0).trans h1
    rw [sweepRows, List.foldl_append]
    exact (energy_sweep hA own.reverse _).1
  · exact h1
  · exact absurd rfl hk

/-- **C77**, rate: on one process, with symmetric Gauss-Seidel (also by default) or Gauss-Seidel smoothing, at
least one smoothing step, two levels, a restriction matrix of full rank that approximates errors up to `kappa`
times their energy and at most `s` entries per row, every standalone cycle multiplies the energy of the error
at most by `1 - 1 / (s² kappa)`: the bound does not depend on the number of unknowns. -/
theorem C77_rate (debug timer : Bool) (p : Params) (type : Option (List Char))
    (htype : dealiiSmoother debug true type = .ok .symmetricGaussSeidel ∨
      dealiiSmoother debug true type = .ok .gaussSeidel) (dims : ℕ → ℕ)
    (own : ∀ l, List (Fin (dims l))) (hown : ∀ l, ListsAll (own l))
    (A : Matrix (Fin (dims 0)) (Fin (dims 0)) K) (hA : IsSpd A) (s : ℕ) (hs : AtMostPerRow A s)
    (R : ∀ l, Matrix (Fin (dims (l + 1))) (Fin (dims l)) K) (hR : ∀ l, IndependentRows (R l))
    (kappa : K) (hk : 0 < kappa) (happrox : Approximates (R 0) A kappa) (hone : 1 ≤ (s : K) * s * kappa)
    (solve : ∀ l, Matrix (Fin (dims l)) (Fin (dims l)) K → (Fin (dims l) → K) → Fin (dims l) → K)
    (hsolve : ∀ l, SolvesExactly (solve l)) (hlev : p.maxLevels.getD 2 = 2)
    (hfast : p.fastAp.getD false = false) (hpre : p.isPreconditioner = some false)
    (hsteps : 0 < toUnsigned (p.nSmoothingSteps.getD 1)) :
    ∃ H, (buildHierarchy debug timer (some p) (.ok (matrixHelpers debug type dims
        (fun l => [own l]) A R solve))).result = .ok H ∧
      ∀ fresh (x b xs : Fin (dims 0) → K), A.mulVec xs = b →
        ∃ y, (H.vmult fresh x b).result = .ok y ∧
          energyOf A (xs - y) ≤ (1 - 1 / ((s : K) * s * kappa)) * energyOf A (xs - x) := by
  obtain ⟨k, kind, hk', hk'', hsw⟩ : ∃ k kind, dealiiSmoother debug true type = .ok k ∧
      k.relaxation = some kind ∧ IsSweep kind := by
    rcases htype with h | h
    · exact ⟨_, _, h, rfl, by simp [IsSweep]⟩
    · exact ⟨_, _, h, rfl, by simp [IsSweep]⟩
  obtain ⟨H, hH, hlin, hL, hp, hn⟩ := matrixHelpers_build debug timer p type k kind hk' hk''
    dims (fun l => [own l]) A hA R hR solve hsolve (by omega) hfast
  refine ⟨H, hH, ?_⟩
  intro fresh x b xs hxs
  have hp' : H.isPreconditioner = false := by rw [hp, hpre]; rfl
  have hL2 : H.numLevels = 2 := by rw [hL, hlev]; rfl
  refine ⟨_, C04_cycle_is_textbook H _ hlin fresh x b (Or.inr (by omega)), ?_⟩
  rw [hp', hL2]
  set D := matrixData kind dims (fun l => [own l]) A R with hD
  have hen : ∀ l (e : Fin (dims l) → K), energy D (fun l => dotForm (dims l)) l e
      = energyOf (coarseMatrix dims A R l) e := fun l e =>
    dotProduct_comm ((coarseMatrix dims A R l).mulVec e) e
  have hchain := matrixData_chain kind dims (fun l => [own l]) A hA R hR 2
  have herr : ∀ e : Fin (dims 0) → K, e - D.B 0 (D.A 0 e) = (sweepRows kind (own 0)).foldl (errRow A) e :=
    fun e => err_relax hsw A (hown 0) e
  have hB : ∀ e, energy D (fun l => dotForm (dims l)) 0 (e - D.B 0 (D.A 0 e))
      ≤ energy D (fun l => dotForm (dims l)) 0 e := by
    intro e
    rw [herr, hen, hen]
    exact (energy_sweep hA _ e).1
  obtain ⟨q, hq⟩ : ∃ q, H.nSmoothingSteps = q + 1 := ⟨H.nSmoothingSteps - 1, by omega⟩
  change energyOf A (xs - (richardson D 0 b)^[H.nSmoothingSteps]
      ((richardson D 0 b)^[H.nSmoothingSteps] x + D.P 0 (D.C 1 (D.R 0 (b - D.A 0
        ((richardson D 0 b)^[H.nSmoothingSteps] x)))))) ≤ _
  have hpre1 := smooth_energy (D := D) (φ := fun l => dotForm (dims l)) (l := 0) hB b xs hxs H.nSmoothingSteps x
  set x₁ := (richardson D 0 b)^[H.nSmoothingSteps] x with hx₁
  set c := D.C 1 (D.R 0 (b - D.A 0 x₁)) with hc
  set x₂ := x₁ + D.P 0 c with hx₂
  have hr : b - D.A 0 x₁ = D.A 0 (xs - x₁) := by
    rw [map_sub, show D.A 0 xs = b from hxs]
  have hAc : D.A 1 c = D.R 0 (D.A 0 (xs - x₁)) := by
    rw [hc, hr]
    exact mulVec_inv (spd_det (coarseMatrix_spd dims A hA R hR 1)) _
  have hcorr := correction_energy hchain 0 (by omega) (xs - x₁) c c hAc
  have horth : (R 0).mulVec (A.mulVec (xs - x₂)) = 0 := by
    have : D.R 0 (D.A 0 (xs - x₂)) = 0 := by
      have e1 : xs - x₂ = (xs - x₁) - D.P 0 c := by rw [hx₂]; abel
      rw [e1, map_sub (D.A 0), map_sub (D.R 0), ← hAc, hchain.galerkin 0 (by omega), sub_self]
    exact this
  have he2 : xs - x₂ = (xs - x₁) - D.P 0 c := by rw [hx₂]; abel
  have hE2 : energyOf A (xs - x₂) ≤ energyOf A (xs - x₁) := by
    have h0 : 0 ≤ energy D (fun l => dotForm (dims l)) 1 c := hchain.psd 1 (by omega) c
    have h1 : energy D (fun l => dotForm (dims l)) 1 (c - c) = 0 := by
      rw [sub_self]; unfold energy; simp
    rw [← he2, h1, hen, hen] at hcorr
    have : energyOf A (xs - x₂) = energyOf A (xs - x₁) + 0
      - energy D (fun l => dotForm (dims l)) 1 c := hcorr
    linarith
  have hstep := relax_rate hsw hA (hown 0) hs hk happrox (xs - x₂) horth
  have hE1 : energyOf A (xs - x₁) ≤ energyOf A (xs - x) := by
    rw [hen, hen] at hpre1
    exact hpre1
  rw [hq, Function.iterate_succ_apply]
  have hpost := smooth_energy (D := D) (φ := fun l => dotForm (dims l)) (l := 0) hB b xs hxs q (richardson D 0 b x₂)
  rw [hen, hen] at hpost
  have hrich : xs - richardson D 0 b x₂ = (xs - x₂) - relaxVmult kind A [own 0] (A.mulVec (xs - x₂)) := by
    rw [richardson, ← show D.A 0 xs = b from hxs, ← map_sub, ← sub_sub]
    rfl
  have h0 : 0 ≤ (s : K) * s * kappa :=
    mul_nonneg (mul_nonneg (Nat.cast_nonneg _) (Nat.cast_nonneg _)) hk.le
  have hfirst : (s : K) * s * kappa * energyOf A (xs - richardson D 0 b x₂)
      ≤ ((s : K) * s * kappa - 1) * energyOf A (xs - x₂) := by
    rw [hrich]; exact hstep
  have hpos : 0 < (s : K) * s * kappa := by linarith
  have hE := mul_le_mul_of_nonneg_left (hE2.trans hE1) (sub_nonneg.2 hone)
  have hall := ((mul_le_mul_of_nonneg_left hpost h0).trans hfirst).trans hE
  have h3 : (1 - 1 / ((s : K) * s * kappa)) * energyOf A (xs - x)
      = ((s : K) * s * kappa - 1) * energyOf A (xs - x) / ((s : K) * s * kappa) := by
    have hne := hpos.ne'
    rw [one_sub_div hne, div_mul_eq_mul_div]
  rw [h3, le_div_iff₀ hpos, mul_comm]
  exact hall

/-- From the agglomerates to the rate, from the bound of what is left over. -/
theorem pipeline_of_bounded (debug dynAdds timer : Bool) (p : Params) (type : Option (List Char))
    (htype : dealiiSmoother debug true type = .ok .symmetricGaussSeidel ∨
      dealiiSmoother debug true type = .ok .gaussSeidel)
    (gdiag : ℕ → K) (css : List (List (CopyData K))) (hcs : ∀ cs ∈ css, ∀ c ∈ cs, c.WellFormed) (n : ℕ)
    (hn : ∀ c ∈ css.flatten, ∀ x ∈ c.dofMap, x < n) (hown : OwnIndependent css.flatten)
    (aggs : List (AggData n K)) (haggs : css.flatten = aggs.map AggData.copy)
    (hsolved : ∀ a ∈ aggs, a.Bounded)
    (hpos : ∀ a ∈ aggs, ∀ i : Fin n, i.val ∈ a.copy.dofMap → a.matrix i i ≠ 0)
    (A : Matrix (Fin n) (Fin n) K) (hA : IsSpd A) (hsum : A = (aggs.map AggData.matrix).sum)
    (hdiag : ∀ i : Fin n, gdiag i.val = A i i) (s : ℕ) (hs : AtMostPerRow A s) (kappa : K) (hk : 0 < kappa)
    (hone : 1 ≤ (s : K) * s * kappa)
    (hkappa : ∀ a ∈ aggs, ∀ i : Fin n, i.val ∈ a.copy.dofMap → a.matrix i i ≤ kappa * a.omitted)
    (rows : ∀ l, List (Fin (twoLevels n (rowsOf css.flatten).length l))) (hrows : ∀ l, ListsAll (rows l))
    (solve : ∀ l, Matrix (Fin (twoLevels n (rowsOf css.flatten).length l))
      (Fin (twoLevels n (rowsOf css.flatten).length l)) K →
      (Fin (twoLevels n (rowsOf css.flatten).length l) → K) →
      Fin (twoLevels n (rowsOf css.flatten).length l) → K)
    (hsolve : ∀ l, SolvesExactly (solve l)) (hlev : p.maxLevels.getD 2 = 2)
    (hfast : p.fastAp.getD false = false) (hpre : p.isPreconditioner = some false)
    (hsteps : 0 < toUnsigned (p.nSmoothingSteps.getD 1)) :
    ∃ a, assembleAll debug dynAdds gdiag (css.map collect) = .ok a ∧
      ∃ H, (buildHierarchy debug timer (some p) (.ok (matrixHelpers debug type
          (twoLevels n (rowsOf css.flatten).length) (fun l => [rows l]) A
          (twoLevelRestriction (a.R.block (rowsOf css.flatten).length n)) solve))).result = .ok H ∧
        ∀ b xs : Fin n → K, A.mulVec xs = b → ∀ x : ℕ → Fin n → K,
          (∀ m, ∃ fresh, (H.vmult fresh (x m) b).result = .ok (x (m + 1))) →
          ∀ m, energyOf A (xs - x m) ≤ (1 - 1 / ((s : K) * s * kappa)) ^ m * energyOf A (xs - x 0) := by
  obtain ⟨a, ha, happrox⟩ := approximation_of_bounded debug dynAdds gdiag css hcs n aggs haggs hsolved A hA hsum
    hdiag kappa hk hkappa
  obtain ⟨a', ha', hspd, _⟩ := C74_spd_partial debug dynAdds gdiag css hcs n hn (by
    intro c hc x hx
    have hxn := hn c hc x hx
    rw [haggs] at hc
    obtain ⟨b, hb, rfl⟩ := List.mem_map.1 hc
    have h1 := (hsolved b hb).diagonal ⟨x, hxn⟩
    have h2 := hdiag ⟨x, hxn⟩
    dsimp only at h1 h2
    rw [h1, h2]
    exact ⟨hpos b hb ⟨x, hxn⟩ hx, (diag_pos hA _).ne'⟩) hown A hA
  obtain rfl := Outcome.ok.inj (ha.symm.trans ha')
  refine ⟨a, ha, ?_⟩
  have hind : IndependentRows (a.R.block (rowsOf css.flatten).length n) := (C74_iff _ A hA).1 hspd
  obtain ⟨H, hH, hrate⟩ := C77_rate debug timer p type htype (twoLevels n (rowsOf css.flatten).length) rows
    hrows A hA s hs (twoLevelRestriction (a.R.block (rowsOf css.flatten).length n)) (by
      intro l
      cases l with
      | zero => exact hind
      | succ l =>
        have h1 : IndependentRows (1 : Matrix (Fin (rowsOf css.flatten).length)
            (Fin (rowsOf css.flatten).length) K) := by
          intro y hy
          rwa [Matrix.transpose_one, Matrix.one_mulVec] at hy
        exact h1) kappa hk happrox hone solve hsolve hlev hfast hpre hsteps
  refine ⟨H, hH, ?_⟩
  intro b xs hxs x hx m
  have hq : 0 ≤ 1 - 1 / ((s : K) * s * kappa) := by
    rw [sub_nonneg, div_le_one (by linarith)]
    exact hone
  induction m with
  | zero => simp
  | succ m ih =>
    obtain ⟨fresh, hf⟩ := hx m
    obtain ⟨y, hy, hle⟩ := hrate fresh (x m) b xs hxs
    obtain rfl := Outcome.ok.inj (hf.symm.trans hy)
    refine le_trans hle ?_
    have := mul_le_mul_of_nonneg_left ih hq
    rwa [← mul_assoc, ← pow_succ'] at this

/-- **C77**, from the agglomerates to the rate: if the problem is the sum of the agglomerate matrices, the
eigenvectors were computed correctly and are independent on the dofs of one agglomerate only, no diagonal
element of an agglomerate is more than `kappa` times its omitted eigenvalues and no row has more than `s`
entries, then set-up and construction succeed, and `m` standalone two-level cycles multiply the energy of the
error at most by `(1 - 1 / (s² kappa)) ^ m`, for every right-hand side and initial guess. -/
theorem C77_pipeline (debug dynAdds timer : Bool) (p : Params) (type : Option (List Char))
    (htype : dealiiSmoother debug true type = .ok .symmetricGaussSeidel ∨
      dealiiSmoother debug true type = .ok .gaussSeidel)
    (gdiag : ℕ → K) (css : List (List (CopyData K))) (hcs : ∀ cs ∈ css, ∀ c ∈ cs, c.WellFormed) (n : ℕ)
    (hn : ∀ c ∈ css.flatten, ∀ x ∈ c.dofMap, x < n) (hown : OwnIndependent css.flatten)
    (aggs : List (AggData n K)) (haggs : css.flatten = aggs.map AggData.copy)
    (hsolved : ∀ a ∈ aggs, a.Solved)
    (hpos : ∀ a ∈ aggs, ∀ i : Fin n, i.val ∈ a.copy.dofMap → a.matrix i i ≠ 0)
    (A : Matrix (Fin n) (Fin n) K) (hA : IsSpd A) (hsum : A = (aggs.map AggData.matrix).sum)
    (hdiag : ∀ i : Fin n, gdiag i.val = A i i) (s : ℕ) (hs : AtMostPerRow A s) (kappa : K) (hk : 0 < kappa)
    (hone : 1 ≤ (s : K) * s * kappa)
    (hkappa : ∀ a ∈ aggs, ∀ i : Fin n, i.val ∈ a.copy.dofMap → a.matrix i i ≤ kappa * a.omitted)
    (rows : ∀ l, List (Fin (twoLevels n (rowsOf css.flatten).length l))) (hrows : ∀ l, ListsAll (rows l))
    (solve : ∀ l, Matrix (Fin (twoLevels n (rowsOf css.flatten).length l))
      (Fin (twoLevels n (rowsOf css.flatten).length l)) K →
      (Fin (twoLevels n (rowsOf css.flatten).length l) → K) →
      Fin (twoLevels n (rowsOf css.flatten).length l) → K)
    (hsolve : ∀ l, SolvesExactly (solve l)) (hlev : p.maxLevels.getD 2 = 2)
    (hfast : p.fastAp.getD false = false) (hpre : p.isPreconditioner = some false)
    (hsteps : 0 < toUnsigned (p.nSmoothingSteps.getD 1)) :
    ∃ a, assembleAll debug dynAdds gdiag (css.map collect) = .ok a ∧
      ∃ H, (buildHierarchy debug timer (some p) (.ok (matrixHelpers debug type
          (twoLevels n (rowsOf css.flatten).length) (fun l => [rows l]) A
          (twoLevelRestriction (a.R.block (rowsOf css.flatten).length n)) solve))).result = .ok H ∧
        ∀ b xs : Fin n → K, A.mulVec xs = b → ∀ x : ℕ → Fin n → K,
          (∀ m, ∃ fresh, (H.vmult fresh (x m) b).result = .ok (x (m + 1))) →
          ∀ m, energyOf A (xs - x m) ≤ (1 - 1 / ((s : K) * s * kappa)) ^ m * energyOf A (xs - x 0) := by
  exact pipeline_of_bounded debug dynAdds timer p type htype gdiag css hcs n hn hown aggs haggs
    (fun a ha => solved_bounded a (hsolved a ha)) hpos A hA hsum hdiag s hs kappa hk hone hkappa rows hrows
    solve hsolve hlev hfast hpre hsteps

/-- **C77**, a family of problems: for every number `N` of agglomerates in the chain, on one process, one
standalone two-level cycle with the default parameters multiplies the energy of the error at most by `25 / 27`. -/
theorem C77_chain (N : ℕ) (hN : 0 < N) (debug dynAdds timer : Bool)
    (rows : ∀ l, List (Fin (chainDims K N l)))
    (hrows : ∀ l, ListsAll (rows l))
    (solve : ∀ l, Matrix (Fin (chainDims K N l)) (Fin (chainDims K N l)) K → (Fin (chainDims K N l) → K) →
      Fin (chainDims K N l) → K)
    (hsolve : ∀ l, SolvesExactly (solve l)) :
    ∃ a, assembleAll debug dynAdds
        (fun i => if h : i < 2 * N + 1 then chainSum (K := K) N ⟨i, h⟩ ⟨i, h⟩ else 0)
        ((chainCopies K N).map collect) = .ok a ∧
      ∃ H, (buildHierarchy debug timer (some { isPreconditioner := some false }) (.ok (matrixHelpers debug none
          (chainDims K N)
          (fun l => [rows l]) (chainSum N)
          (twoLevelRestriction (a.R.block
            (rowsOf (chainCopies K N).flatten).length (2 * N + 1))) solve))).result
          = .ok H ∧
        ∀ b xs : Fin (2 * N + 1) → K, (chainSum N).mulVec xs = b → ∀ x : ℕ → Fin (2 * N + 1) → K,
          (∀ m, ∃ fresh, (H.vmult fresh (x m) b).result = .ok (x (m + 1))) →
          ∀ m, energyOf (chainSum N) (xs - x m) ≤ (25 / 27) ^ m * energyOf (chainSum N) (xs - x 0) := by
  have hmem : ∀ a ∈ chainAggs (K := K) N, ∃ k, a = chainAgg N k := by
    intro a ha
    obtain ⟨k, _, rfl⟩ := List.mem_map.1 ha
    exact ⟨k, rfl⟩
  have hfl : (chainCopies K N).flatten = (chainAggs (K := K) N).map AggData.copy := by
    simp
  obtain ⟨a, ha, H, hH, hrate⟩ := C77_pipeline debug dynAdds timer { isPreconditioner := some false } none
    (Or.inl (by cases debug <;> rfl))
    (fun i => if h : i < 2 * N + 1 then chainSum (K := K) N ⟨i, h⟩ ⟨i, h⟩ else 0)
    (chainCopies K N) (by
      intro cs hcs c hc
      rw [List.mem_singleton] at hcs
      subst hcs
      obtain ⟨b, hb, rfl⟩ := List.mem_map.1 hc
      obtain ⟨k, rfl⟩ := hmem b hb
      exact chainCopy_wf k.val) (2 * N + 1) (by
      intro c hc x hx
      rw [hfl] at hc
      obtain ⟨b, hb, rfl⟩ := List.mem_map.1 hc
      obtain ⟨k, rfl⟩ := hmem b hb
      have := k.isLt
      simp only [chainAgg, chainCopy, List.mem_cons, List.not_mem_nil, or_false] at hx
      omega) (by rw [hfl]; exact chain_own N) (chainAggs N) hfl (by
      intro b hb
      obtain ⟨k, rfl⟩ := hmem b hb
      exact chain_solved N k) (by
      intro b hb i hi
      obtain ⟨k, rfl⟩ := hmem b hb
      exact chain_diag_ne N k i hi) (chainSum N) (chain_spd N hN) rfl (by
      intro i
      exact dif_pos i.isLt) 3 (chain_perRow N) (3 / 2) (by norm_num) (by norm_num) (by
      intro b hb i _
      obtain ⟨k, rfl⟩ := hmem b hb
      exact chain_diag_le N k i) rows hrows solve hsolve rfl rfl rfl (by decide)
  refine ⟨a, ha, H, hH, ?_⟩
  intro b xs hxs x hx m
  have := hrate b xs hxs x hx m
  norm_num at this ⊢
  exact this

end

/-- The chain with any number of agglomerates, rows in order, coarse problem solved with the inverse. -/
example (N : ℕ) (hN : 0 < N) :=
  C77_chain (K := ℚ) N hN true false false (fun _ => List.finRange _)
    (fun _ => ⟨List.nodup_finRange _, List.mem_finRange⟩) (fun l => exInvSolve l _)
    (fun l => exInvSolve_exact _ l)

end Mfmg
