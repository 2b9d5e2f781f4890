import Verif.Props.FastAP
import Verif.Lemmas.InexactAP
import Verif.Spec.InexactAP
import Mathlib.Algebra.Order.Chebyshev
import Mathlib.Tactic.IntervalCases

/-!
# `fast_ap` with eigenpairs computed up to a tolerance (C111)
-/

set_option autoImplicit false

namespace Mfmg

open Spec Matrix

section residual

variable {K : Type} [Field K]

/-- **C111, the product.** Whatever pairs the eigensolvers return, exact or not, the `fast_ap` branch builds `A R^T`
plus the residuals of the pairs, for every discretisation, patch evaluation and pair of schedules as in `C23_fast_ap`. -/
theorem C111_residual (wide debug dynAdds : Bool) (D : Disc K) (hN : D.nCells ≤ 2 ^ 31)
    (hD : D.Sound) (pe : PatchEval K) (hpe : pe.Faithful D) (gdiag : ℕ → K)
    (hg : ∀ c x, c < D.nCells → D.owned c = true → x ∈ D.cellDofs c →
      gdiag x = D.A x x ∧ gdiag x ≠ 0)
    (first m : ℕ) (cs : List (CopyData K)) (hlen : cs.length = D.nAgg)
    (hcs : ∀ (a : ℕ) (c : CopyData K), cs[a]? = some c →
      LocalData D a c ∧ c.eigenvectors.length = m)
    (hpatch : (∀ a, a < D.nAgg → D.HasOutside a) ∨ (∀ a, a < D.nAgg → ¬ D.HasOutside a))
    (es esH : List WSEvent) (hes : LegalSchedule D.nAgg es) (hesH : LegalSchedule D.nAgg esH) :
    ∃ mats ap, fastAP wide debug dynAdds D.nCells D.owned D.u D.nAgg D.conn pe gdiag first
        (collect cs) es esH = .ok (mats, ap) ∧
      ∀ (a j : ℕ) (c : CopyData K) (lam : K) (v : List K), cs[a]? = some c → c.eigenvalues[j]? = some lam →
        c.eigenvectors[j]? = some v → ∀ x,
        ap x (first + a * m + j)
          = (∑ y ∈ Finset.range D.nDofs, D.A x y * mats.R (first + a * m + j) y) + D.residual a c lam v x := by
  obtain ⟨mats, ap, h1, h2⟩ := fastAP_residual wide debug dynAdds D hN hD pe hpe gdiag hg first m cs hlen hcs hpatch
    es esH hes hesH
  exact ⟨mats, ap, h1, fun a j c lam v e1 e2 e3 x => (h2 a j c lam v e1 e2 e3 x).2⟩

/-- Residuals live on the agglomerate. -/
theorem residual_outside {D : Disc K} (hD : D.Sound) {a : ℕ} {c : CopyData K} (hc : LocalData D a c) (lam : K)
    (v : List K) {x : ℕ} (hx : ¬ ∃ d, d < D.nCells ∧ D.inAgg a d = true ∧ x ∈ D.cellDofs d) :
    D.residual a c lam v x = 0 := by
  have h1 : x ∉ c.dofMap := fun h => hx ((hc.dofs x).1 h)
  rw [Disc.residual, extend_not_mem h1, mul_zero, zero_sub, neg_eq_zero]
  refine Finset.sum_eq_zero fun y _ => ?_
  have h2 : D.aggMat a x y = 0 := by
    refine Finset.sum_eq_zero fun d hd => ?_
    rw [Finset.mem_filter, Finset.mem_range] at hd
    by_contra hne
    exact hx ⟨d, hd.1, hd.2, (hD.support d x y hne).1⟩
  rw [h2, zero_mul]

end residual

section cycle

variable {K : Type} [Field K] [LinearOrder K] [IsStrictOrderedRing K]

/-- A coarse correction whose coarse matrix has at least half the energy does not increase the energy. -/
theorem coarse_half_le {m n : ℕ} {A : Matrix (Fin n) (Fin n) K} (hA : A.transpose = A)
    {R : Matrix (Fin m) (Fin n) K} {B : Matrix (Fin m) (Fin m) K} (hdet : B.det ≠ 0)
    (hB : ∀ w, energyOf A (R.transpose.mulVec w) ≤ 2 * (w ⬝ᵥ B.mulVec w)) (e : Fin n → K) :
    energyOf A (e - R.transpose.mulVec (B⁻¹.mulVec (R.mulVec (A.mulVec e)))) ≤ energyOf A e := by
  obtain ⟨w, hw⟩ : ∃ w, w = B⁻¹.mulVec (R.mulVec (A.mulVec e)) := ⟨_, rfl⟩
  have hBw : B.mulVec w = R.mulVec (A.mulVec e) := by rw [hw, mulVec_inv hdet]
  rw [← hw]
  have h1 : R.transpose.mulVec w ⬝ᵥ A.mulVec e = w ⬝ᵥ B.mulVec w := by
    rw [Matrix.mulVec_transpose, ← Matrix.dotProduct_mulVec, hBw]
  have h2 : e ⬝ᵥ A.mulVec (R.transpose.mulVec w) = w ⬝ᵥ B.mulVec w := by rw [form_symm hA, h1]
  have h3 := hB w
  have h4 : energyOf A (e - R.transpose.mulVec w) = energyOf A e - 2 * (w ⬝ᵥ B.mulVec w)
      + energyOf A (R.transpose.mulVec w) := by
    rw [energyOf, Matrix.mulVec_sub, sub_dotProduct, dotProduct_sub, dotProduct_sub, h1, h2]
    simp only [energyOf]
    ring
  rw [h4]
  linarith

omit [IsStrictOrderedRing K] in
/-- Such a matrix is invertible. -/
theorem half_det {m n : ℕ} {A : Matrix (Fin n) (Fin n) K} (hA : IsSpd A)
    {R : Matrix (Fin m) (Fin n) K} (hR : IndependentRows R) {B : Matrix (Fin m) (Fin m) K}
    (hB : ∀ w, energyOf A (R.transpose.mulVec w) ≤ 2 * (w ⬝ᵥ B.mulVec w)) : B.det ≠ 0 := by
  intro h
  obtain ⟨w, hw, h0⟩ := Matrix.exists_mulVec_eq_zero_iff.2 h
  have h1 := hB w
  rw [h0, dotProduct_zero, mul_zero] at h1
  refine absurd (hA.2 (R.transpose.mulVec w) fun h2 => hw ?_) (not_lt.2 h1)
  exact hR w h2

omit [IsStrictOrderedRing K] in
/-- Iterating a step that decreases the energy. -/
theorem iterate_energy_lt {n : ℕ} {A : Matrix (Fin n) (Fin n) K} (S : (Fin n → K) → Fin n → K) (h0 : S 0 = 0)
    (hS : ∀ e, e ≠ 0 → energyOf A (S e) < energyOf A e) (k : ℕ) (e : Fin n → K) :
    energyOf A (S^[k] e) ≤ energyOf A e ∧ (0 < k → e ≠ 0 → energyOf A (S^[k] e) < energyOf A e) := by
  have hle : ∀ k e, energyOf A (S^[k] e) ≤ energyOf A e := by
    intro k
    induction k with
    | zero => exact fun e => le_rfl
    | succ k ih =>
      intro e
      rw [Function.iterate_succ_apply]
      refine (ih _).trans ?_
      by_cases he : e = 0
      · rw [he, h0]
      · exact (hS e he).le
  refine ⟨hle k e, fun hk he => ?_⟩
  obtain ⟨k, rfl⟩ : ∃ j, k = j + 1 := ⟨k - 1, by omega⟩
  rw [Function.iterate_succ_apply]
  exact (hle k _).trans_lt (hS e he)

/-- **C111, the cycle.** With `fast_ap` the coarse matrix is the product of the restriction matrix with the matrix
`AP` the branch has built.  If it has on the coarse space at least half the energy of the problem, every standalone
two-level cycle with Gauss-Seidel or symmetric Gauss-Seidel smoothing on one process decreases the energy of the
error, whatever `AP` is. -/
theorem C111_cycle (debug timer : Bool) (p : Params) (type : Option (List Char))
    (htype : dealiiSmoother debug true type = .ok .symmetricGaussSeidel ∨
      dealiiSmoother debug true type = .ok .gaussSeidel) (n m : ℕ)
    (own : ∀ l, List (Fin (twoLevels n m l))) (hown : ListsAll (own 0))
    (A : Matrix (Fin n) (Fin n) K) (hA : IsSpd A) (R : Matrix (Fin m) (Fin n) K) (hR : IndependentRows R)
    (AP : Matrix (Fin n) (Fin m) K)
    (hAP : ∀ w, energyOf A (R.transpose.mulVec w) ≤ 2 * (R.transpose.mulVec w ⬝ᵥ AP.mulVec w))
    (solve : ∀ l, Matrix (Fin (twoLevels n m l)) (Fin (twoLevels n m l)) K → (Fin (twoLevels n m l) → K) →
      Fin (twoLevels n m l) → K)
    (hsolve : ∀ l, SolvesExactly (solve l)) (hlev : p.maxLevels.getD 2 = 2)
    (hfast : p.fastAp = some true) (hpre : p.isPreconditioner = some false)
    (hsteps : 0 < toUnsigned (p.nSmoothingSteps.getD 1)) :
    ∃ H, (buildHierarchy debug timer (some p)
        (.ok (fastHelpers debug type (fun l => [own l]) A R AP solve))).result = .ok H ∧
      ∀ fresh (x b xs : Fin n → K), A.mulVec xs = b → x ≠ xs →
        ∃ y : Fin n → K, (H.vmult fresh x b).result = .ok y ∧ energyOf A (xs - y) < energyOf A (xs - x) := by
  obtain ⟨k, kind, hk, hk', hs⟩ : ∃ k kind, dealiiSmoother debug true type = .ok k ∧
      k.relaxation = some kind ∧ IsSweep kind := by
    rcases htype with h | h
    · exact ⟨_, _, h, rfl, by simp [IsSweep]⟩
    · exact ⟨_, _, h, rfl, by simp [IsSweep]⟩
  have hB : ∀ w, energyOf A (R.transpose.mulVec w) ≤ 2 * (w ⬝ᵥ (R * AP).mulVec w) := by
    intro w
    refine (hAP w).trans (le_of_eq ?_)
    rw [Matrix.mulVec_transpose, ← Matrix.dotProduct_mulVec, Matrix.mulVec_mulVec]
  have hdet := half_det hA hR hB
  obtain ⟨H, hH, hlin, hL, hp, hn⟩ := fastHelpers_build debug timer p type k kind hk hk' (fun l => [own l]) A R AP hdet
    solve hsolve hlev (by rw [hfast]; rfl)
  refine ⟨H, hH, ?_⟩
  intro fresh x b xs hxs hx
  have hp' : H.isPreconditioner = false := by rw [hp, hpre]; rfl
  obtain ⟨y, hy⟩ : ∃ y : Fin n → K, cycle (fastData kind (fun l => [own l]) A R AP) H.nSmoothingSteps 1 0 b x = y :=
    ⟨_, rfl⟩
  have hc := C04_cycle_is_textbook H _ hlin fresh x b (Or.inr (by omega))
  rw [hp', hL] at hc
  refine ⟨y, hc.trans (congrArg Outcome.ok hy), ?_⟩
  rw [fast_cycle_err kind _ A R AP _ b x xs y hxs hy]
  have herr : ∀ e : Fin n → K, e - relaxVmult kind A [own 0] (A.mulVec e)
      = (sweepRows kind (own 0)).foldl (errRow A) e := fun e => err_relax hs A hown e
  have hit := iterate_energy_lt (A := A) (fun e => e - relaxVmult kind A [own 0] (A.mulVec e)) (by
      simp only [herr]
      by_contra h
      obtain ⟨h1, -⟩ := energy_sweep hA (sweepRows kind (own 0)) 0
      refine absurd (hA.2 _ h) (not_lt.2 (h1.trans (le_of_eq ?_)))
      simp [energyOf])
    (fun e he => by
      simp only [herr]
      exact energy_sweep_lt hA _ (sweepRows_all kind hown) e he) H.nSmoothingSteps
  refine ((hit _).1.trans (coarse_half_le hA.1 hdet hB _)).trans_lt ((hit _).2 ?_ (sub_ne_zero.2 (Ne.symm hx)))
  rw [hn]
  exact hsteps

/-- The residuals as a perturbation of the product. -/
theorem perturbation_half {n m : ℕ} {A : Matrix (Fin n) (Fin n) K} {R : Matrix (Fin m) (Fin n) K}
    {AP E : Matrix (Fin n) (Fin m) K} (hAP : AP = A * R.transpose + E) {s : ℕ} {tol2 mu nu : K}
    (hrow : ∀ x, (Finset.univ.filter fun k => E x k ≠ 0).card ≤ s) (hcol : ∀ k, ∑ x, E x k ^ 2 ≤ tol2)
    (hmu : 0 < mu) (hA : ∀ e, mu * (e ⬝ᵥ e) ≤ energyOf A e)
    (hRA : ∀ w, nu * (w ⬝ᵥ w) ≤ energyOf A (R.transpose.mulVec w)) (htol : 4 * (s : K) * tol2 ≤ mu * nu) (w : Fin m → K) :
    energyOf A (R.transpose.mulVec w) ≤ 2 * (R.transpose.mulVec w ⬝ᵥ AP.mulVec w) := by
  obtain ⟨q, hq⟩ : ∃ q, q = E.mulVec w := ⟨_, rfl⟩
  obtain ⟨v, hv⟩ : ∃ v, v = R.transpose.mulVec w := ⟨_, rfl⟩
  have h1 : v ⬝ᵥ AP.mulVec w = energyOf A v + v ⬝ᵥ q := by
    rw [hAP, Matrix.add_mulVec, dotProduct_add, ← Matrix.mulVec_mulVec, ← hv, ← hq, energyOf]
  -- the size of the perturbation
  have h2 : q ⬝ᵥ q ≤ (s : K) * tol2 * (w ⬝ᵥ w) := by
    have h3 : ∀ x, q x * q x ≤ (s : K) * ∑ k, (E x k * w k) ^ 2 := by
      intro x
      have h4 : q x = ∑ k ∈ Finset.univ.filter (fun k => E x k ≠ 0), E x k * w k := by
        rw [hq]
        simp only [Matrix.mulVec, dotProduct]
        rw [Finset.sum_filter]
        refine Finset.sum_congr rfl fun k _ => ?_
        by_cases h : E x k = 0
        · simp [h]
        · simp [h]
      rw [← sq, h4]
      refine (sq_sum_le_card_mul_sum_sq).trans ?_
      refine mul_le_mul (by exact_mod_cast hrow x) ?_ (Finset.sum_nonneg fun _ _ => sq_nonneg _) (Nat.cast_nonneg _)
      exact Finset.sum_le_sum_of_subset_of_nonneg (Finset.filter_subset _ _) fun _ _ _ => sq_nonneg _
    have h5 : q ⬝ᵥ q ≤ ∑ x, (s : K) * ∑ k, (E x k * w k) ^ 2 := Finset.sum_le_sum fun x _ => h3 x
    refine h5.trans ?_
    rw [← Finset.mul_sum, Finset.sum_comm, mul_assoc]
    refine mul_le_mul_of_nonneg_left ?_ (Nat.cast_nonneg _)
    simp only [dotProduct, Finset.mul_sum]
    refine Finset.sum_le_sum fun k _ => ?_
    have h6 : ∑ x, (E x k * w k) ^ 2 = (∑ x, E x k ^ 2) * (w k * w k) := by
      rw [Finset.sum_mul]
      refine Finset.sum_congr rfl fun x _ => by ring
    rw [h6]
    exact mul_le_mul_of_nonneg_right (hcol k) (mul_self_nonneg _)
  have h7 : -(2 * (v ⬝ᵥ q)) ≤ mu / 2 * (v ⬝ᵥ v) + 2 / mu * (q ⬝ᵥ q) := by
    simp only [dotProduct, Finset.mul_sum, ← Finset.sum_neg_distrib, ← Finset.sum_add_distrib]
    refine Finset.sum_le_sum fun x _ => ?_
    have h8 : 0 ≤ 2 / mu * (mu / 2 * v x + q x) ^ 2 := mul_nonneg (div_nonneg zero_le_two hmu.le) (sq_nonneg _)
    have h9 : 2 / mu * (mu / 2 * v x + q x) ^ 2
        = mu / 2 * (v x * v x) + 2 * (v x * q x) + 2 / mu * (q x * q x) := by
      field_simp
      ring
    rw [h9] at h8
    linarith
  have h10 : 2 / mu * (q ⬝ᵥ q) ≤ energyOf A v / 2 := by
    have h11 := hRA w
    rw [← hv] at h11
    have h12 : 4 * (q ⬝ᵥ q) ≤ mu * energyOf A v := by
      have h13 : 0 ≤ w ⬝ᵥ w := Finset.sum_nonneg fun _ _ => mul_self_nonneg _
      have h14 := mul_le_mul_of_nonneg_right htol h13
      have h15 := mul_le_mul_of_nonneg_left h11 hmu.le
      linarith
    rw [div_mul_eq_mul_div, div_le_iff₀ hmu]
    linarith
  have h16 := hA v
  rw [← hv, h1]
  linarith

/-- **C111, tolerance.** If the eigenpairs are computed up to a tolerance, the squares of the residuals being at most
`tol2`, no dof belongs to more than `s` agglomerates with `m` eigenvectors each, and `4 s m tol2 ≤ mu nu`, where `mu`
bounds the eigenvalues of the problem from below and `nu` those of the exact coarse matrix, then the `fast_ap` branch
succeeds and every standalone two-level cycle decreases the energy of the error.  Missing in the full claim: a
tolerance that does not depend on `mu` and `nu`; see `C111_tolerance_violated`. -/
theorem C111_tolerance_partial (wide debug dynAdds timer : Bool) (D : Disc K) (hN : D.nCells ≤ 2 ^ 31)
    (hD : D.Sound) (pe : PatchEval K) (hpe : pe.Faithful D) (gdiag : ℕ → K)
    (hg : ∀ c x, c < D.nCells → D.owned c = true → x ∈ D.cellDofs c →
      gdiag x = D.A x x ∧ gdiag x ≠ 0)
    (m : ℕ) (cs : List (CopyData K)) (hlen : cs.length = D.nAgg) (tol2 : K)
    (hcs : ∀ (a : ℕ) (c : CopyData K), cs[a]? = some c →
      LocalData D a c ∧ c.eigenvectors.length = m ∧ D.Within a c tol2)
    (hpatch : (∀ a, a < D.nAgg → D.HasOutside a) ∨ (∀ a, a < D.nAgg → ¬ D.HasOutside a))
    (es esH : List WSEvent) (hes : LegalSchedule D.nAgg es) (hesH : LegalSchedule D.nAgg esH)
    (hA : IsSpd D.matrix) (s : ℕ) (hs : D.Overlap s) (mu nu : K) (hmu : 0 < mu) (hnu : 0 < nu)
    (hAmu : ∀ e, mu * (e ⬝ᵥ e) ≤ energyOf D.matrix e) (htol : 4 * (s * m : ℕ) * tol2 ≤ mu * nu)
    (p : Params) (type : Option (List Char))
    (htype : dealiiSmoother debug true type = .ok .symmetricGaussSeidel ∨
      dealiiSmoother debug true type = .ok .gaussSeidel)
    (own : ∀ l, List (Fin (twoLevels D.nDofs (D.nAgg * m) l))) (hown : ListsAll (own 0))
    (solve : ∀ l, Matrix (Fin (twoLevels D.nDofs (D.nAgg * m) l)) (Fin (twoLevels D.nDofs (D.nAgg * m) l)) K →
      (Fin (twoLevels D.nDofs (D.nAgg * m) l) → K) → Fin (twoLevels D.nDofs (D.nAgg * m) l) → K)
    (hsolve : ∀ l, SolvesExactly (solve l)) (hlev : p.maxLevels.getD 2 = 2)
    (hfast : p.fastAp = some true) (hpre : p.isPreconditioner = some false)
    (hsteps : 0 < toUnsigned (p.nSmoothingSteps.getD 1)) :
    ∃ mats ap, fastAP wide debug dynAdds D.nCells D.owned D.u D.nAgg D.conn pe gdiag 0
        (collect cs) es esH = .ok (mats, ap) ∧
      ((∀ w, nu * (w ⬝ᵥ w) ≤ energyOf D.matrix ((mats.R.block (D.nAgg * m) D.nDofs).transpose.mulVec w)) →
        ∃ H, (buildHierarchy debug timer (some p) (.ok (fastHelpers debug type (fun l => [own l]) D.matrix
            (mats.R.block (D.nAgg * m) D.nDofs) (ap.block D.nDofs (D.nAgg * m)) solve))).result = .ok H ∧
          ∀ fresh (x b xs : Fin D.nDofs → K), D.matrix.mulVec xs = b → x ≠ xs →
            ∃ y : Fin D.nDofs → K, (H.vmult fresh x b).result = .ok y ∧
              energyOf D.matrix (xs - y) < energyOf D.matrix (xs - x)) := by
  obtain ⟨mats, ap, h1, h2⟩ := C111_residual wide debug dynAdds D hN hD pe hpe gdiag hg 0 m cs hlen
    (fun a c h => ⟨(hcs a c h).1, (hcs a c h).2.1⟩) hpatch es esH hes hesH
  refine ⟨mats, ap, h1, fun hRA => ?_⟩
  have hcol : ∀ k : Fin (D.nAgg * m), ∃ (a j : ℕ) (c : CopyData K) (lam : K) (v : List K), a < D.nAgg ∧ j < m ∧
      k.val = a * m + j ∧ cs[a]? = some c ∧ c.eigenvalues[j]? = some lam ∧ c.eigenvectors[j]? = some v := by
    intro k
    have hm0 : 0 < m := by
      rcases Nat.eq_zero_or_pos m with h | h
      · exact absurd (lt_of_lt_of_eq k.2 (by rw [h, Nat.mul_zero])) (Nat.not_lt_zero _)
      · exact h
    have ha : k.val / m < cs.length := by
      rw [hlen]
      exact Nat.div_lt_of_lt_mul (lt_of_lt_of_eq k.2 (Nat.mul_comm _ _))
    obtain ⟨hloc, hcount, -⟩ := hcs _ _ (List.getElem?_eq_getElem ha)
    have hj : k.val % m < m := Nat.mod_lt _ hm0
    refine ⟨k.val / m, k.val % m, _, _, _, by omega, hj, ?_, List.getElem?_eq_getElem ha,
      List.getElem?_eq_getElem (by rw [hloc.count, hcount]; exact hj),
      List.getElem?_eq_getElem (by rw [hcount]; exact hj)⟩
    exact (Nat.div_add_mod' _ _).symm
  choose ia ij ic il iv h3 h4 h5 h6 h7 h8 using hcol
  refine C111_cycle debug timer p type htype D.nDofs (D.nAgg * m) own hown D.matrix hA _ ?_ _ ?_ solve hsolve hlev hfast
    hpre hsteps
  · intro w hw
    by_contra hne
    have h9 := hRA w
    rw [hw] at h9
    have h10 : energyOf D.matrix 0 = 0 := by simp [energyOf]
    rw [h10] at h9
    have h11 : 0 < w ⬝ᵥ w := by
      obtain ⟨i, hi⟩ := Function.ne_iff.1 hne
      refine Finset.sum_pos' (fun j _ => mul_self_nonneg _) ⟨i, Finset.mem_univ _, ?_⟩
      exact mul_self_pos.2 hi
    exact absurd h9 (not_le.2 (mul_pos hnu h11))
  · refine perturbation_half (E := Matrix.of fun x k => D.residual (ia k) (ic k) (il k) (iv k) x) (s := s * m)
      (tol2 := tol2) ?_ ?_ ?_ hmu hAmu hRA htol
    · ext x k
      have h9 := h2 (ia k) (ij k) (ic k) (il k) (iv k) (h6 k) (h7 k) (h8 k) x
      rw [Nat.zero_add, ← h5 k] at h9
      rw [Matrix.add_apply, Matrix.mul_apply]
      change ap x k.val = _
      rw [h9, Finset.sum_range]
      rfl
    · intro x
      refine (Finset.card_le_card_of_injOn (fun k => (ia k, ij k)) (t := ((Finset.range D.nAgg).filter fun a =>
        ∃ d, d < D.nCells ∧ D.inAgg a d = true ∧ x.val ∈ D.cellDofs d) ×ˢ Finset.range m) ?_ ?_).trans ?_
      · intro k hk
        rw [Finset.mem_coe, Finset.mem_filter] at hk
        rw [Finset.mem_coe, Finset.mem_product, Finset.mem_filter, Finset.mem_range, Finset.mem_range]
        refine ⟨⟨h3 k, ?_⟩, h4 k⟩
        by_contra hno
        exact hk.2 (residual_outside hD (hcs _ _ (h6 k)).1 _ _ hno)
      · intro k _ k' _ e
        have e1 : ia k = ia k' := congrArg Prod.fst e
        have e2 : ij k = ij k' := congrArg Prod.snd e
        exact Fin.ext (by rw [h5 k, h5 k', e1, e2])
      · rw [Finset.card_product, Finset.card_range]
        exact Nat.mul_le_mul_right m (hs x)
    · intro k
      have h9 := (hcs _ _ (h6 k)).2.2 _ _ _ (h7 k) (h8 k)
      rw [Finset.sum_range] at h9
      exact h9

/-- **C111, violation.** No tolerance on the residuals is small enough in general.  For every tolerance and number of
smoothing steps there is a symmetric positive definite problem on two cells whose eigenpairs are within the tolerance,
with Rayleigh quotients as eigenvalues, and an error that every standalone cycle with Jacobi smoothing multiplies by
at least 6.  With the exact product in place of the one of the `fast_ap` branch the same restriction matrix gives the
solution after one cycle. -/
theorem C111_tolerance_violated (wide debug dynAdds timer : Bool) (p : Params) (type : Option (List Char))
    (htype : dealiiSmoother debug true type = .ok .jacobi) (hlev : p.maxLevels.getD 2 = 2)
    (hfast : p.fastAp = some true) (hpre : p.isPreconditioner = some false) (tol2 : K) (htol : 0 < tol2) :
    ∃ (D : Disc K) (cs : List (CopyData K)) (u : Fin D.nDofs → K), D.Sound ∧ D.nCells = 2 ∧ IsSpd D.matrix ∧
      cs.length = D.nAgg ∧ u ≠ 0 ∧
      (∀ (a : ℕ) (c : CopyData K), cs[a]? = some c →
        LocalData D a c ∧ c.eigenvectors.length = 1 ∧ D.Within a c tol2 ∧ D.Ritz a c) ∧
      ∀ (pe : PatchEval K), pe.Faithful D → ∀ (es esH : List WSEvent), LegalSchedule D.nAgg es →
        LegalSchedule D.nAgg esH →
        ∃ mats ap, fastAP wide debug dynAdds D.nCells D.owned D.u D.nAgg D.conn pe (fun x => D.A x x) 0
          (collect cs) es esH = .ok (mats, ap) ∧
        ∀ (own : ∀ l, List (Fin (twoLevels D.nDofs D.nAgg l))), ListsAll (own 0) →
        ∀ (solve : ∀ l, Matrix (Fin (twoLevels D.nDofs D.nAgg l)) (Fin (twoLevels D.nDofs D.nAgg l)) K →
          (Fin (twoLevels D.nDofs D.nAgg l) → K) → Fin (twoLevels D.nDofs D.nAgg l) → K),
        (∀ l, SolvesExactly (solve l)) →
        (∃ H, (buildHierarchy debug timer (some p) (.ok (fastHelpers debug type (fun l => [own l]) D.matrix
            (mats.R.block D.nAgg D.nDofs) (ap.block D.nDofs D.nAgg) solve))).result = .ok H ∧
          ∃ f : K, 6 ≤ f ∧ ∀ fresh (xs : Fin D.nDofs → K) (s : K), ∃ y : Fin D.nDofs → K,
            (H.vmult fresh (xs - s • u) (D.matrix.mulVec xs)).result = .ok y ∧ xs - y = (f * s) • u) ∧
        (∃ H, (buildHierarchy debug timer (some p) (.ok (fastHelpers debug type (fun l => [own l]) D.matrix
            (mats.R.block D.nAgg D.nDofs) (D.matrix * (mats.R.block D.nAgg D.nDofs).transpose) solve))).result
              = .ok H ∧
          ∀ fresh (xs : Fin D.nDofs → K) (s : K),
            (H.vmult fresh (xs - s • u) (D.matrix.mulVec xs)).result = .ok xs) := by
  obtain ⟨N, hN⟩ : ∃ N, N = toUnsigned (p.nSmoothingSteps.getD 1) := ⟨_, rfl⟩
  obtain ⟨g, hg⟩ : ∃ g : K, g = 16 * N := ⟨_, rfl⟩
  have hg0 : 0 ≤ g := by
    rw [hg]
    exact mul_nonneg (by norm_num) (Nat.cast_nonneg N)
  obtain ⟨t, ht⟩ : ∃ t, t = tol2 / (tol2 + 47) := ⟨_, rfl⟩
  have h47 : 0 < tol2 + 47 := by linarith
  have ht0 : 0 < t := by
    rw [ht]
    exact div_pos htol h47
  have ht1 : t ≤ 1 := by
    rw [ht, div_le_one h47]
    linarith
  have ht2 : t * (tol2 + 47) = tol2 := by
    rw [ht]
    exact div_mul_cancel₀ _ h47.ne'
  have hw : t ^ 2 * (512 / 11) ≤ tol2 := by
    have h1 : t * t ≤ t * 1 := mul_le_mul_of_nonneg_left ht1 ht0.le
    have h2 := mul_pos ht0 htol
    nlinarith
  refine ⟨badDisc g t, badData g t, badU, badDisc_sound g t, rfl, ?_, rfl, ?_, ?_, ?_⟩
  · rw [badDisc_matrix]
    exact bad_spd hg0 ht0
  · intro h
    exact one_ne_zero (congrFun h (0 : Fin 5))
  · intro a c h
    exact ⟨(badData_local g t h).1, (badData_local g t h).2, badData_within g t h hw, badData_ritz g t h⟩
  · intro pe hpe es esH hes hesH
    have hgd : ∀ x, x < 5 → (badDisc g t).A x x ≠ 0 := by
      intro x hx
      change ∑ d ∈ Finset.range 2, badCell g t d x x ≠ 0
      have hg4 : g + 4 ≠ 0 := by linarith
      rcases (by omega : x = 0 ∨ x = 1 ∨ x = 2 ∨ x = 3 ∨ x = 4) with rfl | rfl | rfl | rfl | rfl <;>
        simp [Finset.sum_range_succ, badCell, badLocal, ht0.ne', hg4]
    obtain ⟨mats, ap, h1, h2⟩ := fastAP_residual wide debug dynAdds (badDisc g t) (by norm_num [badDisc])
      (badDisc_sound g t) pe hpe (fun x => (badDisc g t).A x x)
      (fun c x _ _ hx => ⟨rfl, hgd x ((badDisc_sound g t).dofs_lt c x hx)⟩) 0 1 (badData g t) rfl
      (fun a c h => badData_local g t h)
      (Or.inl (by
        intro a ha
        change a < 2 at ha
        rcases (by omega : a = 0 ∨ a = 1) with rfl | rfl
        · exact ⟨0, by norm_num [badDisc], by simp [Disc.inAgg, badDisc], 1, by simp [badDisc],
            by simp [Disc.inAgg, badDisc]⟩
        · exact ⟨1, by norm_num [badDisc], by simp [Disc.inAgg, badDisc], 0, by simp [badDisc],
            by simp [Disc.inAgg, badDisc]⟩)) es esH hes hesH
    refine ⟨mats, ap, h1, ?_⟩
    have h20 := h2 0 0 _ _ _ rfl rfl rfl
    have h21 := h2 1 0 _ _ _ rfl rfl rfl
    have hg4 : g + 4 ≠ 0 := by linarith
    have htt : t / (t + t) * 3 = 3 / 2 := by
      field_simp
      norm_num
    have hR : mats.R.block 2 5 = badR := by
      ext a x
      fin_cases a
      · refine ((h20 x.val).1).trans ?_
        simp only [fR]
        change _ / (∑ d ∈ Finset.range 2, badCell g t d x x) * _ = _
        fin_cases x <;>
          simp [extend_cons, badR, Finset.sum_range_succ, badCell, badLocal, ht0.ne', hg4, htt]
      · refine ((h21 x.val).1).trans ?_
        simp only [fR]
        change _ / (∑ d ∈ Finset.range 2, badCell g t d x x) * _ = _
        fin_cases x <;>
          simp [extend_cons, badR, Finset.sum_range_succ, badCell, badLocal, ht0.ne', hg4, htt]
    have hRe : ∀ (a : Fin 2) (y : Fin 5), mats.R a y = badR a y := fun a y => by rw [← hR]; rfl
    have hAP : ap.block 5 2 = badAP t := by
      have hcol : ∀ (a : Fin 2) (x : Fin 5), ap x a = (badA g t * badR.transpose : Matrix (Fin 5) (Fin 2) K) x a + badRes t a x := by
        intro a x
        have h3 : ∀ lam v c, (badData g t)[a.val]? = some c → c.eigenvalues[0]? = some lam →
            c.eigenvectors[0]? = some v →
            ap x a = (badA g t * badR.transpose : Matrix (Fin 5) (Fin 2) K) x a + badRes t a x := by
          intro lam v c e1 e2 e3
          have h4 := (h2 a 0 c lam v e1 e2 e3 x).2
          rw [badData_residual g t e1 e2 e3 x.2] at h4
          rw [Nat.zero_add, Nat.mul_one, Nat.add_zero] at h4
          rw [h4, Matrix.mul_apply, ← badDisc_matrix]
          congr 1
          change ∑ y ∈ Finset.range 5, _ = _
          rw [Finset.sum_range]
          refine Finset.sum_congr rfl fun y _ => ?_
          rw [hRe a y]
          rfl
        fin_cases a
        · exact h3 _ _ _ rfl rfl rfl
        · exact h3 _ _ _ rfl rfl rfl
      ext x a
      refine (hcol a x).trans ?_
      rw [bad_product]
      fin_cases a <;> fin_cases x <;> simp [badAP, badRes] <;> ring
    intro own hown solve hsolve
    obtain ⟨o, ho⟩ : ∃ o : List (Fin 5), o = own 0 := ⟨own 0, rfl⟩
    have hflat : ListsAll [o].flatten := by
      have hown' : ListsAll o := by
        rw [ho]
        exact hown
      simpa using hown'
    suffices hfin : ∀ (A : Matrix (Fin 5) (Fin 5) K) (R : Matrix (Fin 2) (Fin 5) K) (AP : Matrix (Fin 5) (Fin 2) K),
        A = badA g t → R = badR → AP = badAP t →
        (∃ H, (buildHierarchy debug timer (some p) (.ok (fastHelpers debug type (fun l => [own l]) A R AP
            solve))).result = .ok H ∧
          ∃ f : K, 6 ≤ f ∧ ∀ fresh (xs : Fin 5 → K) (s : K), ∃ y : Fin 5 → K,
            (H.vmult fresh (xs - s • badU) (A.mulVec xs)).result = .ok y ∧ xs - y = (f * s) • badU) ∧
        (∃ H, (buildHierarchy debug timer (some p) (.ok (fastHelpers debug type (fun l => [own l]) A R
            (A * R.transpose) solve))).result = .ok H ∧
          ∀ fresh (xs : Fin 5 → K) (s : K),
            (H.vmult fresh (xs - s • badU) (A.mulVec xs)).result = .ok xs) from
      hfin _ _ _ (badDisc_matrix g t) hR hAP
    rintro A R AP rfl rfl rfl
    have hrun : ∀ AP : Matrix (Fin 5) (Fin 2) K, (badR * AP).det ≠ 0 → ∃ H,
        (buildHierarchy debug timer (some p) (.ok (fastHelpers debug type (fun l => [own l]) (badA g t) badR AP
          solve))).result = .ok H ∧ ∀ fresh (xs x : Fin 5 → K), ∃ y : Fin 5 → K,
          (H.vmult fresh x ((badA g t).mulVec xs)).result = .ok y ∧ xs - y =
          (fun e => e - relaxVmult .jacobi (badA g t) [o] ((badA g t).mulVec e))^[N]
            ((fun e => e - badR.transpose.mulVec ((badR * AP)⁻¹.mulVec (badR.mulVec ((badA g t).mulVec e))))
          ((fun e => e - relaxVmult .jacobi (badA g t) [o] ((badA g t).mulVec e))^[N] (xs - x))) := by
      subst ho
      intro AP hdet
      obtain ⟨H, hH, hlin, hL, hp, hn⟩ := fastHelpers_build debug timer p type _ _ htype rfl (fun l => [own l])
        (badA g t) badR AP hdet solve hsolve hlev (by rw [hfast]; rfl)
      refine ⟨H, hH, ?_⟩
      intro fresh xs x
      have hp' : H.isPreconditioner = false := by rw [hp, hpre]; rfl
      obtain ⟨y, hy⟩ : ∃ y : Fin 5 → K, cycle (fastData .jacobi (fun l => [own l]) (badA g t) badR AP)
        H.nSmoothingSteps 1 0 ((badA g t).mulVec xs) x = y := ⟨_, rfl⟩
      have hc := C04_cycle_is_textbook H _ hlin fresh x ((badA g t).mulVec xs) (Or.inr (by omega))
      rw [hp', hL] at hc
      refine ⟨y, hc.trans (congrArg Outcome.ok hy), ?_⟩
      rw [hn, ← hN] at hy
      exact fast_cycle_err .jacobi _ (badA g t) badR AP N _ x xs y rfl hy
    refine ⟨?_, ?_⟩
    · obtain ⟨H, hH, h3⟩ := hrun (badAP t) (bad_det ht0)
      refine ⟨H, hH, _, bad_factor N, ?_⟩
      intro fresh xs s
      obtain ⟨y, h4, h5⟩ := h3 fresh xs (xs - s • badU)
      refine ⟨y, h4, ?_⟩
      rw [sub_sub_cancel, bad_smooth hg0 ht0 hflat] at h5
      simp only [bad_correction ht0] at h5
      rw [bad_smooth hg0 ht0 hflat] at h5
      refine h5.trans ?_
      rw [hg]
      congr 1
      ring
    · obtain ⟨H, hH, h3⟩ := hrun (badA g t * badR.transpose) (good_correction ht0 0).1
      refine ⟨H, hH, ?_⟩
      intro fresh xs s
      obtain ⟨y, h4, h5⟩ := h3 fresh xs (xs - s • badU)
      rw [sub_sub_cancel, bad_smooth hg0 ht0 hflat] at h5
      simp only [(good_correction ht0 _).2] at h5
      have h6 := bad_smooth hg0 ht0 hflat N (0 : K)
      rw [zero_smul, zero_mul, zero_smul] at h6
      rw [h6] at h5
      exact h4.trans (congrArg Outcome.ok (sub_eq_zero.1 h5).symm)

end cycle

/-! ### Concrete cases -/

/-- Three cells on a line with wrong eigenvalues: the product of the `fast_ap` branch is off by 1/10 of the first
eigenvector, in the dof of the end of the line for example. -/
example : ∃ mats ap, fastAP true true true 3 (fun _ => true) (fun c => c / 2 + 1) 2 exDisc.conn
    (canonicalEval exDisc) (fun x => exDisc.A x x) 5
    (collect [⟨[1 / 10], [[1, 1, 1]], [1, 2, 1], [0, 1, 2]⟩, ⟨[1 / 5], [[2, 2]], [1, 1], [3, 2]⟩])
    (wsSequential 2) (wsSequential 2) = .ok (mats, ap) ∧
    ap 0 5 = (∑ y ∈ Finset.range 4, exDisc.A 0 y * mats.R 5 y) + 1 / 10 := by
  obtain ⟨mats, ap, h1, h2⟩ := C111_residual true true true exDisc (by decide) exDisc_sound (canonicalEval exDisc)
    (canonicalEval_faithful exDisc exDisc_sound) (fun x => exDisc.A x x) (by
      intro c x hc _ hx
      refine ⟨rfl, ?_⟩
      have hx4 := exDisc_sound.dofs_lt c x hx
      simp only [exDisc] at hx4
      interval_cases x <;> decide +kernel) 5 1
    [⟨[1 / 10], [[1, 1, 1]], [1, 2, 1], [0, 1, 2]⟩, ⟨[1 / 5], [[2, 2]], [1, 1], [3, 2]⟩] rfl (by
      intro a c ha
      match a with
      | 0 =>
        simp only [List.getElem?_cons_zero, Option.some.injEq] at ha
        subst ha
        exact ⟨⟨⟨by decide, rfl, by decide⟩, exLocal0_exact.dofs, exLocal0_exact.diag, rfl⟩, rfl⟩
      | 1 =>
        simp only [List.getElem?_cons_succ, List.getElem?_cons_zero, Option.some.injEq] at ha
        subst ha
        exact ⟨⟨⟨by decide, rfl, by decide⟩, exLocal1_exact.dofs, exLocal1_exact.diag, rfl⟩, rfl⟩
      | a + 2 => simp at ha) (Or.inl (by
      intro a ha
      simp only [exDisc] at ha
      interval_cases a
      · exact ⟨1, by decide, by decide, 2, by decide, by decide⟩
      · exact ⟨2, by decide, by decide, 1, by decide, by decide⟩)) _ _ (wsSequential_legal 2) (wsSequential_legal 2)
  refine ⟨mats, ap, h1, (h2 0 0 _ _ _ rfl rfl rfl 0).trans ?_⟩
  congr 1
  decide +kernel

/-- The parameters of the examples. -/
def exFastParams : Params := { isPreconditioner := some false, fastAp := some true }

/-- Two unknowns, one coarse unknown, and a product that is wrong in the first entry. -/
example : ∃ H, (buildHierarchy true false (some exFastParams) (.ok (fastHelpers true none
      (fun l => [List.finRange (twoLevels 2 1 l)]) (!![2, -1; -1, 2] : Matrix (Fin 2) (Fin 2) ℚ) !![1, 1] !![3 / 2; 1]
      (fun l => exInvSolve l (twoLevels 2 1))))).result = .ok H ∧
    ∀ fresh (x b xs : Fin 2 → ℚ), (!![2, -1; -1, 2] : Matrix (Fin 2) (Fin 2) ℚ).mulVec xs = b → x ≠ xs →
      ∃ y : Fin 2 → ℚ, (H.vmult fresh x b).result = .ok y ∧
        energyOf !![2, -1; -1, 2] (xs - y) < energyOf !![2, -1; -1, 2] (xs - x) := by
  refine C111_cycle true false exFastParams none (Or.inl rfl) 2 1 (fun l => List.finRange (twoLevels 2 1 l))
    ⟨List.nodup_finRange _, List.mem_finRange⟩ _ ?_ _ ?_ _ ?_ _ (fun l => exInvSolve_exact _ l) rfl rfl rfl (by decide)
  · refine ⟨?_, ?_⟩
    · ext i j
      fin_cases i <;> fin_cases j <;> rfl
    · intro v hv
      have h1 : v ⬝ᵥ (!![2, -1; -1, 2] : Matrix (Fin 2) (Fin 2) ℚ).mulVec v
          = (v 0 - v 1) ^ 2 + v 0 ^ 2 + v 1 ^ 2 := by
        simp [Matrix.mulVec, dotProduct, Fin.sum_univ_two]
        ring
      rw [h1]
      by_contra h
      refine hv ?_
      have f := sq_nonneg (v 0 - v 1)
      have f0 := sq_nonneg (v 0)
      have f1 := sq_nonneg (v 1)
      have z0 : v 0 = 0 := pow_eq_zero_iff two_ne_zero |>.1 (by linarith)
      have z1 : v 1 = 0 := pow_eq_zero_iff two_ne_zero |>.1 (by linarith)
      funext i
      fin_cases i
      · exact z0
      · exact z1
  · intro w hw
    have h := congrFun hw 0
    funext i
    fin_cases i
    simpa [Matrix.mulVec, dotProduct] using h
  · intro w
    simp [energyOf, Matrix.mulVec, dotProduct, Fin.sum_univ_two]
    nlinarith [mul_self_nonneg (w 0)]

/-- Eigenpairs of the two cells with wrong eigenvalues: 9/2 in place of 4. -/
def exInexact : List (CopyData ℚ) :=
  [⟨[9 / 2], [[1, -1, 0]], [4, 4, 1], [0, 1, 2]⟩, ⟨[9 / 2], [[0, 1, -1]], [1, 4, 4], [2, 3, 4]⟩]

theorem exInexact_local {a : ℕ} {c : CopyData ℚ} (h : exInexact[a]? = some c) :
    LocalData (badDisc 0 1) a c ∧ c.eigenvectors.length = 1 ∧ (badDisc 0 1).Within a c (1 / 2) := by
  match a with
  | 0 =>
    have hd := (badData_local (0 : ℚ) 1 (a := 0) rfl).1
    obtain rfl := Option.some.inj h
    refine ⟨⟨⟨by decide, rfl, by decide⟩, hd.dofs, ?_, rfl⟩, rfl, ?_⟩
    · intro x hx
      rw [← hd.diag x hx]
      norm_num
    · intro k lam v h1 h2
      match k with
      | 0 =>
        obtain rfl := Option.some.inj h1
        obtain rfl := Option.some.inj h2
        decide +kernel
      | k + 1 => simp at h1
  | 1 =>
    have hd := (badData_local (0 : ℚ) 1 (a := 1) rfl).1
    obtain rfl := Option.some.inj h
    refine ⟨⟨⟨by decide, rfl, by decide⟩, hd.dofs, ?_, rfl⟩, rfl, ?_⟩
    · intro x hx
      rw [← hd.diag x hx]
      norm_num
    · intro k lam v h1 h2
      match k with
      | 0 =>
        obtain rfl := Option.some.inj h1
        obtain rfl := Option.some.inj h2
        decide +kernel
      | k + 1 => simp at h1
  | a + 2 => simp [exInexact] at h

/-- Two cells, five dofs: the wrong eigenvalues satisfy the condition of `C111_tolerance_partial`. -/
example : ∃ mats ap, fastAP true true true 2 (fun _ => true) (fun c => c + 1) 2 (badDisc (0 : ℚ) 1).conn
      (canonicalEval (badDisc 0 1)) (fun x => (badDisc (0 : ℚ) 1).A x x) 0 (collect exInexact) (wsSequential 2)
      (wsSequential 2) = .ok (mats, ap) ∧
    ∃ H, (buildHierarchy true false (some exFastParams) (.ok (fastHelpers true none
        (fun l => [List.finRange (twoLevels 5 2 l)]) (badDisc (0 : ℚ) 1).matrix (mats.R.block 2 5) (ap.block 5 2)
        (fun l => exInvSolve l (twoLevels 5 2))))).result = .ok H ∧
      ∀ fresh (x b xs : Fin 5 → ℚ), (badDisc (0 : ℚ) 1).matrix.mulVec xs = b → x ≠ xs →
        ∃ y : Fin 5 → ℚ, (H.vmult fresh x b).result = .ok y ∧
          energyOf (badDisc (0 : ℚ) 1).matrix (xs - y) < energyOf (badDisc (0 : ℚ) 1).matrix (xs - x) := by
  have hD := badDisc_sound (0 : ℚ) 1
  have hpe := canonicalEval_faithful _ hD
  have hg : ∀ c x, c < (badDisc (0 : ℚ) 1).nCells → (badDisc (0 : ℚ) 1).owned c = true →
      x ∈ (badDisc (0 : ℚ) 1).cellDofs c →
      (badDisc (0 : ℚ) 1).A x x = (badDisc (0 : ℚ) 1).A x x ∧ (badDisc (0 : ℚ) 1).A x x ≠ 0 := by
    intro c x _ _ hx
    refine ⟨rfl, ?_⟩
    have hx5 : x < 5 := hD.dofs_lt c x hx
    interval_cases x <;> decide +kernel
  have hout : ∀ a, a < (badDisc (0 : ℚ) 1).nAgg → (badDisc (0 : ℚ) 1).HasOutside a := by
    intro a ha
    change a < 2 at ha
    interval_cases a
    · exact ⟨0, by decide, by decide, 1, by decide, by decide⟩
    · exact ⟨1, by decide, by decide, 0, by decide, by decide⟩
  obtain ⟨mats, ap, h1, h2⟩ := C111_tolerance_partial true true true false (badDisc (0 : ℚ) 1) (by decide) hD
    (canonicalEval (badDisc 0 1)) hpe (fun x => (badDisc (0 : ℚ) 1).A x x) hg 1 exInexact rfl (1 / 2)
    (fun a c h => exInexact_local h) (Or.inl hout) (wsSequential 2) (wsSequential 2) (wsSequential_legal 2)
    (wsSequential_legal 2) (by
      rw [badDisc_matrix]
      exact bad_spd le_rfl one_pos) 2 (fun x => (Finset.card_filter_le _ _).trans (by decide)) (1 / 2) 8 (by norm_num)
    (by norm_num) (by
      rw [badDisc_matrix]
      change ∀ e : Fin 5 → ℚ, _
      intro e
      have h3 : energyOf (badA 0 1) e - 1 / 2 * (e ⬝ᵥ e) = 7 / 2 * ((e 0 + 2 / 7 * e 2) ^ 2 + (e 1 + 2 / 7 * e 2) ^ 2
          + (e 3 + 2 / 7 * e 2) ^ 2 + (e 4 + 2 / 7 * e 2) ^ 2) + 5 / 14 * e 2 ^ 2 := by
        simp [energyOf, badA, Matrix.mulVec, dotProduct, Fin.sum_univ_five]
        ring
      have h4 : 0 ≤ energyOf (badA 0 1) e - 1 / 2 * (e ⬝ᵥ e) := by
        rw [h3]
        positivity
      exact sub_nonneg.1 h4) (by norm_num) exFastParams none (Or.inl rfl) (fun l => List.finRange (twoLevels 5 2 l))
    ⟨List.nodup_finRange _, List.mem_finRange⟩ (fun l => exInvSolve l (twoLevels 5 2))
    (fun l => exInvSolve_exact _ l) rfl rfl rfl (by decide)
  refine ⟨mats, ap, h1, h2 ?_⟩
  obtain ⟨mats', ap', h5, h6⟩ := fastAP_residual true true true (badDisc (0 : ℚ) 1) (by decide) hD
    (canonicalEval (badDisc 0 1)) hpe (fun x => (badDisc (0 : ℚ) 1).A x x) hg 0 1 exInexact rfl
    (fun a c h => ⟨(exInexact_local h).1, (exInexact_local h).2.1⟩) (Or.inl hout) (wsSequential 2) (wsSequential 2)
    (wsSequential_legal 2) (wsSequential_legal 2)
  obtain ⟨rfl, rfl⟩ := Prod.mk.inj (Outcome.ok.inj (h1.symm.trans h5))
  have hR : mats.R.block 2 5 = !![1, -1, 0, 0, 0; 0, 0, 0, 1, -1] := by
    ext a x
    fin_cases a
    · refine ((h6 0 0 _ _ _ rfl rfl rfl x.val).1).trans ?_
      fin_cases x <;> decide +kernel
    · refine ((h6 1 0 _ _ _ rfl rfl rfl x.val).1).trans ?_
      fin_cases x <;> decide +kernel
  suffices h : ∀ R : Matrix (Fin 2) (Fin 5) ℚ, R = !![1, -1, 0, 0, 0; 0, 0, 0, 1, -1] →
      ∀ w, 8 * (w ⬝ᵥ w) ≤ energyOf (badA 0 1) (R.transpose.mulVec w) by
    rw [badDisc_matrix]
    exact h _ hR
  rintro R rfl w
  simp [energyOf, badA, Matrix.mulVec, dotProduct, Fin.sum_univ_two, Fin.sum_univ_five]
  linarith

/-- Residuals below `1e-6`, ten Jacobi steps before and after the correction. -/
example : ∃ (D : Disc ℚ) (cs : List (CopyData ℚ)), D.Sound ∧ IsSpd D.matrix ∧
    ∀ (a : ℕ) (c : CopyData ℚ), cs[a]? = some c → D.Within a c (1 / 10 ^ 12) ∧ D.Ritz a c := by
  obtain ⟨D, cs, -, h1, -, h2, -, -, h3, -⟩ := C111_tolerance_violated true true true false
    { exFastParams with nSmoothingSteps := some 10 } (some (chars! "Jacobi")) rfl rfl rfl rfl (1 / 10 ^ 12 : ℚ)
    (by norm_num)
  exact ⟨D, cs, h1, h2, fun a c h => ⟨(h3 a c h).2.2.1, (h3 a c h).2.2.2⟩⟩

end Mfmg
