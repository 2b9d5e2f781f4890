import Verif.Props.TwoLevel
import Verif.Lemmas.Chebyshev

/-!
# Convergence with the Chebyshev smoother of matrix-free hierarchies (C78)
-/

set_option autoImplicit false

namespace Mfmg

open Spec

section

variable {n : ℕ}

/-- The interval of the settings is the documented one. -/
theorem chebyshevInterval_settings (d : ChebyshevData ℝ) (ritz : List ℝ) :
    chebyshevInterval d.settings ritz = (lowerEnd d.smoothingRange ritz, upperEnd ritz) := by
  have h : (ritz.getLast?.map fun m => 6 / 5 * m).getD 1 = upperEnd ritz := by
    unfold upperEnd
    cases ritz.getLast? <;> rfl
  simp only [chebyshevInterval, ChebyshevData.settings, lowerEnd, Nat.ofNat_pos, if_true, h]

theorem upperEnd_pos {ritz : List ℝ} (h : ∀ m ∈ ritz, 0 < m) : 0 < upperEnd ritz := by
  unfold upperEnd
  cases hl : ritz.getLast? with
  | none => norm_num
  | some m =>
    have := h m (List.mem_of_getLast? hl)
    simp only
    linarith

theorem lowerEnd_pos (range : Option ℝ) {ritz : List ℝ} (h : ∀ m ∈ ritz, 0 < m) :
    0 < lowerEnd range ritz := by
  have hu := upperEnd_pos h
  unfold lowerEnd
  split_ifs with hr
  · exact div_pos hu (by linarith)
  · refine lt_min (by linarith) ?_
    cases ritz with
    | nil => simp
    | cons m t => simpa using h m List.mem_cons_self

theorem lowerEnd_le (range : Option ℝ) {ritz : List ℝ} (h : ∀ m ∈ ritz, 0 < m) :
    lowerEnd range ritz ≤ upperEnd ritz := by
  have hu := upperEnd_pos h
  unfold lowerEnd
  split_ifs with hr
  · exact div_le_self hu.le hr.le
  · exact (min_le_left _ _).trans (by linarith)

/-- The preconditioner as a linear map. -/
noncomputable def chebLin (s : ChebyshevSettings ℝ) (auto : ℕ) (ritz : List ℝ)
    (A : Matrix (Fin n) (Fin n) ℝ) (dinv : Fin n → ℝ) : (Fin n → ℝ) →ₗ[ℝ] (Fin n → ℝ) where
  toFun := chebyshevVmult s auto ritz A.mulVec dinv
  map_add' := by
    intro r r'
    have := chebyshevVmult_linear s auto ritz (A := A.mulVec) (by
      intro c d u v
      rw [Matrix.mulVec_add, Matrix.mulVec_smul, Matrix.mulVec_smul]) dinv 1 1 r r'
    simpa using this
  map_smul' := by
    intro c r
    have := chebyshevVmult_linear s auto ritz (A := A.mulVec) (by
      intro c d u v
      rw [Matrix.mulVec_add, Matrix.mulVec_smul, Matrix.mulVec_smul]) dinv c 0 r 0
    simpa using this

/-- The factor of an eigenvalue for the settings of the user. -/
noncomputable def userFactor (d : ChebyshevData ℝ) (auto : ℕ) (ritz : List ℝ) (lam : ℝ) : ℝ :=
  chebFactor (effectiveDegree d.settings auto)
    ((upperEnd ritz - lowerEnd d.smoothingRange ritz) / 2)
    ((upperEnd ritz + lowerEnd d.smoothingRange ritz) / 2) lam

theorem chebLin_eigen (d : ChebyshevData ℝ) (auto : ℕ) {ritz : List ℝ} (h : ∀ m ∈ ritz, 0 < m)
    (A : Matrix (Fin n) (Fin n) ℝ) (dinv : Fin n → ℝ) {v : Fin n → ℝ} {lam : ℝ}
    (hv : ∀ i, dinv i * A.mulVec v i = lam * v i) :
    v - chebLin d.settings auto ritz A dinv (A.mulVec v) = userFactor d auto ritz lam • v :=
  chebyshevVmult_eigen d.settings auto ritz (fun c v => Matrix.mulVec_smul A c v) dinv
    (chebyshevInterval_settings d ritz) hv (lowerEnd_pos _ h) (lowerEnd_le _ h)

theorem chebLin_combination (d : ChebyshevData ℝ) (auto : ℕ) {ritz : List ℝ} (h : ∀ m ∈ ritz, 0 < m)
    (A : Matrix (Fin n) (Fin n) ℝ) (dinv : Fin n → ℝ) {v : Fin n → Fin n → ℝ} {lam : Fin n → ℝ}
    (hv : ∀ j i, dinv i * A.mulVec (v j) i = lam j * v j i) (c : Fin n → ℝ) :
    (∑ j, c j • v j) - chebLin d.settings auto ritz A dinv (A.mulVec (∑ j, c j • v j))
      = ∑ j, (userFactor d auto ritz (lam j) * c j) • v j := by
  rw [Matrix.mulVec_sum, map_sum, ← Finset.sum_sub_distrib]
  apply Finset.sum_congr rfl
  intro j _
  rw [Matrix.mulVec_smul, map_smul, ← smul_sub, chebLin_eigen d auto h A dinv (hv j), smul_smul, mul_comm]

theorem userFactor_lt (d : ChebyshevData ℝ) (auto : ℕ) {ritz : List ℝ} (h : ∀ m ∈ ritz, 0 < m) {lam : ℝ}
    (h0 : 0 < lam) (h1 : lam < upperEnd ritz + lowerEnd d.smoothingRange ritz) :
    |userFactor d auto ritz lam| < 1 := by
  have a1 := lowerEnd_pos d.smoothingRange h
  have a2 := lowerEnd_le d.smoothingRange h
  exact chebFactor_lt _ (by linarith) (by linarith) h0 (by linarith)

theorem userFactor_ge (d : ChebyshevData ℝ) (auto : ℕ) {ritz : List ℝ} (h : ∀ m ∈ ritz, 0 < m) {lam : ℝ}
    (h1 : upperEnd ritz + lowerEnd d.smoothingRange ritz ≤ lam) : 1 ≤ |userFactor d auto ritz lam| := by
  have a1 := lowerEnd_pos d.smoothingRange h
  have a2 := lowerEnd_le d.smoothingRange h
  exact chebFactor_ge _ (by linarith) (by linarith) (by linarith)

theorem userFactor_gt (d : ChebyshevData ℝ) (auto : ℕ) {ritz : List ℝ} (h : ∀ m ∈ ritz, 0 < m) {lam : ℝ}
    (h1 : upperEnd ritz + lowerEnd d.smoothingRange ritz < lam) : 1 < |userFactor d auto ritz lam| := by
  have a1 := lowerEnd_pos d.smoothingRange h
  have a2 := lowerEnd_le d.smoothingRange h
  exact chebFactor_gt _ (by linarith) (by linarith) (by linarith)

/-- One smoothing step decreases the energy. -/
theorem chebLin_energy_lt (d : ChebyshevData ℝ) (auto : ℕ) {ritz : List ℝ} (h : ∀ m ∈ ritz, 0 < m)
    {A : Matrix (Fin n) (Fin n) ℝ} (hA : IsSpd A) {dinv : Fin n → ℝ} (hd : ∀ i, 0 < dinv i)
    (hlam : ∀ lam, ScaledEigenvalue A dinv lam → lam < upperEnd ritz + lowerEnd d.smoothingRange ritz)
    (e : Fin n → ℝ) (he : e ≠ 0) :
    energyOf A (e - chebLin d.settings auto ritz A dinv (A.mulVec e)) < energyOf A e := by
  obtain ⟨v, lam, hl, hv0, hv, horth, hspan⟩ := scaled_basis hA hd
  obtain ⟨c, rfl⟩ := hspan e
  rw [chebLin_combination d auto h A dinv hv, energy_combination horth, energy_combination horth]
  have hf : ∀ j, |userFactor d auto ritz (lam j)| < 1 := fun j =>
    userFactor_lt d auto h (hl j) (hlam _ ⟨v j, hv0 j, hv j⟩)
  have hsq : ∀ j, userFactor d auto ritz (lam j) * userFactor d auto ritz (lam j) < 1 := by
    intro j
    have := hf j
    rw [abs_lt] at this
    nlinarith
  have key : ∀ j, lam j * (userFactor d auto ritz (lam j) * c j * (userFactor d auto ritz (lam j) * c j))
      = lam j * (c j * c j) * (userFactor d auto ritz (lam j) * userFactor d auto ritz (lam j)) := by
    intro j; ring
  simp only [key]
  obtain ⟨j, hj⟩ : ∃ j, c j ≠ 0 := by
    by_contra hc
    push Not at hc
    exact he (by simp [hc])
  apply Finset.sum_lt_sum
  · intro k _
    have : 0 ≤ lam k * (c k * c k) := mul_nonneg (hl k).le (mul_self_nonneg _)
    nlinarith [hsq k]
  · refine ⟨j, Finset.mem_univ _, ?_⟩
    have : 0 < lam j * (c j * c j) := mul_pos (hl j) (mul_self_pos.2 hj)
    nlinarith [hsq j]

theorem matrixFreeSmootherApply_err (s : ChebyshevSettings ℝ) (auto : ℕ) (ritz : List ℝ)
    (A : Matrix (Fin n) (Fin n) ℝ) (dinv b x xs : Fin n → ℝ) (hxs : A.mulVec xs = b) :
    xs - matrixFreeSmootherApply (chebyshevVmult s auto ritz A.mulVec dinv) (matrixOp A) b x
      = (xs - x) - chebLin s auto ritz A dinv (A.mulVec (xs - x)) := by
  change xs - (x - chebLin s auto ritz A dinv (A.mulVec x - b)) = _
  have h1 : A.mulVec x - b = -A.mulVec (xs - x) := by rw [Matrix.mulVec_sub, hxs]; abel
  rw [h1, map_neg]
  abel

/-- **C78**, one smoothing step: with positive eigenvalue estimates, the Chebyshev smoother decreases the
energy of the error of every vector that is not the solution exactly if every eigenvalue of the scaled matrix
is below the sum of the two ends of its interval, whatever degree the user sets. -/
theorem C78_smoother_iff (d : ChebyshevData ℝ) (auto : ℕ) (ritz : List ℝ) (h : ∀ m ∈ ritz, 0 < m)
    (A : Matrix (Fin n) (Fin n) ℝ) (hA : IsSpd A) (dinv : Fin n → ℝ) (hd : ∀ i, 0 < dinv i) :
    (∀ b x xs, A.mulVec xs = b → x ≠ xs →
      energyOf A (xs - matrixFreeSmootherApply (chebyshevVmult d.settings auto ritz A.mulVec dinv)
        (matrixOp A) b x) < energyOf A (xs - x)) ↔
    ∀ lam, ScaledEigenvalue A dinv lam → lam < upperEnd ritz + lowerEnd d.smoothingRange ritz := by
  constructor
  · rintro hall lam ⟨v, hv0, hv⟩
    by_contra hlam
    have hlt := hall (A.mulVec v) 0 v rfl (Ne.symm hv0)
    rw [matrixFreeSmootherApply_err _ _ _ _ _ _ _ _ rfl, sub_zero, chebLin_eigen d auto h A dinv hv,
      energyOf_smul] at hlt
    have hge := userFactor_ge d auto h (not_lt.1 hlam)
    have hpos : 0 < energyOf A v := hA.2 v hv0
    have : 1 ≤ userFactor d auto ritz lam * userFactor d auto ritz lam := by
      rw [← abs_mul_abs_self]
      nlinarith
    nlinarith
  · intro hlam b x xs hxs hx
    rw [matrixFreeSmootherApply_err _ _ _ _ _ _ _ _ hxs]
    exact chebLin_energy_lt d auto h hA hd hlam _ (sub_ne_zero.2 (Ne.symm hx))

/-- **C78**, the degree: a smoothing step with the degree `k ≥ 2` set by the user multiplies the error in the
direction of an eigenvector by the Chebyshev polynomial of that degree, scaled to the interval and normalised to
one at zero; all components with eigenvalues in the interval are reduced at least by the optimal factor. -/
theorem C78_degree {n : ℕ} (k : ℕ) (hk : 2 ≤ k) (hk' : k < 2 ^ 32 - 1) (range maxEigenvalue : Option ℝ)
    (auto : ℕ) (ritz : List ℝ) (h : ∀ m ∈ ritz, 0 < m)
    (hwide : 2 / 10 ^ 40 ≤ upperEnd ritz - lowerEnd range ritz)
    (A : Matrix (Fin n) (Fin n) ℝ) (dinv : Fin n → ℝ) (b x xs : Fin n → ℝ) (hxs : A.mulVec xs = b) (lam : ℝ)
    (hlam : ∀ i, dinv i * A.mulVec (xs - x) i = lam * (xs - x) i) :
    ∃ q : ℝ, xs - matrixFreeSmootherApply
        (chebyshevVmult (ChebyshevData.settings ⟨some (k : ℤ), range, maxEigenvalue⟩) auto ritz A.mulVec dinv)
        (matrixOp A) b x = q • (xs - x) ∧
      q = (Polynomial.Chebyshev.T ℝ k).eval
          ((upperEnd ritz + lowerEnd range ritz - 2 * lam) / (upperEnd ritz - lowerEnd range ritz))
        / (Polynomial.Chebyshev.T ℝ k).eval
          ((upperEnd ritz + lowerEnd range ritz) / (upperEnd ritz - lowerEnd range ritz)) ∧
      (lowerEnd range ritz ≤ lam → lam ≤ upperEnd ritz → |q| ≤ 1 / (Polynomial.Chebyshev.T ℝ k).eval
          ((upperEnd ritz + lowerEnd range ritz) / (upperEnd ritz - lowerEnd range ritz))) := by
  set d : ChebyshevData ℝ := ⟨some (k : ℤ), range, maxEigenvalue⟩ with hd
  have hpos : (0 : ℝ) < upperEnd ritz - lowerEnd range ritz := lt_of_lt_of_le (by positivity) hwide
  have hlow := lowerEnd_pos range h
  have hdeg : effectiveDegree d.settings auto = k := by
    have e : d.settings.degree = k := by
      change toUnsigned (k : ℤ) = k
      unfold toUnsigned
      have : (k : ℤ) % 2 ^ 32 = k := Int.emod_eq_of_lt (by omega) (by
        have : (k : ℤ) < ((2 ^ 32 - 1 : ℕ) : ℤ) := by exact_mod_cast hk'
        norm_num at this ⊢
        omega)
      rw [this]
      rfl
    rw [effectiveDegree, e, if_neg (by omega)]
  have hq : userFactor d auto ritz lam = (Polynomial.Chebyshev.T ℝ k).eval
          ((upperEnd ritz + lowerEnd range ritz - 2 * lam) / (upperEnd ritz - lowerEnd range ritz))
        / (Polynomial.Chebyshev.T ℝ k).eval
          ((upperEnd ritz + lowerEnd range ritz) / (upperEnd ritz - lowerEnd range ritz)) := by
    rw [userFactor, hdeg, chebFactor, if_neg]
    · have e1 : ((upperEnd ritz + lowerEnd d.smoothingRange ritz) / 2 - lam)
          / ((upperEnd ritz - lowerEnd d.smoothingRange ritz) / 2)
          = (upperEnd ritz + lowerEnd range ritz - 2 * lam) / (upperEnd ritz - lowerEnd range ritz) := by
        have := hpos.ne'
        change ((upperEnd ritz + lowerEnd range ritz) / 2 - lam)
          / ((upperEnd ritz - lowerEnd range ritz) / 2) = _
        field_simp
      have e2 : ((upperEnd ritz + lowerEnd d.smoothingRange ritz) / 2)
          / ((upperEnd ritz - lowerEnd d.smoothingRange ritz) / 2)
          = (upperEnd ritz + lowerEnd range ritz) / (upperEnd ritz - lowerEnd range ritz) := by
        have := hpos.ne'
        change ((upperEnd ritz + lowerEnd range ritz) / 2)
          / ((upperEnd ritz - lowerEnd range ritz) / 2) = _
        field_simp
      rw [e1, e2]
      rfl
    · push Not
      refine ⟨hk, ?_⟩
      change 1 / 10 ^ 40 ≤ |(upperEnd ritz - lowerEnd range ritz) / 2|
      rw [abs_of_pos (by linarith)]
      linarith
  refine ⟨userFactor d auto ritz lam, ?_, hq, ?_⟩
  · rw [matrixFreeSmootherApply_err _ _ _ _ _ _ _ _ hxs, chebLin_eigen d auto h A dinv hlam]
  · intro h1 h2
    have hone : 1 ≤ (Polynomial.Chebyshev.T ℝ k).eval
        ((upperEnd ritz + lowerEnd range ritz) / (upperEnd ritz - lowerEnd range ritz)) :=
      chebT_one_le k (by rw [le_div_iff₀ hpos]; linarith)
    rw [hq, abs_div, abs_of_pos (a := (Polynomial.Chebyshev.T ℝ k).eval
        ((upperEnd ritz + lowerEnd range ritz) / (upperEnd ritz - lowerEnd range ritz))) (by linarith)]
    apply div_le_div_of_nonneg_right _ (by linarith)
    apply Polynomial.Chebyshev.abs_eval_T_real_le_one
    rw [abs_le]
    constructor
    · rw [le_div_iff₀ hpos]; linarith
    · rw [div_le_iff₀ hpos]; linarith

/-- Estimates that are Ritz values of a symmetric positive definite matrix are positive. -/
theorem ritz_pos {s : Fin n → ℝ} {A : Matrix (Fin n) (Fin n) ℝ} (hA : IsSpd A) {dinv : Fin n → ℝ}
    (hd : ∀ i, 0 < dinv i) {ritz : List ℝ} (h : RitzContract s A dinv ritz) : ∀ m ∈ ritz, 0 < m := by
  intro m hm
  obtain ⟨w, _, hw, he⟩ := h m hm
  have h1 : 0 < w ⬝ᵥ A.mulVec w := hA.2 w hw
  have h2 : 0 ≤ ∑ i, w i * w i / dinv i :=
    Finset.sum_nonneg fun i _ => div_nonneg (mul_self_nonneg _) (hd i).le
  by_contra hm'
  have := mul_nonpos_of_nonpos_of_nonneg (not_lt.1 hm') h2
  linarith

end

/-! ### The hierarchy -/

/-- The linear maps of the matrix-free hierarchy. -/
noncomputable def matrixFreeData (s : ChebyshevSettings ℝ) (auto : ℕ) (dims : ℕ → ℕ) (ritz : List ℝ)
    (dinv : ∀ l, Fin (dims l) → ℝ) (A : Matrix (Fin (dims 0)) (Fin (dims 0)) ℝ)
    (R : ∀ l, Matrix (Fin (dims (l + 1))) (Fin (dims l)) ℝ) : Data ℝ (fun l => Fin (dims l) → ℝ) where
  A := fun l => (coarseMatrix dims A R l).mulVecLin
  B := fun l => chebLin s auto ritz (coarseMatrix dims A R l) (dinv l)
  R := fun l => (R l).mulVecLin
  P := fun l => (R l).transpose.mulVecLin
  C := fun l => (coarseMatrix dims A R l)⁻¹.mulVecLin

theorem matrixFreeSmoother_ok (debug : Bool) (type : Option (List Char))
    (htype : EqNoCase (type.getD (chars! "Chebyshev")) (chars! "chebyshev")) (degree : Option ℤ)
    (range maxEigenvalue : Option ℝ) :
    matrixFreeSmoother debug true type degree range maxEigenvalue = .ok ⟨degree, range, maxEigenvalue⟩ := by
  cases type with
  | none => exact (C37_matrix_free_smoother debug (chars! "Chebyshev") degree range maxEigenvalue).2.2
  | some name => exact (C37_matrix_free_smoother debug name degree range maxEigenvalue).1 htype

/-- Construction of a two-level hierarchy. -/
theorem matrixFreeHelpers_build (debug timer : Bool) (p : Params) (type : Option (List Char))
    (htype : EqNoCase (type.getD (chars! "Chebyshev")) (chars! "chebyshev")) (degree : Option ℤ)
    (range maxEigenvalue : Option ℝ) (auto : ℕ) (dims : ℕ → ℕ) (dinv : ∀ l, Fin (dims l) → ℝ)
    (estimate : ∀ l, ((Fin (dims l) → ℝ) → Fin (dims l) → ℝ) → (Fin (dims l) → ℝ) → List ℝ)
    (A : Matrix (Fin (dims 0)) (Fin (dims 0)) ℝ) (hA : IsSpd A)
    (R : ∀ l, Matrix (Fin (dims (l + 1))) (Fin (dims l)) ℝ) (hR : ∀ l, IndependentRows (R l))
    (solve : ∀ l, Matrix (Fin (dims l)) (Fin (dims l)) ℝ → (Fin (dims l) → ℝ) → Fin (dims l) → ℝ)
    (hsolve : ∀ l, SolvesExactly (solve l)) (hlev : p.maxLevels.getD 2 = 2)
    (hfast : p.fastAp.getD false = false) :
    ∃ H, (buildHierarchy debug timer (some p) (.ok (matrixFreeHelpers debug type degree range maxEigenvalue
        auto dims dinv estimate A R solve))).result = .ok H ∧
      IsLinear H (matrixFreeData (ChebyshevData.settings ⟨degree, range, maxEigenvalue⟩) auto dims
        (estimate 0 A.mulVec (dinv 0)) dinv A R) ∧ H.numLevels = 2 ∧
      H.isPreconditioner = p.isPreconditioner.getD true ∧
      H.nSmoothingSteps = toUnsigned (p.nSmoothingSteps.getD 1) := by
  set s : ChebyshevSettings ℝ := ChebyshevData.settings ⟨degree, range, maxEigenvalue⟩ with hs
  set h := matrixFreeHelpers debug type degree range maxEigenvalue auto dims dinv estimate A R solve with hh
  have hsm : ∀ a, h.buildSmoother 0 a p = .ok (matrixFreeSmootherApply
      (chebyshevVmult s auto (estimate 0 a.fwd (dinv 0)) a.fwd (dinv 0)) a) := by
    intro a
    simp [hh, matrixFreeHelpers, matrixFreeSmoother_ok debug type htype degree range maxEigenvalue, hs]
  have hN : (p.maxLevels.getD 2).toNat = 2 := by rw [hlev]; rfl
  obtain ⟨L, hL⟩ : ∃ L, (buildLoop h p timer 2 0 (initLevels (matrixOp A))).result = .ok L := by
    refine ⟨_, (buildLoop_step h p timer 2 0 _ (by omega) _).2
      ⟨matrixOp A, _, matrixOp (R 0), (matrixOp A).mulTranspose (matrixOp (R 0)),
        (matrixOp (R 0)).mul ((matrixOp A).mulTranspose (matrixOp (R 0))), by simp [initLevels], hsm _, rfl,
        by simp only [chooseAP, hfast, Bool.false_eq_true, if_false]; rfl, rfl,
        (buildLoop_last h p timer 2 1 _ (by omega) _).2
          ⟨(matrixOp (R 0)).mul ((matrixOp A).mulTranspose (matrixOp (R 0))), _, by simp [stepLevels],
            rfl, rfl⟩⟩⟩
  refine ⟨_, (build_ok _ _ _ _ _).2 ⟨h, p, matrixOp A, L, rfl, rfl, by omega, rfl, by rw [hN]; exact hL, rfl⟩, ?_,
    hN, rfl, rfl⟩
  obtain ⟨hF, h0⟩ := buildLoop_final h p timer 2 1 0 (by omega) _ _ (initInv h p (matrixOp A)) hL
  have hop0 : (L 0).operator = some (matrixOp A) := by rw [h0]; simp [initLevels]
  obtain ⟨a, sm, r, ap, ac, h1, h2, h3, h4, h5, h6, h7, h8⟩ := hF.prev 0 (by omega)
  obtain rfl := Option.some.inj (hop0.symm.trans h1)
  have e6 : matrixOp (R 0) = r := Outcome.ok.inj h6
  have e7 : (matrixOp A).mulTranspose r = ap := by
    simp only [chooseAP, hfast, Bool.false_eq_true, if_false] at h7
    exact Outcome.ok.inj h7
  have e8 : r.mul ap = ac := Outcome.ok.inj h8
  have hac : ∀ x, ac.fwd x = (coarseMatrix dims A R 1).mulVec x := by
    intro x
    rw [← e8, ← e7, ← e6]
    simp only [Op.mul, Op.mulTranspose, matrixOp, coarseMatrix, galerkin]
    rw [← Matrix.mulVec_mulVec, ← Matrix.mulVec_mulVec]
  refine ⟨by dsimp; omega, ?_, ?_, ?_, ?_⟩
  · intro l hl
    dsimp at hl
    rw [hN] at hl
    rcases (by omega : l = 0 ∨ l = 1) with rfl | rfl
    · exact ⟨_, hop0, fun x => rfl⟩
    · exact ⟨_, h4, hac⟩
  · intro l hl
    dsimp at hl
    rw [hN] at hl
    obtain rfl : l = 0 := by omega
    refine ⟨sm, h2, ?_⟩
    intro b x
    rw [hsm] at h5
    rw [← Outcome.ok.inj h5]
    rfl
  · intro l hl
    dsimp at hl
    rw [hN] at hl
    obtain rfl : l = 0 := by omega
    exact ⟨r, h3, fun x => by rw [← e6]; rfl, fun y => by rw [← e6]; rfl⟩
  · change ∃ s, (L ((p.maxLevels.getD 2).toNat - 1)).solver = some s ∧ _
    dsimp only
    have e1 : (p.maxLevels.getD 2).toNat - 1 = 1 := by rw [hN]
    rw [e1]
    obtain ⟨a, so, g1, g2, g3⟩ := hF.last 1 (by omega)
    obtain rfl := Option.some.inj (h4.symm.trans g1)
    refine ⟨so, g2, ?_⟩
    intro b
    have hspd := coarseMatrix_spd dims A hA R hR 1
    rw [← Outcome.ok.inj g3]
    apply mulVec_injective hspd
    change _ = (coarseMatrix dims A R _).mulVec ((coarseMatrix dims A R _)⁻¹.mulVec b)
    rw [mulVec_inv (spd_det hspd)]
    change (coarseMatrix dims A R _).mulVec (solve _ (entriesOf ac) b) = b
    rw [entriesOf_eq ac _ hac]
    exact hsolve _ _ b (spd_det hspd)

theorem matrixFreeData_chain (s : ChebyshevSettings ℝ) (auto : ℕ) (dims : ℕ → ℕ) (ritz : List ℝ)
    (dinv : ∀ l, Fin (dims l) → ℝ) (A : Matrix (Fin (dims 0)) (Fin (dims 0)) ℝ) (hA : IsSpd A)
    (R : ∀ l, Matrix (Fin (dims (l + 1))) (Fin (dims l)) ℝ) (hR : ∀ l, IndependentRows (R l)) (L : ℕ) :
    GalerkinChain (matrixFreeData s auto dims ritz dinv A R) (fun l => dotForm (dims l)) L :=
  have h := matrixData_chain .jacobi dims (fun _ => []) A hA R hR L
  ⟨h.form, h.A, h.RP, h.galerkin, h.psd, h.solvable, h.exact⟩

/-- **C78**, the cycle: if every eigenvalue of the scaled matrix is below the sum of the two ends of the
interval (for example if the largest estimate is at most 20 per cent too small), construction of a two-level
matrix-free hierarchy succeeds and every standalone cycle decreases the energy of the error, unless the vector
already is the solution; for every degree and smoothing range the user sets.  Missing: problems with larger
eigenvalues, see `C78_cycle_violated`. -/
theorem C78_cycle_partial (debug timer : Bool) (p : Params) (type : Option (List Char))
    (htype : EqNoCase (type.getD (chars! "Chebyshev")) (chars! "chebyshev")) (degree : Option ℤ)
    (range maxEigenvalue : Option ℝ) (auto : ℕ) (dims : ℕ → ℕ) (dinv : ∀ l, Fin (dims l) → ℝ)
    (hd : ∀ l i, 0 < dinv l i)
    (estimate : ∀ l, ((Fin (dims l) → ℝ) → Fin (dims l) → ℝ) → (Fin (dims l) → ℝ) → List ℝ)
    (A : Matrix (Fin (dims 0)) (Fin (dims 0)) ℝ) (hA : IsSpd A) (start : Fin (dims 0) → ℝ)
    (hest : RitzContract start A (dinv 0) (estimate 0 A.mulVec (dinv 0)))
    (R : ∀ l, Matrix (Fin (dims (l + 1))) (Fin (dims l)) ℝ) (hR : ∀ l, IndependentRows (R l))
    (solve : ∀ l, Matrix (Fin (dims l)) (Fin (dims l)) ℝ → (Fin (dims l) → ℝ) → Fin (dims l) → ℝ)
    (hsolve : ∀ l, SolvesExactly (solve l)) (hlev : p.maxLevels.getD 2 = 2)
    (hfast : p.fastAp.getD false = false) (hpre : p.isPreconditioner = some false)
    (hsteps : 0 < toUnsigned (p.nSmoothingSteps.getD 1))
    (hlam : ∀ lam, ScaledEigenvalue A (dinv 0) lam →
      lam < upperEnd (estimate 0 A.mulVec (dinv 0)) + lowerEnd range (estimate 0 A.mulVec (dinv 0))) :
    ∃ H, (buildHierarchy debug timer (some p) (.ok (matrixFreeHelpers debug type degree range maxEigenvalue
        auto dims dinv estimate A R solve))).result = .ok H ∧
      ∀ fresh (x b xs : Fin (dims 0) → ℝ), A.mulVec xs = b → x ≠ xs →
        ∃ y, (H.vmult fresh x b).result = .ok y ∧
          energyOf A (xs - y) < energyOf A (xs - x) := by
  obtain ⟨H, hH, hlin, hL, hp, hn⟩ := matrixFreeHelpers_build debug timer p type htype degree range maxEigenvalue
    auto dims dinv estimate A hA R hR solve hsolve hlev hfast
  refine ⟨H, hH, ?_⟩
  intro fresh x b xs hxs hx
  have hp' : H.isPreconditioner = false := by rw [hp, hpre]; rfl
  refine ⟨_, C04_cycle_is_textbook H _ hlin fresh x b (Or.inr (by omega)), ?_⟩
  rw [hp']
  set ritz := estimate 0 A.mulVec (dinv 0) with hritz
  set D := matrixFreeData (ChebyshevData.settings ⟨degree, range, maxEigenvalue⟩) auto dims ritz dinv A R with hD
  have hen : ∀ l (e : Fin (dims l) → ℝ), energy D (fun l => dotForm (dims l)) l e
      = energyOf (coarseMatrix dims A R l) e := fun l e =>
    dotProduct_comm ((coarseMatrix dims A R l).mulVec e) e
  have hchain := matrixFreeData_chain (ChebyshevData.settings ⟨degree, range, maxEigenvalue⟩) auto dims ritz dinv
    A hA R hR H.numLevels
  have hstep : ∀ e : Fin (dims 0) → ℝ, e ≠ 0 → energy D (fun l => dotForm (dims l)) 0 (e - D.B 0 (D.A 0 e))
      < energy D (fun l => dotForm (dims l)) 0 e := by
    intro e he
    rw [hen, hen]
    exact chebLin_energy_lt ⟨degree, range, maxEigenvalue⟩ auto (ritz_pos hA (hd 0) hest) hA (hd 0) hlam e he
  have hlt := cycle_energy_lt hchain (by
      intro l hl e
      obtain rfl : l = 0 := by omega
      by_cases he : e = 0
      · subst he
        rw [← hD]
        simp
      · exact (hstep e he).le)
    H.nSmoothingSteps (by omega) (H.numLevels - 1) 0 (by omega) (by omega) (by
      intro e he
      refine hstep e ?_
      rintro rfl
      exact he (map_zero _))
    b x xs hxs (by
      intro h
      exact hx (mulVec_injective hA (h.trans hxs.symm)))
  rw [hen, hen] at hlt
  exact hlt


/-- **C78**: the Chebyshev preconditioner is symmetric. -/
theorem C78_symmetric {n : ℕ} (d : ChebyshevData ℝ) (auto : ℕ) (ritz : List ℝ) (h : ∀ m ∈ ritz, 0 < m)
    (A : Matrix (Fin n) (Fin n) ℝ) (hA : IsSpd A) (dinv : Fin n → ℝ) (hd : ∀ i, 0 < dinv i)
    (r t : Fin n → ℝ) :
    chebyshevVmult d.settings auto ritz A.mulVec dinv r ⬝ᵥ t
      = r ⬝ᵥ chebyshevVmult d.settings auto ritz A.mulVec dinv t := by
  change chebLin d.settings auto ritz A dinv r ⬝ᵥ t = r ⬝ᵥ chebLin d.settings auto ritz A dinv t
  obtain ⟨v, lam, hl, hv0, hv, horth, hspan⟩ := scaled_basis hA hd
  obtain ⟨c, hc⟩ := hspan (A⁻¹.mulVec r)
  obtain ⟨g, hg⟩ := hspan (A⁻¹.mulVec t)
  have er : r = A.mulVec (∑ j, c j • v j) := by rw [← hc, mulVec_inv (spd_det hA)]
  have et : t = A.mulVec (∑ j, g j • v j) := by rw [← hg, mulVec_inv (spd_det hA)]
  have hB : ∀ c : Fin n → ℝ, chebLin d.settings auto ritz A dinv (A.mulVec (∑ j, c j • v j))
      = ∑ j, ((1 - userFactor d auto ritz (lam j)) * c j) • v j := by
    intro c
    have := chebLin_combination d auto h A dinv hv c
    rw [sub_eq_iff_eq_add, ← sub_eq_iff_eq_add'] at this
    rw [← this, ← Finset.sum_sub_distrib]
    apply Finset.sum_congr rfl
    intro j _
    module
  have hform : ∀ a b : Fin n → ℝ, (∑ j, a j • v j) ⬝ᵥ A.mulVec (∑ j, b j • v j) = ∑ j, lam j * (a j * b j) := by
    intro a b
    rw [Matrix.mulVec_sum, dotProduct_sum]
    apply Finset.sum_congr rfl
    intro k _
    rw [sum_dotProduct, Matrix.mulVec_smul]
    simp only [smul_dotProduct, dotProduct_smul, horth, smul_eq_mul, mul_ite, mul_zero, Finset.sum_ite_eq',
      Finset.mem_univ, if_true]
    ring
  rw [er, et, hB, hB, hform, dotProduct_comm, hform]
  apply Finset.sum_congr rfl
  intro j _
  ring

/-- **C78**, used as a preconditioner: under the same condition one cycle of a two-level hierarchy is a
symmetric positive definite linear map, what the conjugate gradient method needs.  Missing: problems with larger
eigenvalues. -/
theorem C78_preconditioner_partial (debug timer : Bool) (p : Params) (type : Option (List Char))
    (htype : EqNoCase (type.getD (chars! "Chebyshev")) (chars! "chebyshev")) (degree : Option ℤ)
    (range maxEigenvalue : Option ℝ) (auto : ℕ) (dims : ℕ → ℕ) (dinv : ∀ l, Fin (dims l) → ℝ)
    (hd : ∀ l i, 0 < dinv l i)
    (estimate : ∀ l, ((Fin (dims l) → ℝ) → Fin (dims l) → ℝ) → (Fin (dims l) → ℝ) → List ℝ)
    (A : Matrix (Fin (dims 0)) (Fin (dims 0)) ℝ) (hA : IsSpd A) (start : Fin (dims 0) → ℝ)
    (hest : RitzContract start A (dinv 0) (estimate 0 A.mulVec (dinv 0)))
    (R : ∀ l, Matrix (Fin (dims (l + 1))) (Fin (dims l)) ℝ) (hR : ∀ l, IndependentRows (R l))
    (solve : ∀ l, Matrix (Fin (dims l)) (Fin (dims l)) ℝ → (Fin (dims l) → ℝ) → Fin (dims l) → ℝ)
    (hsolve : ∀ l, SolvesExactly (solve l)) (hlev : p.maxLevels.getD 2 = 2)
    (hfast : p.fastAp.getD false = false) (hpre : p.isPreconditioner.getD true = true)
    (hsteps : 0 < toUnsigned (p.nSmoothingSteps.getD 1))
    (hlam : ∀ lam, ScaledEigenvalue A (dinv 0) lam →
      lam < upperEnd (estimate 0 A.mulVec (dinv 0)) + lowerEnd range (estimate 0 A.mulVec (dinv 0))) :
    ∃ H, (buildHierarchy debug timer (some p) (.ok (matrixFreeHelpers debug type degree range maxEigenvalue
        auto dims dinv estimate A R solve))).result = .ok H ∧
      ∃ M : Matrix (Fin (dims 0)) (Fin (dims 0)) ℝ, IsSpd M ∧
        ∀ fresh x b, (H.vmult fresh x b).result = .ok (M.mulVec b) := by
  obtain ⟨H, hH, hlin, hL, hp, hn⟩ := matrixFreeHelpers_build debug timer p type htype degree range maxEigenvalue
    auto dims dinv estimate A hA R hR solve hsolve hlev hfast
  refine ⟨H, hH, ?_⟩
  have hp' : H.isPreconditioner = true := by rw [hp, hpre]
  set ritz := estimate 0 A.mulVec (dinv 0) with hritz
  have hpos := ritz_pos hA (hd 0) hest
  set d : ChebyshevData ℝ := ⟨degree, range, maxEigenvalue⟩ with hdat
  set D := matrixFreeData d.settings auto dims ritz dinv A R with hD
  set φ : Forms ℝ (fun l => Fin (dims l) → ℝ) := fun l => dotForm (dims l) with hφ
  have hchain := matrixFreeData_chain d.settings auto dims ritz dinv A hA R hR H.numLevels
  have hspd := coarseMatrix_spd dims A hA R hR
  have hsym : Symmetric D φ H.numLevels := by
    refine ⟨hchain.form, hchain.A, ?_, hchain.RP, ?_⟩
    · intro l hl x y
      obtain rfl : l = 0 := by omega
      exact C78_symmetric d auto ritz hpos _ hA _ (hd 0) x y
    · intro l _ x y
      have hi : ((coarseMatrix dims A R l)⁻¹).transpose = (coarseMatrix dims A R l)⁻¹ := by
        rw [Matrix.transpose_nonsing_inv, (hspd l).1]
      change (coarseMatrix dims A R l)⁻¹.mulVec x ⬝ᵥ y = x ⬝ᵥ (coarseMatrix dims A R l)⁻¹.mulVec y
      rw [dotProduct_comm, form_symm hi]
  have hB : ∀ l, l + 1 < H.numLevels → SmootherStrictlyConvergent D φ l := by
    intro l hl x hx
    obtain rfl : l = 0 := by omega
    set w := D.B 0 x with hw
    have h1 : φ 0 (2 • w - D.B 0 (D.A 0 w)) x = 2 * (w ⬝ᵥ x) - w ⬝ᵥ A.mulVec w := by
      rw [map_sub, LinearMap.sub_apply, hsym.B 0 hl, ← hw, map_nsmul, LinearMap.smul_apply]
      change 2 • (w ⬝ᵥ x) - A.mulVec w ⬝ᵥ w = _
      rw [dotProduct_comm w (A.mulVec w), two_nsmul, two_mul]
    rw [h1]
    set u := A⁻¹.mulVec x with hu
    have hux : A.mulVec u = x := mulVec_inv (spd_det hA) x
    have hu0 : u ≠ 0 := by
      intro h
      rw [h, Matrix.mulVec_zero] at hux
      exact hx hux.symm
    have h2 := energy_gain hA.1 u w
    have h4 := chebLin_energy_lt d auto hpos hA (hd 0) hlam u hu0
    rw [hux, show chebLin d.settings auto ritz A (dinv 0) x = w from rfl, h2, hux] at h4
    linarith
  have hC : ∀ l, l + 1 = H.numLevels → ∀ x, x ≠ 0 → 0 < φ l (D.C l x) x := by
    intro l _ x hx
    set u := (coarseMatrix dims A R l)⁻¹.mulVec x with hu
    have hux : (coarseMatrix dims A R l).mulVec u = x := mulVec_inv (spd_det (hspd l)) x
    have hu0 : u ≠ 0 := by
      intro h
      rw [h, Matrix.mulVec_zero] at hux
      exact hx hux.symm
    have := (hspd l).2 u hu0
    rw [hux] at this
    exact this
  refine ⟨LinearMap.toMatrix' (M D H.nSmoothingSteps (H.numLevels - 1) 0), ?_, ?_⟩
  · refine ⟨?_, ?_⟩
    · ext i j
      obtain ⟨mb, mc, h1, h2, h3⟩ := C05_preconditioner_symmetric H D hlin hp' φ hsym 0
        (Pi.single i 1) (Pi.single j 1)
      have h1' := h1 0
      have h2' := h2 0
      rw [vmult_pre H D hlin hp'] at h1' h2'
      rw [← Outcome.ok.inj h1', ← Outcome.ok.inj h2'] at h3
      have h4 : M D H.nSmoothingSteps (H.numLevels - 1) 0 (Pi.single i 1) ⬝ᵥ Pi.single j 1
          = Pi.single i 1 ⬝ᵥ M D H.nSmoothingSteps (H.numLevels - 1) 0 (Pi.single j 1) := h3
      rw [Matrix.transpose_apply, LinearMap.toMatrix'_apply, LinearMap.toMatrix'_apply]
      simpa using h4
    · intro v hv
      obtain ⟨mb, h1, h2⟩ := C52_preconditioner_positive_definite H D hlin hp' φ hsym (by omega) hB hC
        0 v hv
      have h3 := h1 0
      rw [vmult_pre H D hlin hp'] at h3
      rw [LinearMap.toMatrix'_mulVec, Outcome.ok.inj h3, dotProduct_comm]
      exact h2
  · intro fresh x b
    rw [vmult_pre H D hlin hp', LinearMap.toMatrix'_mulVec]

/-! ### Where it fails -/

section

variable {n : ℕ} {u : Fin n → ℝ} {a : ℝ}

theorem signMatrix_mulVec (hu : ∀ i, u i = 0 ∨ u i = 1 ∨ u i = -1) (a : ℝ) (v : Fin n → ℝ) (i : Fin n) :
    (signMatrix u a).mulVec v i = v i + a * (u ⬝ᵥ v) * u i - a * (u i * u i) * v i := by
  have h : ∀ j, signMatrix u a i j * v j = a * u i * (u j * v j)
      + (if j = i then (1 - a * (u i * u i)) * v i else 0) := by
    intro j
    by_cases hj : j = i
    · subst hj
      simp only [signMatrix, Matrix.of_apply, if_true]
      rcases hu j with h | h | h <;> rw [h] <;> ring
    · simp only [signMatrix, Matrix.of_apply, if_neg hj, if_neg (Ne.symm hj)]
      ring
  change ∑ j, signMatrix u a i j * v j = _
  simp only [h]
  rw [Finset.sum_add_distrib, ← Finset.mul_sum, Finset.sum_ite_eq']
  simp only [Finset.mem_univ, if_true]
  change a * u i * (u ⬝ᵥ v) + _ = _
  ring

theorem signMatrix_energy (hu : ∀ i, u i = 0 ∨ u i = 1 ∨ u i = -1) (a : ℝ) (v : Fin n → ℝ) :
    v ⬝ᵥ (signMatrix u a).mulVec v = v ⬝ᵥ v + a * (u ⬝ᵥ v) * (u ⬝ᵥ v) - a * ∑ i, u i * u i * (v i * v i) := by
  have h : ∀ i, v i * (signMatrix u a).mulVec v i = v i * v i + a * (u ⬝ᵥ v) * (u i * v i)
      - a * (u i * u i * (v i * v i)) := by
    intro i
    rw [signMatrix_mulVec hu]
    ring
  change ∑ i, v i * (signMatrix u a).mulVec v i = _
  simp only [h]
  rw [Finset.sum_sub_distrib, Finset.sum_add_distrib, ← Finset.mul_sum, ← Finset.mul_sum]
  rfl

theorem sign_sum_le (hu : ∀ i, u i = 0 ∨ u i = 1 ∨ u i = -1) (v : Fin n → ℝ) :
    ∑ i, u i * u i * (v i * v i) ≤ v ⬝ᵥ v ∧ 0 ≤ ∑ i, u i * u i * (v i * v i) := by
  have h : ∀ i, 0 ≤ u i * u i ∧ u i * u i ≤ 1 := by
    intro i
    rcases hu i with h | h | h <;> rw [h] <;> norm_num
  constructor
  · apply Finset.sum_le_sum
    intro i _
    nlinarith [h i, mul_self_nonneg (v i)]
  · exact Finset.sum_nonneg fun i _ => mul_nonneg (h i).1 (mul_self_nonneg _)

theorem signMatrix_spd (hu : ∀ i, u i = 0 ∨ u i = 1 ∨ u i = -1) (h0 : 0 ≤ a) (h1 : a < 1) :
    IsSpd (signMatrix u a) := by
  constructor
  · ext i j
    simp only [Matrix.transpose_apply, signMatrix, Matrix.of_apply]
    by_cases h : i = j
    · subst h; simp
    · simp only [if_neg h, if_neg (Ne.symm h)]; ring
  · intro v hv
    rw [signMatrix_energy hu]
    have h2 := sign_sum_le hu v
    have h3 : 0 < v ⬝ᵥ v := by
      rcases lt_or_eq_of_le (show 0 ≤ v ⬝ᵥ v from Finset.sum_nonneg fun i _ => mul_self_nonneg _) with h | h
      · exact h
      · exact absurd (dotProduct_self_eq_zero.1 h.symm) hv
    have h4 : 0 ≤ a * (u ⬝ᵥ v) * (u ⬝ᵥ v) := by
      rw [mul_assoc]
      exact mul_nonneg h0 (mul_self_nonneg _)
    nlinarith

/-- The vectors that are constant where `u` is not zero. -/
def constantOn (u : Fin n → ℝ) : Submodule ℝ (Fin n → ℝ) where
  carrier := {w | ∀ i j, u i ≠ 0 → u j ≠ 0 → w i = w j}
  add_mem' := by
    intro v w hv hw i j hi hj
    simp only [Pi.add_apply, hv i j hi hj, hw i j hi hj]
  zero_mem' := by
    intro i j _ _
    rfl
  smul_mem' := by
    intro c v hv i j hi hj
    simp only [Pi.smul_apply, hv i j hi hj]

theorem constantOn_dot (hsum : ∑ i, u i = 0) {w : Fin n → ℝ} (hw : w ∈ constantOn u) : u ⬝ᵥ w = 0 := by
  by_cases h : ∃ i, u i ≠ 0
  · obtain ⟨i, hi⟩ := h
    have : ∀ j, u j * w j = u j * w i := by
      intro j
      by_cases hj : u j = 0
      · rw [hj]; ring
      · rw [hw j i hj hi]
    change ∑ j, u j * w j = 0
    simp only [this]
    rw [← Finset.sum_mul, hsum, zero_mul]
  · push Not at h
    change ∑ j, u j * w j = 0
    simp [h]

theorem krylov_constantOn (hu : ∀ i, u i = 0 ∨ u i = 1 ∨ u i = -1) (hsum : ∑ i, u i = 0) {s : Fin n → ℝ}
    (hs : ∀ i j, u i ≠ 0 → u j ≠ 0 → s i = s j) :
    krylov (signMatrix u a) (fun _ => 1) s ≤ constantOn u := by
  apply Submodule.span_le.2
  rintro w ⟨k, rfl⟩
  have hsq : ∀ i, u i ≠ 0 → u i * u i = 1 := by
    intro i hi
    rcases hu i with h | h | h
    · exact absurd h hi
    · rw [h]; norm_num
    · rw [h]; norm_num
  induction k with
  | zero =>
    intro i j hi hj
    simp only [Function.iterate_zero, id_eq, hs i j hi hj]
  | succ k ih =>
    rw [SetLike.mem_coe] at ih ⊢
    simp only [Function.iterate_succ_apply'] at ih ⊢
    generalize ((fun v : Fin n → ℝ => fun i => 1 * (signMatrix u a).mulVec v i)^[k] fun i => 1 * s i) = w at ih ⊢
    intro i j hi hj
    simp only [one_mul]
    rw [signMatrix_mulVec hu, signMatrix_mulVec hu, constantOn_dot hsum ih, hsq i hi, hsq j hj, ih i j hi hj]
    ring

theorem signMatrix_ritz (hu : ∀ i, u i = 0 ∨ u i = 1 ∨ u i = -1) (hsum : ∑ i, u i = 0) (h0 : 0 ≤ a)
    {s : Fin n → ℝ} (hs : ∀ i j, u i ≠ 0 → u j ≠ 0 → s i = s j) {ritz : List ℝ}
    (h : RitzContract s (signMatrix u a) (fun _ => 1) ritz) : ∀ m ∈ ritz, m ≤ 1 := by
  intro m hm
  obtain ⟨w, hw, hw0, he⟩ := h m hm
  have hdot := constantOn_dot hsum (krylov_constantOn hu hsum hs hw)
  rw [signMatrix_energy hu, hdot] at he
  have h2 := (sign_sum_le hu w).2
  have h3 : ∑ i, w i * w i / (1 : ℝ) = w ⬝ᵥ w := by
    simp only [div_one]
    rfl
  rw [h3] at he
  have h4 : 0 < w ⬝ᵥ w := by
    rcases lt_or_eq_of_le (show 0 ≤ w ⬝ᵥ w from Finset.sum_nonneg fun i _ => mul_self_nonneg _) with h | h
    · exact h
    · exact absurd (dotProduct_self_eq_zero.1 h.symm) hw0
  have h5 := mul_nonneg h0 h2
  by_contra hm'
  nlinarith

theorem signMatrix_eigen (hu : ∀ i, u i = 0 ∨ u i = 1 ∨ u i = -1) (hfour : ∑ i, u i * u i = 4) (i : Fin n) :
    (signMatrix u a).mulVec u i = (1 + 3 * a) * u i := by
  have : u ⬝ᵥ u = 4 := hfour
  rw [signMatrix_mulVec hu, this]
  rcases hu i with h | h | h <;> rw [h] <;> ring

end

/-- **C78**: if an eigenvalue of the scaled matrix is larger than the sum of the two ends of the interval and the
coarse problem does not see its eigenvector, two-level cycles multiply that error by a factor larger than one,
whatever degree the user sets and however many smoothing steps are made. -/
theorem C78_diverges (debug timer : Bool) (p : Params) (type : Option (List Char))
    (htype : EqNoCase (type.getD (chars! "Chebyshev")) (chars! "chebyshev")) (degree : Option ℤ)
    (range maxEigenvalue : Option ℝ) (auto : ℕ) (dims : ℕ → ℕ) (dinv : ∀ l, Fin (dims l) → ℝ)
    (estimate : ∀ l, ((Fin (dims l) → ℝ) → Fin (dims l) → ℝ) → (Fin (dims l) → ℝ) → List ℝ)
    (A : Matrix (Fin (dims 0)) (Fin (dims 0)) ℝ) (hA : IsSpd A)
    (hpos : ∀ k ∈ estimate 0 A.mulVec (dinv 0), 0 < k)
    (R : ∀ l, Matrix (Fin (dims (l + 1))) (Fin (dims l)) ℝ) (hR : ∀ l, IndependentRows (R l))
    (solve : ∀ l, Matrix (Fin (dims l)) (Fin (dims l)) ℝ → (Fin (dims l) → ℝ) → Fin (dims l) → ℝ)
    (hsolve : ∀ l, SolvesExactly (solve l)) (hlev : p.maxLevels.getD 2 = 2)
    (hfast : p.fastAp.getD false = false) (hpre : p.isPreconditioner = some false)
    (hsteps : 0 < toUnsigned (p.nSmoothingSteps.getD 1)) (u : Fin (dims 0) → ℝ) (lam : ℝ)
    (hu : ∀ i, dinv 0 i * A.mulVec u i = lam * u i)
    (hlam : upperEnd (estimate 0 A.mulVec (dinv 0)) + lowerEnd range (estimate 0 A.mulVec (dinv 0)) < lam)
    (hRu : (R 0).mulVec (A.mulVec u) = 0) :
    ∃ H, (buildHierarchy debug timer (some p) (.ok (matrixFreeHelpers debug type degree range maxEigenvalue
        auto dims dinv estimate A R solve))).result = .ok H ∧
      ∃ q : ℝ, 1 < q ∧ ∀ fresh (c : ℝ), ∃ y,
        (H.vmult fresh (c • u) 0).result = .ok y ∧ y = (q * c) • u := by
  obtain ⟨H, hH, hlin, hL, hp, hn⟩ := matrixFreeHelpers_build debug timer p type htype degree range maxEigenvalue
    auto dims dinv estimate A hA R hR solve hsolve hlev hfast
  set ritz := estimate 0 A.mulVec (dinv 0) with hritz
  set d : ChebyshevData ℝ := ⟨degree, range, maxEigenvalue⟩ with hdat
  set f := userFactor d auto ritz lam with hf
  have hf1 : 1 < |f| := userFactor_gt d auto hpos hlam
  refine ⟨H, hH, f ^ (2 * H.nSmoothingSteps), ?_, ?_⟩
  · rw [pow_mul, ← sq_abs]
    exact one_lt_pow₀ (one_lt_pow₀ hf1 (by norm_num)) (by omega)
  intro fresh c
  have hp' : H.isPreconditioner = false := by rw [hp, hpre]; rfl
  refine ⟨_, C04_cycle_is_textbook H _ hlin fresh _ 0 (Or.inr (by omega)), ?_⟩
  rw [hp', hL]
  set D := matrixFreeData d.settings auto dims ritz dinv A R with hD
  have hstep : u - D.B 0 (D.A 0 u) = f • u := chebLin_eigen d auto hpos A (dinv 0) hu
  have hrich : ∀ c : ℝ, richardson D 0 0 (c • u) = (f * c) • u := by
    intro c
    rw [richardson, zero_sub, map_smul, ← smul_neg, map_smul, map_neg, ← smul_add, ← sub_eq_add_neg,
      hstep, smul_smul, mul_comm]
  have hiter : ∀ (k : ℕ) (c : ℝ), (richardson D 0 0)^[k] (c • u) = (f ^ k * c) • u := by
    intro k
    induction k with
    | zero => intro c; simp
    | succ k ih =>
      intro c
      rw [Function.iterate_succ_apply, hrich, ih]
      congr 1
      ring
  have hzero : ∀ c : ℝ, D.R 0 (0 - D.A 0 (c • u)) = 0 := by
    intro c
    rw [zero_sub, map_neg]
    change -((R 0).mulVec (A.mulVec (c • u))) = 0
    rw [Matrix.mulVec_smul, Matrix.mulVec_smul, hRu, smul_zero, neg_zero]
  simp only [Bool.false_eq_true, if_false, cycle, Nat.reduceSub]
  rw [hiter, hzero, map_zero, map_zero, add_zero, hiter]
  congr 1
  ring

theorem twoLevelRestriction_independent {m n : ℕ} {R : Matrix (Fin m) (Fin n) ℝ} (hR : IndependentRows R)
    (l : ℕ) : IndependentRows (twoLevelRestriction R l) := by
  cases l with
  | zero => exact hR
  | succ l =>
    have h : IndependentRows (1 : Matrix (Fin m) (Fin m) ℝ) := by
      intro y hy
      rwa [Matrix.transpose_one, Matrix.one_mulVec] at hy
    exact h

/-- **C78**, where the property fails: if four components of the vector with which deal.II starts the estimate
are equal (deal.II numbers the components modulo eleven), then for every degree, smoothing range and largest
eigenvalue that the user sets, every estimator that returns Ritz values, and every restriction matrix of full
rank that annihilates the vector `u` with the entries `1, -1, 1, -1` there, two-level cycles for the symmetric
positive definite matrix with ones on the diagonal and the entries `a u i u j` elsewhere, `7/15 < a < 1`,
multiply the error `u` by a factor larger than one, however many smoothing steps are made. -/
theorem C78_cycle_violated (debug timer : Bool) (p : Params) (type : Option (List Char))
    (htype : EqNoCase (type.getD (chars! "Chebyshev")) (chars! "chebyshev")) (degree : Option ℤ)
    (range maxEigenvalue : Option ℝ) (auto m n : ℕ) (u : Fin n → ℝ)
    (hu : ∀ i, u i = 0 ∨ u i = 1 ∨ u i = -1) (hsum : ∑ i, u i = 0) (hfour : ∑ i, u i * u i = 4)
    (start : Fin n → ℝ) (hstart : ∀ i j, u i ≠ 0 → u j ≠ 0 → start i = start j)
    (a : ℝ) (h0 : 7 / 15 < a) (h1 : a < 1)
    (estimate : ∀ l, ((Fin (twoLevels n m l) → ℝ) → Fin (twoLevels n m l) → ℝ) →
      (Fin (twoLevels n m l) → ℝ) → List ℝ)
    (hest : RitzContract start (signMatrix u a) (fun _ => 1) (estimate 0 (signMatrix u a).mulVec fun _ => 1))
    (R : Matrix (Fin m) (Fin n) ℝ) (hR : IndependentRows R) (hRu : R.mulVec u = 0)
    (solve : ∀ l, Matrix (Fin (twoLevels n m l)) (Fin (twoLevels n m l)) ℝ →
      (Fin (twoLevels n m l) → ℝ) → Fin (twoLevels n m l) → ℝ)
    (hsolve : ∀ l, SolvesExactly (solve l)) (hlev : p.maxLevels.getD 2 = 2)
    (hfast : p.fastAp.getD false = false) (hpre : p.isPreconditioner = some false)
    (hsteps : 0 < toUnsigned (p.nSmoothingSteps.getD 1)) :
    IsSpd (signMatrix u a) ∧
    ∃ H, (buildHierarchy debug timer (some p) (.ok (matrixFreeHelpers debug type degree range maxEigenvalue
        auto (twoLevels n m) (fun _ _ => 1) estimate (signMatrix u a) (twoLevelRestriction R) solve))).result
        = .ok H ∧
      ∃ q : ℝ, 1 < q ∧ ∀ fresh (c : ℝ), ∃ y,
        (H.vmult fresh (c • u) 0).result = .ok y ∧ y = (q * c) • u := by
  have hA : IsSpd (signMatrix u a) := signMatrix_spd hu (by linarith) h1
  refine ⟨hA, ?_⟩
  set ritz := estimate 0 (signMatrix u a).mulVec (fun _ => 1) with hritz
  have hpos : ∀ k ∈ ritz, 0 < k := ritz_pos hA (fun _ => one_pos) hest
  have hle := signMatrix_ritz hu hsum (by linarith) hstart hest
  have hup : upperEnd ritz ≤ 6 / 5 := by
    unfold upperEnd
    cases hl : ritz.getLast? with
    | none => norm_num
    | some k =>
      have := hle k (List.mem_of_getLast? hl)
      simp only
      linarith
  have hlow := lowerEnd_le range hpos
  have hAu : (signMatrix u a).mulVec u = (1 + 3 * a) • u := funext fun i => signMatrix_eigen hu hfour i
  refine C78_diverges debug timer p type htype degree range maxEigenvalue auto (twoLevels n m) (fun _ _ => 1)
    estimate (signMatrix u a) hA hpos (twoLevelRestriction R) (twoLevelRestriction_independent hR) solve hsolve
    hlev hfast hpre hsteps u (1 + 3 * a) (fun i => ?_) ?_ ?_
  · rw [one_mul]
    exact signMatrix_eigen hu hfour i
  · change upperEnd ritz + lowerEnd range ritz < 1 + 3 * a
    linarith
  · change R.mulVec ((signMatrix u a).mulVec u) = 0
    rw [hAu, Matrix.mulVec_smul, hRu, smul_zero]

/-- **C78**, the parameter `smoother.max_eigenvalue`: whatever the user sets, or nothing, exactly the same
smoothers are built, because deal.II uses the value only if no eigenvalues are to be estimated. -/
theorem C78_max_eigenvalue_violated (debug : Bool) (type : Option (List Char)) (degree : Option ℤ)
    (range m m' : Option ℝ) (auto : ℕ) (dims : ℕ → ℕ) (dinv : ∀ l, Fin (dims l) → ℝ)
    (estimate : ∀ l, ((Fin (dims l) → ℝ) → Fin (dims l) → ℝ) → (Fin (dims l) → ℝ) → List ℝ)
    (A : Matrix (Fin (dims 0)) (Fin (dims 0)) ℝ)
    (R : ∀ l, Matrix (Fin (dims (l + 1))) (Fin (dims l)) ℝ)
    (solve : ∀ l, Matrix (Fin (dims l)) (Fin (dims l)) ℝ → (Fin (dims l) → ℝ) → Fin (dims l) → ℝ) (l : ℕ)
    (op : Op (Fin (dims l) → ℝ) (Fin (dims l) → ℝ)) (p : Params) :
    (matrixFreeHelpers debug type degree range m auto dims dinv estimate A R solve).buildSmoother l op p
      = (matrixFreeHelpers debug type degree range m' auto dims dinv estimate A R solve).buildSmoother l op p := by
  have hs : ∀ v : Option ℝ, (matrixFreeSmoother debug (l == 0) type degree range v)
      = (matrixFreeSmoother debug (l == 0) type degree range none) >>= fun d =>
        pure { d with maxEigenvalue := v } := by
    intro v
    simp only [matrixFreeSmoother, Outcome.assert]
    split_ifs <;> rfl
  simp only [matrixFreeHelpers]
  rw [hs m, hs m']
  cases hd : matrixFreeSmoother debug (l == 0) type degree range (none : Option ℝ) with
  | ok d =>
    simp only [Outcome.ok_bind, Outcome.pure_eq]
    rfl
  | throws e => rfl
  | aborted => rfl
  | ub w => rfl

/-! ### Examples -/

/-- Two unknowns, the matrix `1, -1/2, -1/2, 1`. -/
def exPair : Fin 2 → ℝ := ![1, -1]

theorem exPair_sign (i : Fin 2) : exPair i = 0 ∨ exPair i = 1 ∨ exPair i = -1 := by
  fin_cases i <;> simp [exPair]

theorem exPair_spd : IsSpd (signMatrix exPair (1 / 2)) := signMatrix_spd exPair_sign (by norm_num) (by norm_num)

theorem exPair_mulVec (v : Fin 2 → ℝ) : (signMatrix exPair (1 / 2)).mulVec v 0 = v 0 - v 1 / 2 ∧
    (signMatrix exPair (1 / 2)).mulVec v 1 = v 1 - v 0 / 2 := by
  rw [signMatrix_mulVec exPair_sign, signMatrix_mulVec exPair_sign]
  simp only [dotProduct, Fin.sum_univ_two, exPair, Matrix.cons_val_zero, Matrix.cons_val_one]
  constructor <;> ring

theorem exPair_eigenvalues (lam : ℝ) (h : ScaledEigenvalue (signMatrix exPair (1 / 2)) (fun _ => 1) lam) :
    lam = 1 / 2 ∨ lam = 3 / 2 := by
  obtain ⟨v, hv0, hv⟩ := h
  have h0 := hv 0
  have h1 := hv 1
  rw [(exPair_mulVec v).1, one_mul] at h0
  rw [(exPair_mulVec v).2, one_mul] at h1
  have e1 : (v 0 + v 1) * (lam - 1 / 2) = 0 := by linarith
  have e2 : (v 0 - v 1) * (lam - 3 / 2) = 0 := by linarith
  rcases mul_eq_zero.1 e1 with h | h
  · rcases mul_eq_zero.1 e2 with h' | h'
    · exfalso
      apply hv0
      funext i
      fin_cases i
      · change v 0 = 0; linarith
      · change v 1 = 0; linarith
    · right; linarith
  · left; linarith

theorem exPair_bound : ∀ lam, ScaledEigenvalue (signMatrix exPair (1 / 2)) (fun _ => 1) lam →
    lam < upperEnd [1 / 2, 3 / 2] + lowerEnd none [1 / 2, 3 / 2] := by
  intro lam h
  have hu : upperEnd [1 / 2, 3 / 2] = 9 / 5 := by
    simp only [upperEnd, List.getLast?_cons_cons, List.getLast?_singleton]
    norm_num
  have hl := lowerEnd_pos none (ritz := [1 / 2, 3 / 2]) (by simp)
  rcases exPair_eigenvalues lam h with rfl | rfl <;> rw [hu] <;> linarith

/-- `C78_smoother_iff` applies to it: with exact estimates and degree 5 every smoothing step decreases the
energy. -/
example : ∀ b x xs, (signMatrix exPair (1 / 2)).mulVec xs = b → x ≠ xs →
    energyOf (signMatrix exPair (1 / 2)) (xs - matrixFreeSmootherApply
      (chebyshevVmult (ChebyshevData.settings ⟨some 5, none, none⟩) 0 [1 / 2, 3 / 2]
        (signMatrix exPair (1 / 2)).mulVec fun _ => 1) (matrixOp (signMatrix exPair (1 / 2))) b x)
      < energyOf (signMatrix exPair (1 / 2)) (xs - x) :=
  (C78_smoother_iff ⟨some 5, none, none⟩ 0 [1 / 2, 3 / 2] (by simp) _ exPair_spd _ fun _ => one_pos).2
    exPair_bound

/-- Degree 3, the error `(1, -1)`, an eigenvector with the eigenvalue `3/2`. -/
example : ∃ q : ℝ, ![1, -1] - matrixFreeSmootherApply
      (chebyshevVmult (ChebyshevData.settings ⟨some 3, none, none⟩) 0 [1 / 2, 3 / 2]
        (signMatrix exPair (1 / 2)).mulVec fun _ => 1) (matrixOp (signMatrix exPair (1 / 2)))
      ((signMatrix exPair (1 / 2)).mulVec ![1, -1]) 0 = q • (![1, -1] - 0) ∧ |q| < 1 := by
  have hu : upperEnd [1 / 2, 3 / 2] = 9 / 5 := by
    simp only [upperEnd, List.getLast?_cons_cons, List.getLast?_singleton]
    norm_num
  have hl : lowerEnd none [1 / 2, 3 / 2] = 1 / 2 := by
    simp only [lowerEnd, hu, Option.getD_none, List.head?_cons, Option.getD_some]
    norm_num
  obtain ⟨q, h1, h2, h3⟩ := C78_degree 3 (by norm_num) (by norm_num) none none 0 [1 / 2, 3 / 2] (by simp)
    (by rw [hu, hl]; norm_num) (signMatrix exPair (1 / 2)) (fun _ => 1) _ 0 ![1, -1] rfl (3 / 2) (by
      intro i
      have h := exPair_mulVec (![1, -1] - 0)
      rw [one_mul]
      fin_cases i
      · exact h.1.trans (by norm_num)
      · exact h.2.trans (by norm_num))
  refine ⟨q, h1, lt_of_le_of_lt (h3 (by rw [hl]; norm_num) (by rw [hu]; norm_num)) ?_⟩
  rw [hu, hl, div_lt_one]
  · have := chebT_lt 2 (le_refl (1 : ℝ)) (show (1 : ℝ) < (9 / 5 + 1 / 2) / (9 / 5 - 1 / 2) by norm_num)
    exact lt_of_le_of_lt (chebT_one_le 3 (le_refl 1)) this
  · exact lt_of_lt_of_le one_pos (chebT_one_le 3 (by norm_num))

/-- The estimates are Ritz values if the iteration starts from the first unit vector. -/
theorem exPair_ritz : RitzContract ![1, 0] (signMatrix exPair (1 / 2)) (fun _ => 1) [1 / 2, 3 / 2] := by
  have h0 : (![1, 0] : Fin 2 → ℝ) ∈ krylov (signMatrix exPair (1 / 2)) (fun _ => 1) ![1, 0] := by
    have := Submodule.subset_span (R := ℝ) (s := Set.range fun k : ℕ =>
      (fun v : Fin 2 → ℝ => fun i => 1 * (signMatrix exPair (1 / 2)).mulVec v i)^[k] fun i => 1 * (![1, 0] : Fin 2 → ℝ) i)
      ⟨0, rfl⟩
    simpa [krylov] using this
  have h1 : (![1, -1 / 2] : Fin 2 → ℝ) ∈ krylov (signMatrix exPair (1 / 2)) (fun _ => 1) ![1, 0] := by
    have := Submodule.subset_span (R := ℝ) (s := Set.range fun k : ℕ =>
      (fun v : Fin 2 → ℝ => fun i => 1 * (signMatrix exPair (1 / 2)).mulVec v i)^[k] fun i => 1 * (![1, 0] : Fin 2 → ℝ) i)
      ⟨1, rfl⟩
    refine (congrArg (· ∈ krylov (signMatrix exPair (1 / 2)) (fun _ => 1) ![1, 0]) ?_).mp this
    funext i
    simp only [Function.iterate_one, one_mul]
    fin_cases i
    · refine ((exPair_mulVec _).1).trans ?_
      norm_num
    · refine ((exPair_mulVec _).2).trans ?_
      norm_num
  have hq : ∀ w : Fin 2 → ℝ, w ⬝ᵥ (signMatrix exPair (1 / 2)).mulVec w
      = w 0 * (w 0 - w 1 / 2) + w 1 * (w 1 - w 0 / 2) := by
    intro w
    rw [dotProduct, Fin.sum_univ_two, (exPair_mulVec w).1, (exPair_mulVec w).2]
  intro m hm
  simp only [List.mem_cons, List.not_mem_nil, or_false] at hm
  rcases hm with rfl | rfl
  · refine ⟨(3 : ℝ) • ![1, 0] + (-2 : ℝ) • ![1, -1 / 2],
      Submodule.add_mem _ (Submodule.smul_mem _ _ h0) (Submodule.smul_mem _ _ h1), ?_, ?_⟩
    · intro h
      have := congrFun h 0
      norm_num at this
    · rw [hq, Fin.sum_univ_two]
      simp
      norm_num
  · refine ⟨(-1 : ℝ) • ![1, 0] + (2 : ℝ) • ![1, -1 / 2],
      Submodule.add_mem _ (Submodule.smul_mem _ _ h0) (Submodule.smul_mem _ _ h1), ?_, ?_⟩
    · intro h
      have := congrFun h 0
      norm_num at this
    · rw [hq, Fin.sum_univ_two]
      simp
      norm_num

/-- One coarse unknown: the sum of both. -/
def exSumRow : Matrix (Fin 1) (Fin 2) ℝ := Matrix.of fun _ _ => 1

theorem exSumRow_independent : IndependentRows exSumRow := by
  intro y hy
  have h0 : ∑ k : Fin 1, (1 : ℝ) * y k = 0 := congrFun hy (0 : Fin 2)
  rw [Fin.sum_univ_one, one_mul] at h0
  funext k
  rw [Fin.eq_zero k]
  exact h0

theorem exName : EqNoCase ((none : Option (List Char)).getD (chars! "Chebyshev")) (chars! "chebyshev") :=
  (lowerCase_iff _ _ (by decide +kernel)).1 (by decide +kernel)

/-- The two-level cycle with degree 3 converges. -/
example : ∃ H, (buildHierarchy true false (some { isPreconditioner := some false })
      (.ok (matrixFreeHelpers true none (some 3) none none 0 (twoLevels 2 1) (fun _ _ => 1)
        (fun _ _ _ => [1 / 2, 3 / 2]) (signMatrix exPair (1 / 2)) (twoLevelRestriction exSumRow)
        (fun l => exInvSolve l (twoLevels 2 1))))).result = .ok H ∧
    ∀ fresh (x b xs : Fin (twoLevels 2 1 0) → ℝ), (signMatrix exPair (1 / 2)).mulVec xs = b → x ≠ xs →
      ∃ y, (H.vmult fresh x b).result = .ok y ∧
        energyOf (signMatrix exPair (1 / 2)) (xs - y) < energyOf (signMatrix exPair (1 / 2)) (xs - x) :=
  C78_cycle_partial true false _ none exName (some 3) none none 0 (twoLevels 2 1) (fun _ _ => 1)
    (fun _ _ => one_pos) (fun _ _ _ => [1 / 2, 3 / 2]) (signMatrix exPair (1 / 2)) exPair_spd ![1, 0] exPair_ritz
    (twoLevelRestriction exSumRow) (twoLevelRestriction_independent exSumRow_independent) _
    (fun l => exInvSolve_exact _ l) rfl rfl rfl (by decide) exPair_bound

/-- The same hierarchy as a preconditioner. -/
example : ∃ H, (buildHierarchy true false (some {})
      (.ok (matrixFreeHelpers true none (some 3) none none 0 (twoLevels 2 1) (fun _ _ => 1)
        (fun _ _ _ => [1 / 2, 3 / 2]) (signMatrix exPair (1 / 2)) (twoLevelRestriction exSumRow)
        (fun l => exInvSolve l (twoLevels 2 1))))).result = .ok H ∧
    ∃ M : Matrix (Fin 2) (Fin 2) ℝ, IsSpd M ∧ ∀ fresh x b, (H.vmult fresh x b).result = .ok (M.mulVec b) :=
  C78_preconditioner_partial true false _ none exName (some 3) none none 0 (twoLevels 2 1) (fun _ _ => 1)
    (fun _ _ => one_pos) (fun _ _ _ => [1 / 2, 3 / 2]) (signMatrix exPair (1 / 2)) exPair_spd ![1, 0] exPair_ritz
    (twoLevelRestriction exSumRow) (twoLevelRestriction_independent exSumRow_independent) _
    (fun l => exInvSolve_exact _ l) rfl rfl rfl (by decide) exPair_bound

/-- Alternating signs at four unknowns whose numbers are equal modulo eleven. -/
def exSigns (i : Fin 34) : ℤ :=
  if i.val = 0 ∨ i.val = 22 then 1 else if i.val = 11 ∨ i.val = 33 then -1 else 0

/-- The components modulo eleven. -/
def exStart (i : Fin 34) : ℤ := (i.val % 11 : ℕ)

/-- One coarse unknown: the sum of two fine ones. -/
def exTwoRow (i : Fin 34) : ℤ := if i.val = 0 ∨ i.val = 11 then 1 else 0

theorem exSigns_sign (i : Fin 34) : (exSigns i : ℝ) = 0 ∨ (exSigns i : ℝ) = 1 ∨ (exSigns i : ℝ) = -1 := by
  have : exSigns i = 0 ∨ exSigns i = 1 ∨ exSigns i = -1 := by revert i; decide
  rcases this with h | h | h <;> simp [h]

/-- `C78_cycle_violated` applies with 34 unknowns, the start vector `i` modulo 11, whose estimate is `1`, and the
degree 5: the cycle diverges. -/
example : IsSpd (signMatrix (fun i => (exSigns i : ℝ)) (1 / 2)) ∧
    ∃ H, (buildHierarchy true false (some { isPreconditioner := some false })
      (.ok (matrixFreeHelpers true none (some 5) (some 15) (some 3) 0 (twoLevels 34 1) (fun _ _ => 1)
        (fun _ _ _ => [1]) (signMatrix (fun i => (exSigns i : ℝ)) (1 / 2))
        (twoLevelRestriction (Matrix.of fun (_ : Fin 1) i => (exTwoRow i : ℝ)))
        (fun l => exInvSolve l (twoLevels 34 1))))).result = .ok H ∧
      ∃ q : ℝ, 1 < q ∧ ∀ fresh (c : ℝ), ∃ y, (H.vmult fresh (c • fun i => (exSigns i : ℝ)) 0).result = .ok y ∧
        y = (q * c) • fun i => (exSigns i : ℝ) := by
  refine C78_cycle_violated true false _ none exName (some 5) (some 15) (some 3) 0 1 34 (fun i => (exSigns i : ℝ))
    exSigns_sign ?_ ?_ (fun i => (exStart i : ℝ)) ?_ (1 / 2) (by norm_num) (by norm_num) (fun _ _ _ => [1]) ?_ _ ?_ ?_
    _ (fun l => exInvSolve_exact _ l) rfl rfl rfl (by decide)
  · have : ∑ i, exSigns i = 0 := by decide +kernel
    exact_mod_cast this
  · have : ∑ i, exSigns i * exSigns i = 4 := by decide +kernel
    exact_mod_cast this
  · intro i j hi hj
    have : ∀ i j : Fin 34, exSigns i ≠ 0 → exSigns j ≠ 0 → exStart i = exStart j := by decide +kernel
    exact_mod_cast this i j (by exact_mod_cast hi) (by exact_mod_cast hj)
  · intro m hm
    rw [List.mem_singleton] at hm
    subst hm
    refine ⟨fun i => (exStart i : ℝ), ?_, ?_, ?_⟩
    · have := Submodule.subset_span (R := ℝ) (s := Set.range fun k : ℕ =>
        (fun v : Fin 34 → ℝ => fun i => 1 * (signMatrix (fun i => (exSigns i : ℝ)) (1 / 2)).mulVec v i)^[k]
          fun i => 1 * (exStart i : ℝ)) ⟨0, rfl⟩
      simpa [krylov] using this
    · intro h
      have h1 : (exStart 1 : ℝ) = 0 := congrFun h 1
      have h2 : exStart 1 = 1 := by decide +kernel
      rw [h2] at h1
      norm_num at h1
    · rw [signMatrix_energy exSigns_sign]
      have h1 : ∑ i, exSigns i * exStart i = 0 := by decide +kernel
      have h2 : ∑ i, exSigns i * exSigns i * (exStart i * exStart i) = 0 := by decide +kernel
      have h1' : (fun i => (exSigns i : ℝ)) ⬝ᵥ (fun i => (exStart i : ℝ)) = 0 := by
        change ∑ i, (exSigns i : ℝ) * (exStart i : ℝ) = 0
        exact_mod_cast h1
      have h2' : ∑ i, (exSigns i : ℝ) * exSigns i * (exStart i * exStart i) = 0 := by exact_mod_cast h2
      rw [h1', h2']
      simp [dotProduct]
  · intro y hy
    have h0 : ∑ k : Fin 1, (exTwoRow 0 : ℝ) * y k = 0 := congrFun hy (0 : Fin 34)
    have h1 : exTwoRow 0 = 1 := by decide +kernel
    rw [Fin.sum_univ_one, h1, Int.cast_one, one_mul] at h0
    funext k
    rw [Fin.eq_zero k]
    exact h0
  · funext k
    change ∑ i, (exTwoRow i : ℝ) * (exSigns i : ℝ) = 0
    have h1 : ∑ i, exTwoRow i * exSigns i = 0 := by decide +kernel
    exact_mod_cast h1

/-- No parameter, or one hundred: the same smoother. -/
example : (matrixFreeHelpers true none (some 5) none none 0 (twoLevels 2 1) (fun _ _ => 1)
      (fun _ _ _ => [1 / 2, 3 / 2]) (signMatrix exPair (1 / 2)) (twoLevelRestriction exSumRow)
      (fun l => exInvSolve l (twoLevels 2 1))).buildSmoother 0 (matrixOp (signMatrix exPair (1 / 2))) {}
    = (matrixFreeHelpers true none (some 5) none (some 100) 0 (twoLevels 2 1) (fun _ _ => 1)
      (fun _ _ _ => [1 / 2, 3 / 2]) (signMatrix exPair (1 / 2)) (twoLevelRestriction exSumRow)
      (fun l => exInvSolve l (twoLevels 2 1))).buildSmoother 0 (matrixOp (signMatrix exPair (1 / 2))) {} :=
  C78_max_eigenvalue_violated true none (some 5) none none (some 100) 0 (twoLevels 2 1) _ _ _ _ _ 0 _ _

end Mfmg
