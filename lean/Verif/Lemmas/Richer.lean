import Verif.Spec.Richer
import Verif.Lemmas.Singular
import Verif.Lemmas.Splitting
import Verif.Props.RelaxationProcs

/-!
# Error propagation of two-level cycles with symmetric smoothers
-/

set_option autoImplicit false

namespace Mfmg

open Spec Matrix

variable {K : Type} [Field K] [LinearOrder K] [IsStrictOrderedRing K] {n : ℕ}

omit [IsStrictOrderedRing K] in
theorem spd_nonneg {A : Matrix (Fin n) (Fin n) K} (hA : IsSpd A) (e : Fin n → K) : 0 ≤ energyOf A e := by
  by_cases h : e = 0
  · rw [h, energyOf, zero_dotProduct]
  · exact (hA.2 e h).le

section projections

variable {A : Matrix (Fin n) (Fin n) K} {S Q Q' : (Fin n → K) → Fin n → K}

omit [LinearOrder K] [IsStrictOrderedRing K] in
/-- Pre- and post-smoothing with a smoother that is symmetric in the energy around an orthogonal projection: the energy
product of the result with the error is the energy after the projection. -/
theorem cycle_form (hS : ∀ u v, S u ⬝ᵥ A.mulVec v = u ⬝ᵥ A.mulVec (S v))
    (hQ : ∀ u v, Q u ⬝ᵥ A.mulVec v = Q u ⬝ᵥ A.mulVec (Q v)) (e : Fin n → K) :
    S (Q (S e)) ⬝ᵥ A.mulVec e = energyOf A (Q (S e)) := by
  rw [hS, hQ]
  rfl

/-- A bound for the cycle is a bound for its first half. -/
theorem half_of_cycle (hA : IsSpd A) (hS : ∀ u v, S u ⬝ᵥ A.mulVec v = u ⬝ᵥ A.mulVec (S v))
    (hQ : ∀ u v, Q u ⬝ᵥ A.mulVec v = Q u ⬝ᵥ A.mulVec (Q v)) {c : K} (hc : 0 ≤ c)
    (h : ∀ e, energyOf A (S (Q (S e))) ≤ c * c * energyOf A e) (e : Fin n → K) :
    energyOf A (Q (S e)) ≤ c * energyOf A e := by
  have h1 := spd_cauchy hA (S (Q (S e))) e
  rw [cycle_form hS hQ] at h1
  change _ ≤ energyOf A (S (Q (S e))) * energyOf A e at h1
  have h2 : energyOf A (S (Q (S e))) * energyOf A e ≤ c * c * energyOf A e * energyOf A e :=
    mul_le_mul_of_nonneg_right (h e) (spd_nonneg hA e)
  refine abs_le_of_sq_le_sq' ?_ (mul_nonneg hc (spd_nonneg hA e)) |>.2
  nlinarith

/-- And a bound for the first half is one for the cycle. -/
theorem cycle_of_half (hA : IsSpd A) (hS : ∀ u v, S u ⬝ᵥ A.mulVec v = u ⬝ᵥ A.mulVec (S v))
    (hQ : ∀ u v, Q u ⬝ᵥ A.mulVec v = Q u ⬝ᵥ A.mulVec (Q v)) {c : K} (hc : 0 ≤ c)
    (h : ∀ e, energyOf A (Q (S e)) ≤ c * energyOf A e) (e : Fin n → K) :
    energyOf A (S (Q (S e))) ≤ c * c * energyOf A e := by
  obtain ⟨f, hf⟩ : ∃ f, Q (S e) = f := ⟨_, rfl⟩
  rw [hf]
  have h1 : energyOf A (S f) = f ⬝ᵥ A.mulVec (Q (S (S f))) := by
    unfold energyOf
    rw [hS, ← hf, hQ]
  have h2 := spd_cauchy hA f (Q (S (S f)))
  rw [← h1] at h2
  have h3 := h (S f)
  have h4 := h e
  rw [hf] at h4
  have hf0 := spd_nonneg hA f
  have hg0 := spd_nonneg hA (S f)
  have h5 : energyOf A (S f) ≤ c * energyOf A f := by
    rcases hg0.eq_or_lt with h0 | h0
    · rw [← h0]
      exact mul_nonneg hc hf0
    · have h6 : energyOf A (S f) * energyOf A (S f) ≤ energyOf A f * (c * energyOf A (S f)) :=
        h2.trans (mul_le_mul_of_nonneg_left h3 hf0)
      have h7 : energyOf A (S f) * energyOf A (S f) ≤ (c * energyOf A f) * energyOf A (S f) := by linarith
      exact le_of_mul_le_mul_right h7 h0
  calc energyOf A (S f) ≤ c * energyOf A f := h5
    _ ≤ c * (c * energyOf A e) := mul_le_mul_of_nonneg_left h4 hc
    _ = c * c * energyOf A e := by ring

end projections

section coarse

variable {m m' : ℕ} {A : Matrix (Fin n) (Fin n) K}

/-- The error after the coarse correction. -/
noncomputable def corrected (A : Matrix (Fin n) (Fin n) K) (R : Matrix (Fin m) (Fin n) K) (e : Fin n → K) : Fin n → K :=
  e - R.transpose.mulVec ((galerkin R A)⁻¹.mulVec (R.mulVec (A.mulVec e)))

omit [IsStrictOrderedRing K] in
theorem corrected_residual (hA : IsSpd A) {R : Matrix (Fin m) (Fin n) K} (hR : IndependentRows R) (e : Fin n → K) :
    R.mulVec (A.mulVec (corrected A R e)) = 0 := by
  have hd : (galerkin R A).det ≠ 0 := spd_det ((C74_iff R A hA).2 hR)
  unfold corrected
  rw [Matrix.mulVec_sub, Matrix.mulVec_sub]
  have : R.mulVec (A.mulVec (R.transpose.mulVec ((galerkin R A)⁻¹.mulVec (R.mulVec (A.mulVec e)))))
      = (galerkin R A).mulVec ((galerkin R A)⁻¹.mulVec (R.mulVec (A.mulVec e))) := by
    rw [galerkin, ← Matrix.mulVec_mulVec, ← Matrix.mulVec_mulVec]
  rw [this, mulVec_inv hd, sub_self]

omit [IsStrictOrderedRing K] in
theorem corrected_orth (hA : IsSpd A) {R : Matrix (Fin m) (Fin n) K} (hR : IndependentRows R) (e : Fin n → K)
    (w : Fin m → K) : corrected A R e ⬝ᵥ A.mulVec (R.transpose.mulVec w) = 0 := by
  rw [form_symm hA.1, Matrix.mulVec_transpose, ← Matrix.dotProduct_mulVec, corrected_residual hA hR, dotProduct_zero]

omit [IsStrictOrderedRing K] in
theorem corrected_proj (hA : IsSpd A) {R : Matrix (Fin m) (Fin n) K} (hR : IndependentRows R) (u v : Fin n → K) :
    corrected A R u ⬝ᵥ A.mulVec v = corrected A R u ⬝ᵥ A.mulVec (corrected A R v) := by
  conv_rhs => rw [corrected.eq_def A R v, Matrix.mulVec_sub, dotProduct_sub, corrected_orth hA hR, sub_zero]

omit [IsStrictOrderedRing K] in
/-- The correction from any solution of the coarse problem. -/
theorem corrected_eq (hA : IsSpd A) {R : Matrix (Fin m) (Fin n) K} (hR : IndependentRows R) (e : Fin n → K)
    {z : Fin m → K} (hz : (galerkin R A).mulVec z = R.mulVec (A.mulVec e)) :
    corrected A R e = e - R.transpose.mulVec z := by
  have hd : (galerkin R A).det ≠ 0 := spd_det ((C74_iff R A hA).2 hR)
  have h1 : (galerkin R A)⁻¹.mulVec ((galerkin R A).mulVec z) = z := by
    rw [Matrix.mulVec_mulVec, Matrix.nonsing_inv_mul _ (Ne.isUnit hd), Matrix.one_mulVec]
  rw [corrected, ← hz, h1]

/-- The correction with the larger coarse space is the better one. -/
theorem corrected_le (hA : IsSpd A) {R : Matrix (Fin m) (Fin n) K} {R' : Matrix (Fin m') (Fin n) K}
    (hR' : IndependentRows R') (h : ContainsRows R' R) (e : Fin n → K) :
    energyOf A (corrected A R' e) ≤ energyOf A (corrected A R e) := by
  obtain ⟨W, rfl⟩ := h
  obtain ⟨z, hz⟩ : ∃ z, corrected A (W * R') e = corrected A R' e + R'.transpose.mulVec z := by
    refine ⟨(galerkin R' A)⁻¹.mulVec (R'.mulVec (A.mulVec e))
      - W.transpose.mulVec ((galerkin (W * R') A)⁻¹.mulVec ((W * R').mulVec (A.mulVec e))), ?_⟩
    unfold corrected
    rw [Matrix.mulVec_sub, Matrix.transpose_mul, ← Matrix.mulVec_mulVec]
    abel
  rw [hz]
  have h1 := corrected_orth hA hR' e z
  have h2 := spd_nonneg hA (R'.transpose.mulVec z)
  have h3 : energyOf A (corrected A R' e + R'.transpose.mulVec z)
      = energyOf A (corrected A R' e) + energyOf A (R'.transpose.mulVec z) := by
    have h4 := form_symm hA.1 (corrected A R' e) (R'.transpose.mulVec z)
    unfold energyOf
    rw [Matrix.mulVec_add, add_dotProduct, dotProduct_add, dotProduct_add, ← h4, h1]
    ring
  linarith

end coarse

section hierarchy

omit [IsStrictOrderedRing K] in
/-- What the two-level hierarchy computes, in terms of errors. -/
theorem twoLevelGives_err (debug timer : Bool) (p : Params) (type : Option (List Char))
    (k : SmootherKind) (kind : Relaxation) (hk : dealiiSmoother debug true type = .ok k)
    (hk' : k.relaxation = some kind) (procs : List (List (Fin n)))
    (solve : ∀ m, Matrix (Fin m) (Fin m) K → (Fin m → K) → Fin m → K) (hsolve : ∀ m, SolvesExactly (solve m))
    {A : Matrix (Fin n) (Fin n) K} (hA : IsSpd A) {m : ℕ} {R : Matrix (Fin m) (Fin n) K} (hR : IndependentRows R)
    (hlev : p.maxLevels.getD 2 = 2) (hfast : p.fastAp.getD false = false) (x b xs : Fin n → K) (hxs : A.mulVec xs = b)
    (x₀ : Fin n → K) (hx₀ : x₀ = if p.isPreconditioner.getD true then 0 else x) :
    ∃ y, TwoLevelGives debug timer p type procs solve A R x b y ∧
      xs - y = (fun e => e - relaxVmult kind A procs (A.mulVec e))^[toUnsigned (p.nSmoothingSteps.getD 1)]
        (corrected A R ((fun e => e - relaxVmult kind A procs (A.mulVec e))^[toUnsigned (p.nSmoothingSteps.getD 1)]
          (xs - x₀))) := by
  obtain ⟨rows, hrows⟩ : ∃ rows, rows = twoLevelRows procs m := ⟨_, rfl⟩
  have hrow0 : rows 0 = procs := by rw [hrows]; rfl
  have hd : (galerkin R A).det ≠ 0 := spd_det ((C74_iff R A hA).2 hR)
  have hsol : ∀ b : Fin m → K, solve m (galerkin R A) b = (galerkin R A)⁻¹.mulVec b := by
    intro b
    have h1 := congrArg (galerkin R A)⁻¹.mulVec (hsolve m (galerkin R A) b hd)
    rwa [Matrix.mulVec_mulVec, Matrix.nonsing_inv_mul _ (Ne.isUnit hd), Matrix.one_mulVec] at h1
  have hb := two_build debug timer p type k kind hk hk' rows A R (fun l => solve (twoLevels n m l))
    (matrixHelpers debug type (twoLevels n m) rows A (twoLevelRestriction R) (fun l => solve (twoLevels n m l)))
    (fun M => .ok fun b _ => solve m M b) rfl (fun a => rfl) hlev hfast
  have hlin := two_linear timer p kind rows A R (galerkin R A)⁻¹ (fun b _ => solve m (galerkin R A) b) hsol
  obtain ⟨H, hH⟩ : ∃ H, H = twoLevelHierarchy (V := fun l => Fin (twoLevels n m l) → K) timer p (matrixOp A)
        (dealiiSmootherApply kind (rows 0) (matrixOp A)) (matrixOp R)
        ((matrixOp R).mul ((matrixOp A).mulTranspose (matrixOp R))) (fun b _ => solve m (galerkin R A) b) := ⟨_, rfl⟩
  have hlin : IsLinear H (semiData kind rows A R (galerkin R A)⁻¹) := by
    rw [hH]
    exact hlin
  have hp : H.isPreconditioner = p.isPreconditioner.getD true := by rw [hH]; rfl
  have hL : H.numLevels = 2 := by rw [hH]; rfl
  have hn : H.nSmoothingSteps = toUnsigned (p.nSmoothingSteps.getD 1) := by rw [hH]; rfl
  obtain ⟨y, hy⟩ : ∃ y : Fin n → K, cycle (semiData kind rows A R (galerkin R A)⁻¹) H.nSmoothingSteps 1 0 b x₀ = y :=
    ⟨_, rfl⟩
  refine ⟨y, ⟨H, ?_, ?_⟩, ?_⟩
  · rw [hH, ← hrows, hb]
    rfl
  · intro fresh
    have hc := C04_cycle_is_textbook H _ hlin fresh x b (Or.inr (by omega))
    rw [hp, hL] at hc
    refine hc.trans (congrArg Outcome.ok ?_)
    rw [← hy, hx₀]
    rfl
  · have := semi_cycle_err kind rows A R (galerkin R A)⁻¹ _ b x₀ xs y hxs hy
    rw [hn] at this
    rw [hrow0] at this
    exact this

omit [LinearOrder K] [IsStrictOrderedRing K] in
/-- Applications have one result. -/
theorem twoLevelGives_unique {debug timer : Bool} {p : Params} {type : Option (List Char)} {procs : List (List (Fin n))}
    {solve : ∀ m, Matrix (Fin m) (Fin m) K → (Fin m → K) → Fin m → K} {A : Matrix (Fin n) (Fin n) K} {m : ℕ}
    {R : Matrix (Fin m) (Fin n) K} {x b y y' : Fin n → K} (h : TwoLevelGives debug timer p type procs solve A R x b y)
    (h' : TwoLevelGives debug timer p type procs solve A R x b y') : y = y' := by
  obtain ⟨H, h1, h2⟩ := h
  obtain ⟨H', h3, h4⟩ := h'
  obtain rfl := Outcome.ok.inj (h1.symm.trans h3)
  exact Outcome.ok.inj ((h2 fun _ => 0).symm.trans (h4 fun _ => 0))

end hierarchy

section setup

variable {K : Type} [Field K]

/-- The agglomerates of two set-ups that differ in the number of vectors. -/
theorem more_copies {name : String} {q q' : ProcFem K} (hm : MoreVectors name q q') {u : UserIndex}
    {cs cs' : List (CopyData K)} (h : q.Result name u cs) (h' : q'.Result name u cs') (hlen : cs'.length = cs.length) :
    List.Forall₂ (fun c c' => c'.dofMap = c.dofMap ∧ c'.diag = c.diag ∧ c.eigenvectors <+: c'.eigenvectors) cs cs' := by
  rw [List.forall₂_iff_get]
  refine ⟨hlen.symm, ?_⟩
  intro i h1 h2
  have e1 := h.solved i _ (List.getElem?_eq_getElem h1)
  have e2 := h'.solved i _ (List.getElem?_eq_getElem h2)
  have e3 : q'.aggCells u i = q.aggCells u i := by simp only [ProcFem.aggCells, hm.mesh]
  obtain ⟨c', h3, h4⟩ := hm.more _ _ e1
  rw [e3, h3] at e2
  cases e2
  exact h4

omit [Field K] in
/-- Rows of the smaller restriction matrix are rows of the larger one. -/
theorem more_rows {cs cs' : List (CopyData K)}
    (h : List.Forall₂ (fun c c' => c'.dofMap = c.dofMap ∧ c'.diag = c.diag ∧ c.eigenvectors <+: c'.eigenvectors) cs cs')
    {c : CopyData K} {v : List K} (hr : (c, v) ∈ rowsOf cs) :
    ∃ c', (c', v) ∈ rowsOf cs' ∧ c'.dofMap = c.dofMap ∧ c'.diag = c.diag := by
  induction h with
  | nil => simp [rowsOf] at hr
  | @cons d d' cs cs' hd _ ih =>
    rw [rowsOf, List.flatMap_cons, List.mem_append] at hr
    rcases hr with hr | hr
    · obtain ⟨w, hw, e⟩ := List.mem_map.1 hr
      cases e
      refine ⟨d', ?_, hd.1, hd.2.1⟩
      rw [rowsOf, List.flatMap_cons, List.mem_append]
      exact Or.inl (List.mem_map.2 ⟨v, hd.2.2.subset hw, rfl⟩)
    · obtain ⟨c', h1, h2⟩ := ih hr
      refine ⟨c', ?_, h2⟩
      rw [rowsOf, List.flatMap_cons, List.mem_append]
      exact Or.inr h1

end setup

end Mfmg
