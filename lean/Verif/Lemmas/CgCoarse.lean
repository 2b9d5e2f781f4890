import Verif.Spec.CgCoarse
import Verif.Props.ConjugateGradient

/-!
# Cycles with a coarse solver that is only a symmetric linear map
-/

set_option autoImplicit false

namespace Mfmg

open Spec

section

variable {K : Type} [Field K] [LinearOrder K] [IsStrictOrderedRing K]

/-- The data of a hierarchy with another coarse solver. -/
def withCoarse {V : ℕ → Type} [∀ l, AddCommGroup (V l)] [∀ l, Module K (V l)] (D : Data K V)
    (C : ∀ l, V l →ₗ[K] V l) : Data K V := { D with C := C }

omit [LinearOrder K] [IsStrictOrderedRing K] in
theorem G_withCoarse {V : ℕ → Type} [∀ l, AddCommGroup (V l)] [∀ l, Module K (V l)] (D : Data K V)
    (C : ∀ l, V l →ₗ[K] V l) (l n : ℕ) : G (withCoarse D C) l n = G D l n := by
  induction n with
  | zero => rfl
  | succ n ih => simp only [G, ih]; rfl

/-- A coarse solver that is smaller by at most the factor `c` makes the whole cycle smaller by at most `c`. -/
theorem M_mono {V : ℕ → Type} [∀ l, AddCommGroup (V l)] [∀ l, Module K (V l)] {D : Data K V} {φ : Forms K V}
    {L : ℕ} {C C' : ∀ l, V l →ₗ[K] V l} (hs : Symmetric (withCoarse D C) φ L)
    (hs' : Symmetric (withCoarse D C') φ L) {c : K} (hc : 1 ≤ c)
    (hB : ∀ l, l + 1 < L → SmootherConvergent D φ l) (n d l : ℕ) (hd : l + d + 1 = L)
    (hC : ∀ l, l + 1 = L → ∀ x, φ l (C l x) x ≤ c * φ l (C' l x) x) (x : V l) :
    φ l (Spec.M (withCoarse D C) n d l x) x ≤ c * φ l (Spec.M (withCoarse D C') n d l x) x := by
  induction d generalizing l with
  | zero => exact hC l (by omega) x
  | succ d ih =>
    rw [correction_form hs n d l (by omega), correction_form hs' n d l (by omega), G_withCoarse, G_withCoarse,
      G_withCoarse, G_withCoarse, mul_add]
    have h1 : 0 ≤ φ l (G D l (n + n) x) x := by
      have := G_nonneg hs l n (by omega) (hB l (by omega)) x
      rwa [G_withCoarse] at this
    exact add_le_add (le_mul_of_one_le_left h1 hc) (ih (l + 1) (by omega) _)

/-- With at least one level above the coarsest, the smoothers make the cycle positive definite; the coarse solver need
not be. -/
theorem M_pos_of_nonneg {V : ℕ → Type} [∀ l, AddCommGroup (V l)] [∀ l, Module K (V l)] {D : Data K V}
    {φ : Forms K V} {L : ℕ} (hs : Symmetric D φ L) (n d l : ℕ) (hd : l + d + 2 = L) (hn : 0 < n)
    (hc : ∀ l, l + 1 < L → SmootherStrictlyConvergent D φ l)
    (hC : ∀ l, l + 1 = L → ∀ x, 0 ≤ φ l (D.C l x) x) (x : V l) (hx : x ≠ 0) :
    0 < φ l (Spec.M D n (d + 1) l x) x := by
  rw [correction_form hs n d l (by omega)]
  refine add_pos_of_pos_of_nonneg (G_pos hs l n (by omega) hn (hc l (by omega)) x hx) ?_
  refine M_nonneg hs n d (l + 1) (by omega) (fun l hl y => ?_) hC _
  by_cases hy : y = 0
  · simp [hy]
  · exact (hc l hl y hy).le

/-- The linear map a coarse solver is. -/
def coarseLin {n : ℕ} {s : (Fin n → K) → Fin n → K} (h : ActsSymmetrically s) : (Fin n → K) →ₗ[K] Fin n → K where
  toFun := s
  map_add' := h.1
  map_smul' := h.2.1

omit [LinearOrder K] [IsStrictOrderedRing K] in
/-- Construction gives the textbook hierarchy, whatever linear map the coarse solver is. -/
theorem matrixHelpers_build_linear (debug timer : Bool) (p : Params) (type : Option (List Char))
    (k : SmootherKind) (kind : Relaxation) (hk : dealiiSmoother debug true type = .ok k)
    (hk' : k.relaxation = some kind) (dims : ℕ → ℕ) (procs : ∀ l, List (List (Fin (dims l))))
    (A : Matrix (Fin (dims 0)) (Fin (dims 0)) K)
    (R : ∀ l, Matrix (Fin (dims (l + 1))) (Fin (dims l)) K)
    (solve : ∀ l, Matrix (Fin (dims l)) (Fin (dims l)) K → (Fin (dims l) → K) → Fin (dims l) → K)
    (C : ∀ l, (Fin (dims l) → K) →ₗ[K] Fin (dims l) → K)
    (hsolve : ∀ l b, solve l (coarseMatrix dims A R l) b = C l b) (hpos : 0 < p.maxLevels.getD 2)
    (hfast : p.fastAp.getD false = false) :
    ∃ H, (buildHierarchy debug timer (some p)
        (.ok (matrixHelpers debug type dims procs A R solve))).result = .ok H ∧
      IsLinear H (withCoarse (matrixData kind dims procs A R) C) ∧ H.numLevels = (p.maxLevels.getD 2).toNat ∧
      H.isPreconditioner = p.isPreconditioner.getD true ∧
      H.nSmoothingSteps = toUnsigned (p.nSmoothingSteps.getD 1) := by
  set h := matrixHelpers debug type dims procs A R solve with hh
  have hsm : ∀ l a, h.buildSmoother l a p = .ok (dealiiSmootherApply kind (procs l) a) := by
    intro l a
    simp [hh, matrixHelpers, hk, hk']
  obtain ⟨H, hH⟩ := C08_construction_succeeds debug timer p h hpos ⟨_, rfl⟩
    (fun l a => ⟨_, hsm l a⟩) (fun l => ⟨_, rfl⟩)
    (by rw [hfast]; exact fun l a r => ⟨_, rfl⟩) (fun l r ap => ⟨_, rfl⟩) (fun l a p => ⟨_, rfl⟩)
  refine ⟨H, hH, ?_⟩
  obtain ⟨h', p', a, L, e1, e2, hpos', ha, hL, rfl⟩ := (build_ok _ _ _ _ _).mp hH
  obtain rfl := Outcome.ok.inj e1
  obtain rfl := Option.some.inj e2
  obtain ⟨hF, h0⟩ := buildLoop_final h p timer _ ((p.maxLevels.getD 2).toNat - 1) 0 (by omega) _ _
    (initInv h p a) hL
  refine ⟨?_, rfl, rfl, rfl⟩
  have hop : ∀ l, l < (p.maxLevels.getD 2).toNat → ∃ o, (L l).operator = some o ∧
      ∀ x, o.fwd x = (coarseMatrix dims A R l).mulVec x := by
    intro l
    induction l with
    | zero =>
      intro _
      have ha' : matrixOp A = a := Outcome.ok.inj ha
      refine ⟨a, by rw [h0]; simp [initLevels], ?_⟩
      intro x
      rw [← ha']
      rfl
    | succ l ih =>
      intro hl
      obtain ⟨o, ho, hox⟩ := ih (by omega)
      obtain ⟨a, s, r, ap, ac, h1, h2, h3, h4, h5, h6, h7, h8⟩ := hF.prev l hl
      refine ⟨ac, h4, ?_⟩
      intro x
      obtain rfl := Option.some.inj (ho.symm.trans h1)
      have e6 : matrixOp (R l) = r := Outcome.ok.inj h6
      have e7 : o.mulTranspose r = ap := by
        simp only [chooseAP, hfast, Bool.false_eq_true, if_false] at h7
        exact Outcome.ok.inj h7
      have e8 : r.mul ap = ac := Outcome.ok.inj h8
      rw [← e8, ← e7, ← e6]
      simp only [Op.mul, Op.mulTranspose, matrixOp, hox, coarseMatrix, galerkin]
      rw [← Matrix.mulVec_mulVec, ← Matrix.mulVec_mulVec]
  refine ⟨by dsimp; omega, ?_, ?_, ?_, ?_⟩
  · intro l hl
    exact hop l hl
  · intro l hl
    obtain ⟨a, s, r, ap, ac, h1, h2, h3, h4, h5, h6, h7, h8⟩ := hF.prev l hl
    obtain ⟨o, ho, hox⟩ := hop l (lt_trans (Nat.lt_succ_self l) hl)
    obtain rfl := Option.some.inj (ho.symm.trans h1)
    refine ⟨s, h2, ?_⟩
    intro b x
    rw [hsm] at h5
    rw [← Outcome.ok.inj h5, dealiiSmootherApply_matrix kind (procs l) o _ hox]
    rfl
  · intro l hl
    obtain ⟨a, s, r, ap, ac, h1, h2, h3, h4, h5, h6, h7, h8⟩ := hF.prev l hl
    have e6 : matrixOp (R l) = r := Outcome.ok.inj h6
    exact ⟨r, h3, fun x => by rw [← e6]; rfl, fun y => by rw [← e6]; rfl⟩
  · have hl : (p.maxLevels.getD 2).toNat - 1 + 1 = (p.maxLevels.getD 2).toNat := by omega
    obtain ⟨a, s, h1, h2, h3⟩ := hF.last _ hl
    obtain ⟨o, ho, hox⟩ := hop ((p.maxLevels.getD 2).toNat - 1) (by omega)
    obtain rfl := Option.some.inj (ho.symm.trans h1)
    refine ⟨s, h2, ?_⟩
    intro b
    have e3 := Outcome.ok.inj h3
    rw [← e3]
    change solve _ (entriesOf o) b = C _ b
    rw [entriesOf_eq o _ hox, hsolve]

/-- The smoothers of a hierarchy of matrices. -/
theorem smoother_strict {kind : Relaxation} {dims : ℕ → ℕ} {procs : ∀ l, List (List (Fin (dims l)))}
    {A : Matrix (Fin (dims 0)) (Fin (dims 0)) K} (hA : IsSpd A)
    {R : ∀ l, Matrix (Fin (dims (l + 1))) (Fin (dims l)) K} (hR : ∀ l, IndependentRows (R l))
    (hsymm : ∀ l x y, relaxVmult kind (coarseMatrix dims A R l) (procs l) x ⬝ᵥ y
      = x ⬝ᵥ relaxVmult kind (coarseMatrix dims A R l) (procs l) y) (l : ℕ)
    (hdec : ∀ e : Fin (dims l) → K, e ≠ 0 → energyOf (coarseMatrix dims A R l)
        (e - relaxVmult kind (coarseMatrix dims A R l) (procs l) ((coarseMatrix dims A R l).mulVec e))
        < energyOf (coarseMatrix dims A R l) e) :
    SmootherStrictlyConvergent (matrixData kind dims procs A R) (fun l => dotForm (dims l)) l := by
  have hspd := coarseMatrix_spd dims A hA R hR
  intro x hx
  have hne : (coarseMatrix dims A R l)⁻¹.mulVec x ≠ 0 := by
    intro h
    have := mulVec_inv (spd_det (hspd l)) x
    rw [h, Matrix.mulVec_zero] at this
    exact hx this.symm
  set w := relaxVmult kind (coarseMatrix dims A R l) (procs l) x with hw
  have h1 : dotForm (dims l) (2 • w - relaxVmult kind (coarseMatrix dims A R l) (procs l)
      ((coarseMatrix dims A R l).mulVec w)) x
      = 2 * (w ⬝ᵥ x) - w ⬝ᵥ (coarseMatrix dims A R l).mulVec w := by
    rw [map_sub, LinearMap.sub_apply, map_nsmul, LinearMap.smul_apply]
    change 2 • (w ⬝ᵥ x) - relaxVmult kind (coarseMatrix dims A R l) (procs l) ((coarseMatrix dims A R l).mulVec w) ⬝ᵥ x
      = _
    rw [hsymm l ((coarseMatrix dims A R l).mulVec w) x, ← hw, dotProduct_comm w ((coarseMatrix dims A R l).mulVec w), two_nsmul, two_mul]
  change 0 < dotForm (dims l) (2 • w - relaxVmult kind (coarseMatrix dims A R l) (procs l)
      ((coarseMatrix dims A R l).mulVec w)) x
  rw [h1]
  have h2 := hdec _ hne
  rw [mulVec_inv (spd_det (hspd l)) x] at h2
  have h3 := energy_gain (hspd l).1 ((coarseMatrix dims A R l)⁻¹.mulVec x)
    (relaxVmult kind (coarseMatrix dims A R l) (procs l) x)
  rw [mulVec_inv (spd_det (hspd l)) x] at h3
  rw [← hw] at h2 h3
  linarith

omit [IsStrictOrderedRing K] in
theorem symmetric_withCoarse {kind : Relaxation} {dims : ℕ → ℕ} {procs : ∀ l, List (List (Fin (dims l)))}
    {A : Matrix (Fin (dims 0)) (Fin (dims 0)) K} (hA : IsSpd A)
    {R : ∀ l, Matrix (Fin (dims (l + 1))) (Fin (dims l)) K} (hR : ∀ l, IndependentRows (R l))
    (hsymm : ∀ l x y, relaxVmult kind (coarseMatrix dims A R l) (procs l) x ⬝ᵥ y
      = x ⬝ᵥ relaxVmult kind (coarseMatrix dims A R l) (procs l) y)
    (C : ∀ l, (Fin (dims l) → K) →ₗ[K] Fin (dims l) → K) (hC : ∀ l x y, C l x ⬝ᵥ y = x ⬝ᵥ C l y) (L : ℕ) :
    Symmetric (withCoarse (matrixData kind dims procs A R) C) (fun l => dotForm (dims l)) L := by
  have hchain := matrixData_chain kind dims procs A hA R hR L
  refine ⟨hchain.form, hchain.A, ?_, hchain.RP, ?_⟩
  · intro l _ x y
    exact hsymm l x y
  · intro l _ x y
    exact hC l x y

/-- With such a coarse solver one cycle is a symmetric positive definite map. -/
theorem preconditioner_linear (debug timer : Bool) (p : Params) (type : Option (List Char)) (k : SmootherKind)
    (kind : Relaxation) (hk : dealiiSmoother debug true type = .ok k) (hk' : k.relaxation = some kind)
    (dims : ℕ → ℕ) (procs : ∀ l, List (List (Fin (dims l))))
    (A : Matrix (Fin (dims 0)) (Fin (dims 0)) K) (hA : IsSpd A)
    (R : ∀ l, Matrix (Fin (dims (l + 1))) (Fin (dims l)) K) (hR : ∀ l, IndependentRows (R l))
    (solve : ∀ l, Matrix (Fin (dims l)) (Fin (dims l)) K → (Fin (dims l) → K) → Fin (dims l) → K)
    (hsolve : ∀ l, ActsSymmetrically (solve l (coarseMatrix dims A R l))) (hlev : 2 ≤ p.maxLevels.getD 2)
    (hfast : p.fastAp.getD false = false) (hpre : p.isPreconditioner.getD true = true)
    (hsteps : 0 < toUnsigned (p.nSmoothingSteps.getD 1))
    (hsymm : ∀ l x y, relaxVmult kind (coarseMatrix dims A R l) (procs l) x ⬝ᵥ y
      = x ⬝ᵥ relaxVmult kind (coarseMatrix dims A R l) (procs l) y)
    (hdec : ∀ l : ℕ, l + 1 < (p.maxLevels.getD 2).toNat → ∀ e : Fin (dims l) → K, e ≠ 0 →
      energyOf (coarseMatrix dims A R l)
        (e - relaxVmult kind (coarseMatrix dims A R l) (procs l) ((coarseMatrix dims A R l).mulVec e))
        < energyOf (coarseMatrix dims A R l) e) :
    ∃ H, (buildHierarchy debug timer (some p)
        (.ok (matrixHelpers debug type dims procs A R solve))).result = .ok H ∧
      IsLinear H (withCoarse (matrixData kind dims procs A R) fun l => coarseLin (hsolve l)) ∧
      H.isPreconditioner = true ∧
      H.numLevels = (p.maxLevels.getD 2).toNat ∧ H.nSmoothingSteps = toUnsigned (p.nSmoothingSteps.getD 1) ∧
      ∃ M : Matrix (Fin (dims 0)) (Fin (dims 0)) K, IsSpd M ∧
        (∀ b, M.mulVec b = Spec.M (withCoarse (matrixData kind dims procs A R) fun l => coarseLin (hsolve l))
          H.nSmoothingSteps (H.numLevels - 1) 0 b) ∧
        ∀ fresh x b, (H.vmult fresh x b).result = .ok (M.mulVec b) := by
  obtain ⟨H, hH, hlin, hL, hp, hn⟩ := matrixHelpers_build_linear debug timer p type _ _ hk hk' dims
    procs A R solve (fun l => coarseLin (hsolve l)) (fun _ _ => rfl) (by omega) hfast
  have hp' : H.isPreconditioner = true := by rw [hp, hpre]
  refine ⟨H, hH, hlin, hp', by omega, hn, ?_⟩
  set D := withCoarse (matrixData kind dims procs A R) fun l => coarseLin (hsolve l) with hD
  have hsym : Symmetric D (fun l => dotForm (dims l)) H.numLevels :=
    symmetric_withCoarse hA hR hsymm _ (fun l => (hsolve l).2.2.1) _
  have hB : ∀ l, l + 1 < H.numLevels → SmootherStrictlyConvergent D (fun l => dotForm (dims l)) l := fun l hl =>
    smoother_strict hA hR hsymm l (hdec l (by omega))
  have hC : ∀ l, l + 1 = H.numLevels → ∀ x, 0 ≤ dotForm (dims l) (D.C l x) x := by
    intro l _ x
    change 0 ≤ solve l (coarseMatrix dims A R l) x ⬝ᵥ x
    rw [dotProduct_comm]
    exact (hsolve l).2.2.2 x
  obtain ⟨d, hd⟩ : ∃ d, H.numLevels - 1 = d + 1 := ⟨H.numLevels - 2, by omega⟩
  refine ⟨LinearMap.toMatrix' (Spec.M D H.nSmoothingSteps (H.numLevels - 1) 0), ⟨?_, ?_⟩, ?_, ?_⟩
  · ext i j
    have h4 : Spec.M D H.nSmoothingSteps (H.numLevels - 1) 0 (Pi.single i 1) ⬝ᵥ Pi.single j 1
        = Pi.single i 1 ⬝ᵥ Spec.M D H.nSmoothingSteps (H.numLevels - 1) 0 (Pi.single j 1) :=
      M_selfAdjoint hsym _ _ 0 (by omega) _ _
    rw [Matrix.transpose_apply, LinearMap.toMatrix'_apply, LinearMap.toMatrix'_apply]
    simpa using h4
  · intro v hv
    have := M_pos_of_nonneg hsym H.nSmoothingSteps d 0 (by omega) (by omega) hB hC v hv
    rw [LinearMap.toMatrix'_mulVec, dotProduct_comm, hd]
    exact this
  · intro b
    rw [LinearMap.toMatrix'_mulVec]
  · intro fresh x b
    rw [vmult_pre H D hlin hp', LinearMap.toMatrix'_mulVec]

/-- The hierarchy as a preconditioner and on its own. -/
theorem cg_linear (debug timer : Bool) (p : Params) (type : Option (List Char)) (k : SmootherKind)
    (kind : Relaxation) (hk : dealiiSmoother debug true type = .ok k) (hk' : k.relaxation = some kind)
    (dims : ℕ → ℕ) (procs : ∀ l, List (List (Fin (dims l))))
    (A : Matrix (Fin (dims 0)) (Fin (dims 0)) K) (hA : IsSpd A)
    (R : ∀ l, Matrix (Fin (dims (l + 1))) (Fin (dims l)) K) (hR : ∀ l, IndependentRows (R l))
    (solve : ∀ l, Matrix (Fin (dims l)) (Fin (dims l)) K → (Fin (dims l) → K) → Fin (dims l) → K)
    (hsolve : ∀ l, ActsSymmetrically (solve l (coarseMatrix dims A R l))) (hlev : 2 ≤ p.maxLevels.getD 2)
    (hfast : p.fastAp.getD false = false) (hpre : p.isPreconditioner.getD true = true)
    (hsteps : 0 < toUnsigned (p.nSmoothingSteps.getD 1))
    (hsymm : ∀ l x y, relaxVmult kind (coarseMatrix dims A R l) (procs l) x ⬝ᵥ y
      = x ⬝ᵥ relaxVmult kind (coarseMatrix dims A R l) (procs l) y)
    (hdec : ∀ l : ℕ, l + 1 < (p.maxLevels.getD 2).toNat → ∀ e : Fin (dims l) → K, e ≠ 0 →
      energyOf (coarseMatrix dims A R l)
        (e - relaxVmult kind (coarseMatrix dims A R l) (procs l) ((coarseMatrix dims A R l).mulVec e))
        < energyOf (coarseMatrix dims A R l) e) :
    ∃ H Hs, (buildHierarchy debug timer (some p)
        (.ok (matrixHelpers debug type dims procs A R solve))).result = .ok H ∧
      (buildHierarchy debug timer (some { p with isPreconditioner := some false })
        (.ok (matrixHelpers debug type dims procs A R solve))).result = .ok Hs ∧
      ∀ fresh h, SolvesEverySystem A (fun tol2 b x => driverSolve debug A H fresh tol2 b x h) ∧
        NotSlower A (fun tol2 b x => driverSolve debug A H fresh tol2 b x h)
          (fun b y y' => ∃ fresh, (Hs.vmult fresh y b).result = .ok y') := by
  obtain ⟨H, hH, hlin, hp, hL, hn, M, hM, -, hv⟩ := preconditioner_linear debug timer p type k kind hk hk' dims
    procs A hA R hR solve hsolve hlev hfast hpre hsteps hsymm hdec
  obtain ⟨Hs, hHs, hlins, hLs, hps, hns⟩ := matrixHelpers_build_linear debug timer
    { p with isPreconditioner := some false } type _ _ hk hk' dims procs A R solve
    (fun l => coarseLin (hsolve l)) (fun _ _ => rfl) (by change 0 < p.maxLevels.getD 2; omega) hfast
  refine ⟨H, Hs, hH, hHs, fun fresh h => ⟨C92_solves_partial debug A hA H M hM hv fresh h, ?_⟩⟩
  intro tol2 b x₀ x steps ht hx y hy0 hy xs hxs
  refine C92_best_partial debug A hA H M hM hv fresh h tol2 b x₀ x steps ht hx y hy0 ?_ xs hxs
  intro m
  obtain ⟨f, hf⟩ := hy m
  have hLs' : Hs.numLevels = H.numLevels := by
    rw [hL]
    change _ = ((({ p with isPreconditioner := some false } : Params)).maxLevels.getD 2).toNat
    omega
  have hns' : Hs.nSmoothingSteps = H.nSmoothingSteps := by rw [hn, hns]
  rw [vmult_sa Hs _ hlins (by rw [hps]; rfl) (by omega), hLs', hns'] at hf
  refine ⟨1, f, 0, _, vmult_pre H _ hlin hp f 0 _, ?_⟩
  rw [one_smul, ← Outcome.ok.inj hf]
  rfl

end

end Mfmg
