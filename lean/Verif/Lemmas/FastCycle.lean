import Verif.Model.FastCycle
import Verif.Props.Relaxation

/-!
# Cycles of hierarchies built with `fast_ap`
-/

set_option autoImplicit false

namespace Mfmg

open Spec Matrix

section

variable {K : Type} [Field K] {m n : ℕ}

/-- The matrices of the levels. -/
def fastMatrix (A : Matrix (Fin n) (Fin n) K) (R : Matrix (Fin m) (Fin n) K) (AP : Matrix (Fin n) (Fin m) K) :
    ∀ l, Matrix (Fin (twoLevels n m l)) (Fin (twoLevels n m l)) K
  | 0 => A
  | _ + 1 => R * AP

/-- The linear maps of the hierarchy. -/
noncomputable def fastData (kind : Relaxation) (procs : ∀ l, List (List (Fin (twoLevels n m l))))
    (A : Matrix (Fin n) (Fin n) K) (R : Matrix (Fin m) (Fin n) K) (AP : Matrix (Fin n) (Fin m) K) :
    Data K (fun l => Fin (twoLevels n m l) → K) where
  A := fun l => (fastMatrix A R AP l).mulVecLin
  B := fun l => relaxLin kind (fastMatrix A R AP l) (procs l)
  R := fun l => (twoLevelRestriction R l).mulVecLin
  P := fun l => (twoLevelRestriction R l).transpose.mulVecLin
  C := fun l => (fastMatrix A R AP l)⁻¹.mulVecLin

theorem mulVec_inj_det {k : ℕ} {B : Matrix (Fin k) (Fin k) K} (h : B.det ≠ 0) {u v : Fin k → K}
    (e : B.mulVec u = B.mulVec v) : u = v := by
  have := congrArg B⁻¹.mulVec e
  rwa [Matrix.mulVec_mulVec, Matrix.mulVec_mulVec, Matrix.nonsing_inv_mul _ (Ne.isUnit h), Matrix.one_mulVec,
    Matrix.one_mulVec] at this

/-- Construction with `fast_ap`. -/
theorem fastHelpers_build (debug timer : Bool) (p : Params) (type : Option (List Char))
    (k : SmootherKind) (kind : Relaxation) (hk : dealiiSmoother debug true type = .ok k)
    (hk' : k.relaxation = some kind) (procs : ∀ l, List (List (Fin (twoLevels n m l))))
    (A : Matrix (Fin n) (Fin n) K) (R : Matrix (Fin m) (Fin n) K) (AP : Matrix (Fin n) (Fin m) K)
    (hdet : (R * AP).det ≠ 0)
    (solve : ∀ l, Matrix (Fin (twoLevels n m l)) (Fin (twoLevels n m l)) K → (Fin (twoLevels n m l) → K) →
      Fin (twoLevels n m l) → K)
    (hsolve : ∀ l, SolvesExactly (solve l)) (hlev : p.maxLevels.getD 2 = 2)
    (hfast : p.fastAp.getD false = true) :
    ∃ H, (buildHierarchy debug timer (some p) (.ok (fastHelpers debug type procs A R AP solve))).result = .ok H ∧
      IsLinear H (fastData kind procs A R AP) ∧ H.numLevels = 2 ∧
      H.isPreconditioner = p.isPreconditioner.getD true ∧
      H.nSmoothingSteps = toUnsigned (p.nSmoothingSteps.getD 1) := by
  obtain ⟨h, hh⟩ : ∃ h, h = fastHelpers debug type procs A R AP solve := ⟨_, rfl⟩
  rw [← hh]
  have hsm : ∀ l a, h.buildSmoother l a p = .ok (dealiiSmootherApply kind (procs l) a) := by
    intro l a
    simp [hh, fastHelpers, matrixHelpers, hk, hk']
  have h2 : (p.maxLevels.getD 2).toNat = 2 := by rw [hlev]; rfl
  obtain ⟨H, hH⟩ := C08_construction_succeeds debug timer p h (by rw [hlev]; norm_num) ⟨matrixOp A, by rw [hh]; rfl⟩
    (fun l a => ⟨_, hsm l a⟩) (fun l => ⟨matrixOp (twoLevelRestriction R l), by rw [hh]; rfl⟩)
    (by
      rw [hfast]
      intro l
      rw [hh]
      cases l
      · exact ⟨matrixOp AP, rfl⟩
      · exact ⟨matrixOp (1 : Matrix (Fin m) (Fin m) K), rfl⟩)
    (fun l r ap => ⟨r.mul ap, by rw [hh]; rfl⟩) (fun l a p => ⟨fun b _ => solve l (entriesOf a) b, by rw [hh]; rfl⟩)
  refine ⟨H, hH, ?_⟩
  obtain ⟨h', p', a, L, e1, e2, hpos', ha, hL, rfl⟩ := (build_ok _ _ _ _ _).mp hH
  obtain rfl := Outcome.ok.inj e1
  obtain rfl := Option.some.inj e2
  obtain ⟨hF, h0⟩ := buildLoop_final h p timer _ ((p.maxLevels.getD 2).toNat - 1) 0 (by omega) _ _
    (initInv h p a) hL
  refine ⟨?_, h2, rfl, rfl⟩
  rw [h2] at hF
  have ha' : matrixOp A = a := by
    rw [hh] at ha
    exact Outcome.ok.inj ha
  have hop0 : (L 0).operator = some a := by rw [h0]; simp [initLevels]
  obtain ⟨a1, s, r, ap, ac, h1, h3, h4, h5, h6, h7, h8, h9⟩ := hF.prev 0 (by omega)
  obtain rfl := Option.some.inj (hop0.symm.trans h1)
  have e6 : matrixOp R = r := by
    rw [hh] at h7
    exact Outcome.ok.inj h7
  have e7 : matrixOp AP = ap := by
    simp only [chooseAP, hfast, if_true] at h8
    rw [hh] at h8
    exact Outcome.ok.inj h8
  have e8 : r.mul ap = ac := by
    rw [hh] at h9
    exact Outcome.ok.inj h9
  have hac : ∀ x, ac.fwd x = (R * AP).mulVec x := by
    intro x
    rw [← e8, ← e7, ← e6]
    exact Matrix.mulVec_mulVec x R AP
  refine ⟨by dsimp; omega, ?_, ?_, ?_, ?_⟩
  · intro l hl
    change l < (p.maxLevels.getD 2).toNat at hl
    rw [h2] at hl
    rcases (by omega : l = 0 ∨ l = 1) with rfl | rfl
    · exact ⟨a, hop0, fun x => by rw [← ha']; rfl⟩
    · exact ⟨ac, h5, hac⟩
  · intro l hl
    change l + 1 < (p.maxLevels.getD 2).toNat at hl
    rw [h2] at hl
    obtain rfl : l = 0 := by omega
    refine ⟨s, h3, ?_⟩
    intro b x
    rw [hsm] at h6
    rw [← Outcome.ok.inj h6, dealiiSmootherApply_matrix kind (procs 0) a A (fun x => by rw [← ha']; rfl)]
    rfl
  · intro l hl
    change l + 1 < (p.maxLevels.getD 2).toNat at hl
    rw [h2] at hl
    obtain rfl : l = 0 := by omega
    exact ⟨r, h4, fun x => by rw [← e6]; rfl, fun y => by rw [← e6]; rfl⟩
  · obtain ⟨a1, s, g1, g2, g3⟩ := hF.last 1 rfl
    obtain rfl := Option.some.inj (h5.symm.trans g1)
    change ∃ so, (L ((p.maxLevels.getD 2).toNat - 1)).solver = some so ∧
      ∀ b, so b 0 = (fastMatrix A R AP ((p.maxLevels.getD 2).toNat - 1))⁻¹.mulVec b
    rw [h2]
    refine ⟨s, g2, ?_⟩
    intro b
    rw [hh] at g3
    have e3 := Outcome.ok.inj g3
    rw [← e3]
    apply mulVec_inj_det (B := R * AP) hdet
    refine Eq.trans ?_ (mulVec_inv hdet b).symm
    change (R * AP).mulVec (solve 1 (entriesOf ac) b) = b
    have e4 : entriesOf ac = R * AP := entriesOf_eq ac (R * AP) hac
    rw [e4]
    exact hsolve 1 _ b hdet

/-- The error after a standalone cycle. -/
theorem fast_cycle_err (kind : Relaxation) (procs : ∀ l, List (List (Fin (twoLevels n m l))))
    (A : Matrix (Fin n) (Fin n) K) (R : Matrix (Fin m) (Fin n) K) (AP : Matrix (Fin n) (Fin m) K) (N : ℕ)
    (b x xs y : Fin n → K) (hxs : A.mulVec xs = b) (hy : cycle (fastData kind procs A R AP) N 1 0 b x = y) :
    xs - y =
      (fun e => e - relaxVmult kind A (procs 0) (A.mulVec e))^[N]
        ((fun e => e - R.transpose.mulVec ((R * AP)⁻¹.mulVec (R.mulVec (A.mulVec e))))
          ((fun e => e - relaxVmult kind A (procs 0) (A.mulVec e))^[N] (xs - x))) := by
  obtain ⟨S, hS⟩ : ∃ S : (Fin n → K) → Fin n → K,
      S = fun y => y + relaxVmult kind A (procs 0) (b - A.mulVec y) := ⟨_, rfl⟩
  have hy' : S^[N] (S^[N] x + R.transpose.mulVec ((R * AP)⁻¹.mulVec (R.mulVec (b - A.mulVec (S^[N] x))))) = y := by
    rw [hS]
    exact hy
  have hstep : ∀ k (y : Fin n → K),
      xs - S^[k] y = (fun e => e - relaxVmult kind A (procs 0) (A.mulVec e))^[k] (xs - y) := by
    intro k
    induction k with
    | zero => exact fun y => rfl
    | succ k ih =>
      intro y
      rw [Function.iterate_succ_apply, ih, Function.iterate_succ_apply]
      congr 1
      rw [hS, ← hxs, Matrix.mulVec_sub]
      simp only
      abel
  rw [← hy', hstep]
  congr 1
  rw [← hstep N x, ← hxs, ← Matrix.mulVec_sub A]
  simp only
  abel

end

end Mfmg
