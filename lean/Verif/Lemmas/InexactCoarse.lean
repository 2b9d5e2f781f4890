import Verif.Spec.InexactCoarse
import Verif.Props.Relaxation
import Verif.Lemmas.Splitting

/-!
# Lemmas about cycles with inexact coarse solvers
-/

set_option autoImplicit false

namespace Mfmg

open Spec

section

variable {K : Type} [Field K]

/-- The cycle with any coarse solver. -/
def cycleBy (kind : Relaxation) (dims : ℕ → ℕ) (procs : ∀ l, List (List (Fin (dims l))))
    (A : ∀ l, Matrix (Fin (dims l)) (Fin (dims l)) K) (R : ∀ l, Matrix (Fin (dims (l + 1))) (Fin (dims l)) K)
    (C : ∀ l, (Fin (dims l) → K) → Fin (dims l) → K) (n : ℕ) :
    (d l : ℕ) → (b x : Fin (dims l) → K) → Fin (dims l) → K
  | 0, l, b, _ => C l b
  | d + 1, l, b, x =>
    let step := fun x => x - relaxVmult kind (A l) (procs l) ((A l).mulVec x - b)
    let x₁ := step^[n] x
    step^[n] (x₁ - (R l).transpose.mulVec
      (cycleBy kind dims procs A R C n d (l + 1) ((R l).mulVec ((A l).mulVec x₁ - b)) 0))

end

section

variable {K : Type} [Field K]

/-- The hierarchy gives this cycle. -/
theorem cycleBy_gives (debug timer : Bool) (p : Params) (type : Option (List Char))
    (k : SmootherKind) (kind : Relaxation) (hk : dealiiSmoother debug true type = .ok k)
    (hk' : k.relaxation = some kind) (dims : ℕ → ℕ) (procs : ∀ l, List (List (Fin (dims l))))
    (A : Matrix (Fin (dims 0)) (Fin (dims 0)) K) (R : ∀ l, Matrix (Fin (dims (l + 1))) (Fin (dims l)) K)
    (solve : ∀ l, Matrix (Fin (dims l)) (Fin (dims l)) K → (Fin (dims l) → K) → Fin (dims l) → K)
    (hpos : 0 < p.maxLevels.getD 2) (hfast : p.fastAp.getD false = false) (x b : Fin (dims 0) → K) :
    CycleGives debug timer p type dims procs A R solve x b
      (cycleBy kind dims procs (coarseMatrix dims A R) R (fun l => solve l (coarseMatrix dims A R l))
        (toUnsigned (p.nSmoothingSteps.getD 1)) ((p.maxLevels.getD 2).toNat - 1) 0 b
        (if p.isPreconditioner.getD true then 0 else x)) := by
  set h := matrixHelpers debug type dims procs A R solve with hh
  have hsm : ∀ l a, h.buildSmoother l a p = .ok (dealiiSmootherApply kind (procs l) a) := by
    intro l a
    simp [hh, matrixHelpers, hk, hk']
  obtain ⟨H, hH⟩ := C08_construction_succeeds debug timer p h hpos ⟨_, rfl⟩
    (fun l a => ⟨_, hsm l a⟩) (fun l => ⟨_, rfl⟩)
    (by rw [hfast]; exact fun l a r => ⟨_, rfl⟩) (fun l r ap => ⟨_, rfl⟩) (fun l a p => ⟨_, rfl⟩)
  refine ⟨H, hH, ?_⟩
  obtain ⟨h', p', a, L, e1, e2, hpos', ha, hL, rfl⟩ := (build_ok _ _ _ _ _).mp hH
  obtain rfl := Outcome.ok.inj e1
  obtain rfl := Option.some.inj e2
  obtain ⟨hF, h0⟩ := buildLoop_final h p timer _ ((p.maxLevels.getD 2).toNat - 1) 0 (by omega) _ _
    (initInv h p a) hL
  have hop : ∀ l, l < (p.maxLevels.getD 2).toNat → ∃ o, (L l).operator = some o ∧
      ∀ x, o.fwd x = (coarseMatrix dims A R l).mulVec x := by
    intro l
    induction l with
    | zero =>
      intro _
      have ha' : matrixOp A = a := Outcome.ok.inj ha
      refine ⟨a, by rw [h0]; simp [initLevels], ?_⟩
      intro x
      rw [← ha']
      rfl
    | succ l ih =>
      intro hl
      obtain ⟨o, ho, hox⟩ := ih (by omega)
      obtain ⟨a, s, r, ap, ac, h1, h2, h3, h4, h5, h6, h7, h8⟩ := hF.prev l hl
      refine ⟨ac, h4, ?_⟩
      intro x
      obtain rfl := Option.some.inj (ho.symm.trans h1)
      have e6 : matrixOp (R l) = r := Outcome.ok.inj h6
      have e7 : o.mulTranspose r = ap := by
        simp only [chooseAP, hfast, Bool.false_eq_true, if_false] at h7
        exact Outcome.ok.inj h7
      have e8 : r.mul ap = ac := Outcome.ok.inj h8
      rw [← e8, ← e7, ← e6]
      simp only [Op.mul, Op.mulTranspose, matrixOp, hox, coarseMatrix, galerkin]
      rw [← Matrix.mulVec_mulVec, ← Matrix.mulVec_mulVec]
  intro fresh
  set H : Hierarchy (fun l => Fin (dims l) → K) := ⟨_, L, _, _, _⟩ with hHdef
  have happly : ∀ (d l : ℕ), l + d + 1 = (p.maxLevels.getD 2).toNat → ∀ b x,
      (H.apply fresh l b x).result = .ok (cycleBy kind dims procs (coarseMatrix dims A R) R
        (fun l => solve l (coarseMatrix dims A R l)) (toUnsigned (p.nSmoothingSteps.getD 1)) d l b
        (if l > 0 ∨ p.isPreconditioner.getD true = true then 0 else x)) := by
    intro d
    induction d with
    | zero =>
      intro l hl b x
      obtain ⟨a, s, h1, h2, h3⟩ := hF.last l (by omega)
      obtain ⟨o, ho, hox⟩ := hop l (by omega)
      obtain rfl := Option.some.inj (ho.symm.trans h1)
      rw [Hierarchy.apply_coarsest H fresh l b x (by simp only [hHdef]; omega) (by simp only [hHdef]; omega) s h2]
      have e3 := Outcome.ok.inj h3
      rw [← e3]
      change Outcome.ok (solve l (entriesOf o) b) = Outcome.ok (solve l (coarseMatrix dims A R l) b)
      rw [entriesOf_eq o _ hox]
    | succ d ih =>
      intro l hl b x
      obtain ⟨a, s, r, ap, ac, h1, h2, h3, h4, h5, h6, h7, h8⟩ := hF.prev l (by omega)
      obtain ⟨o, ho, hox⟩ := hop l (by omega)
      obtain rfl := Option.some.inj (ho.symm.trans h1)
      have e6 : matrixOp (R l) = r := Outcome.ok.inj h6
      have hs : ∀ b x, s b x = x - relaxVmult kind (coarseMatrix dims A R l) (procs l)
          ((coarseMatrix dims A R l).mulVec x - b) := by
        intro b x
        rw [hsm] at h5
        rw [← Outcome.ok.inj h5, dealiiSmootherApply_matrix kind (procs l) o _ hox]
      have hs' : s b = fun x => x - relaxVmult kind (coarseMatrix dims A R l) (procs l)
          ((coarseMatrix dims A R l).mulVec x - b) := funext (hs b)
      have key := Hierarchy.apply_fine H fresh l b x (by simp only [hHdef]; omega) o ho s h2 r h3
      have hc := key _ (ih (l + 1) (by omega) _ _)
      rw [hc, if_pos (Or.inl (Nat.succ_pos l)), ← e6, hs', hox]
      rfl
  have := happly ((p.maxLevels.getD 2).toNat - 1) 0 (by omega) b x
  simp only [gt_iff_lt, lt_self_iff_false, false_or] at this
  simp only [Hierarchy.vmult, timerEnter_bind_result]
  rw [Run.result_bind_ok this]
  simp

end

section

variable {K : Type} [Field K] [LinearOrder K] {n : ℕ}

omit [LinearOrder K] in
theorem energyOf_neg (A : Matrix (Fin n) (Fin n) K) (e : Fin n → K) : energyOf A (-e) = energyOf A e := by
  rw [energyOf, Matrix.mulVec_neg, neg_dotProduct_neg, energyOf]

omit [LinearOrder K] in
theorem energyOf_sub_comm (A : Matrix (Fin n) (Fin n) K) (u v : Fin n → K) : energyOf A (u - v) = energyOf A (v - u) := by
  rw [← energyOf_neg, neg_sub]

theorem energyOf_add {A : Matrix (Fin n) (Fin n) K} (hA : IsSpd A) (u v : Fin n → K) :
    energyOf A (u + v) = energyOf A u + 2 * (u ⬝ᵥ A.mulVec v) + energyOf A v := by
  simp only [energyOf, Matrix.mulVec_add, add_dotProduct, dotProduct_add]
  rw [form_symm hA.1 v u]
  ring

omit [LinearOrder K] in
theorem energyOf_galerkin {m : ℕ} (R : Matrix (Fin m) (Fin n) K) (A : Matrix (Fin n) (Fin n) K) (z : Fin m → K) :
    energyOf (galerkin R A) z = energyOf A (R.transpose.mulVec z) := by
  simp only [energyOf, galerkin]
  rw [← Matrix.mulVec_mulVec, ← Matrix.mulVec_mulVec, Matrix.dotProduct_mulVec, ← Matrix.mulVec_transpose]

end

section

variable {K : Type} [Field K] [LinearOrder K] [IsStrictOrderedRing K] {n : ℕ}

omit [IsStrictOrderedRing K] in
theorem energyOf_nonneg {A : Matrix (Fin n) (Fin n) K} (hA : IsSpd A) (e : Fin n → K) : 0 ≤ energyOf A e := by
  by_cases h : e = 0
  · rw [h, energyOf, zero_dotProduct]
  · exact (hA.2 e h).le

/-- The triangle inequality without square roots. -/
theorem energyOf_triangle {A : Matrix (Fin n) (Fin n) K} (hA : IsSpd A) {u v : Fin n → K} {c δ E : K} (hc : 0 ≤ c)
    (hδ : 0 ≤ δ) (hE : 0 ≤ E) (hu : energyOf A u ≤ c * c * E) (hv : energyOf A v ≤ δ * δ * E) :
    energyOf A (u + v) ≤ (c + δ) * (c + δ) * E := by
  have h1 := spd_cauchy hA u v
  have h2 : (u ⬝ᵥ A.mulVec v) * (u ⬝ᵥ A.mulVec v) ≤ (c * δ * E) * (c * δ * E) := by
    refine h1.trans ?_
    change energyOf A u * energyOf A v ≤ _
    calc energyOf A u * energyOf A v ≤ (c * c * E) * (δ * δ * E) :=
          mul_le_mul hu hv (energyOf_nonneg hA v) (by positivity)
      _ = _ := by ring
  have h3 : u ⬝ᵥ A.mulVec v ≤ c * δ * E := by
    by_contra h
    rw [not_le] at h
    have := mul_self_lt_mul_self (by positivity : 0 ≤ c * δ * E) h
    linarith
  rw [energyOf_add hA]
  calc _ ≤ c * c * E + 2 * (c * δ * E) + δ * δ * E := by linarith
    _ = _ := by ring

omit [IsStrictOrderedRing K] in
/-- The coarse problem of the error `w`. -/
theorem coarse_part {m : ℕ} {A : Matrix (Fin n) (Fin n) K} (hA : IsSpd A) {R : Matrix (Fin m) (Fin n) K}
    {w : Fin n → K} {z : Fin m → K} (hz : (galerkin R A).mulVec z = R.mulVec (A.mulVec w)) (v : Fin m → K) :
    energyOf A (w - R.transpose.mulVec v) = energyOf A w - energyOf (galerkin R A) z + energyOf (galerkin R A) (v - z) := by
  have h1 : ∀ y, R.transpose.mulVec y ⬝ᵥ A.mulVec w = y ⬝ᵥ (galerkin R A).mulVec z := by
    intro y
    rw [hz, Matrix.mulVec_transpose, ← Matrix.dotProduct_mulVec]
  have hG : (galerkin R A).transpose = galerkin R A := by
    simp only [galerkin, Matrix.transpose_mul, Matrix.transpose_transpose, hA.1]
    rw [Matrix.mul_assoc]
  have h2 : energyOf A (w - R.transpose.mulVec v)
      = energyOf A w - 2 * (R.transpose.mulVec v ⬝ᵥ A.mulVec w) + energyOf A (R.transpose.mulVec v) := by
    rw [sub_eq_add_neg, energyOf_add hA, energyOf_neg, Matrix.mulVec_neg, dotProduct_neg, form_symm hA.1 w]
    ring
  rw [h2, h1, ← energyOf_galerkin]
  have h3 : energyOf (galerkin R A) (v - z)
      = energyOf (galerkin R A) v - 2 * (v ⬝ᵥ (galerkin R A).mulVec z) + energyOf (galerkin R A) z := by
    simp only [energyOf, Matrix.mulVec_sub, sub_dotProduct, dotProduct_sub]
    rw [form_symm hG z v]
    ring
  rw [h3]
  ring

end

section

variable {K : Type} [Field K] [LinearOrder K] [IsStrictOrderedRing K] {dims : ℕ → ℕ} {kind : Relaxation}
  {procs : ∀ l, List (List (Fin (dims l)))} {A : Matrix (Fin (dims 0)) (Fin (dims 0)) K} (hA : IsSpd A)
  {R : ∀ l, Matrix (Fin (dims (l + 1))) (Fin (dims l)) K} (hR : ∀ l, IndependentRows (R l))

omit [LinearOrder K] [IsStrictOrderedRing K] in
/-- Steps of the smoother: what they do with differences. -/
theorem steps_sub {n : ℕ} (M : Matrix (Fin n) (Fin n) K) (pr : List (List (Fin n))) (b u v : Fin n → K) (N : ℕ) :
    (fun x => x - relaxVmult kind M pr (M.mulVec x - b))^[N] u - (fun x => x - relaxVmult kind M pr (M.mulVec x - b))^[N] v
      = (fun e => e - relaxVmult kind M pr (M.mulVec e))^[N] (u - v) := by
  induction N generalizing u v with
  | zero => rfl
  | succ N ih =>
    rw [Function.iterate_succ_apply, Function.iterate_succ_apply, Function.iterate_succ_apply, ih]
    congr 1
    have h := (relaxLin kind M pr).map_sub (M.mulVec u - b) (M.mulVec v - b)
    rw [sub_sub_sub_cancel_right, ← Matrix.mulVec_sub] at h
    change relaxVmult kind M pr (M.mulVec (u - v)) = relaxVmult kind M pr _ - relaxVmult kind M pr _ at h
    rw [h]
    abel

omit [LinearOrder K] [IsStrictOrderedRing K] in
theorem steps_solution {n : ℕ} (M : Matrix (Fin n) (Fin n) K) (pr : List (List (Fin n))) (xs : Fin n → K) (N : ℕ) :
    (fun x => x - relaxVmult kind M pr (M.mulVec x - M.mulVec xs))^[N] xs = xs := by
  apply Function.iterate_fixed
  have h := (relaxLin kind M pr).map_zero
  change relaxVmult kind M pr 0 = 0 at h
  simp only [sub_self, h, sub_zero]

variable (hG : ∀ l e, energyOf (coarseMatrix dims A R l) (e - relaxVmult kind (coarseMatrix dims A R l) (procs l)
    ((coarseMatrix dims A R l).mulVec e)) ≤ energyOf (coarseMatrix dims A R l) e)

omit [IsStrictOrderedRing K] in
include hG in
theorem steps_le (l N : ℕ) (e : Fin (dims l) → K) :
    energyOf (coarseMatrix dims A R l) ((fun e => e - relaxVmult kind (coarseMatrix dims A R l) (procs l)
      ((coarseMatrix dims A R l).mulVec e))^[N] e) ≤ energyOf (coarseMatrix dims A R l) e := by
  induction N generalizing e with
  | zero => exact le_refl _
  | succ N ih =>
    rw [Function.iterate_succ_apply]
    exact (ih _).trans (hG l e)

include hA hR hG in
/-- One level: the error after the second smoothing. -/
theorem cycleBy_level (N d l : ℕ) (C : ∀ l, (Fin (dims l) → K) → Fin (dims l) → K) (xs x : Fin (dims l) → K) :
    ∃ (w : Fin (dims l) → K) (z : Fin (dims (l + 1)) → K),
      w = (fun e => e - relaxVmult kind (coarseMatrix dims A R l) (procs l) ((coarseMatrix dims A R l).mulVec e))^[N] (x - xs) ∧
      (coarseMatrix dims A R (l + 1)).mulVec z = (R l).mulVec ((coarseMatrix dims A R l).mulVec w) ∧
      energyOf (coarseMatrix dims A R (l + 1)) z ≤ energyOf (coarseMatrix dims A R l) w ∧
      cycleBy kind dims procs (coarseMatrix dims A R) R C N (d + 1) l ((coarseMatrix dims A R l).mulVec xs) x - xs
        = (fun e => e - relaxVmult kind (coarseMatrix dims A R l) (procs l) ((coarseMatrix dims A R l).mulVec e))^[N]
          (w - (R l).transpose.mulVec (cycleBy kind dims procs (coarseMatrix dims A R) R C N d (l + 1)
            ((coarseMatrix dims A R (l + 1)).mulVec z) 0)) ∧
      energyOf (coarseMatrix dims A R l)
          (cycleBy kind dims procs (coarseMatrix dims A R) R C N (d + 1) l ((coarseMatrix dims A R l).mulVec xs) x - xs)
        ≤ energyOf (coarseMatrix dims A R l) w - energyOf (coarseMatrix dims A R (l + 1)) z
          + energyOf (coarseMatrix dims A R (l + 1)) (cycleBy kind dims procs (coarseMatrix dims A R) R C N d (l + 1)
            ((coarseMatrix dims A R (l + 1)).mulVec z) 0 - z) := by
  have hspd := coarseMatrix_spd dims A hA R hR
  obtain ⟨w, hw⟩ : ∃ w, w = (fun e => e - relaxVmult kind (coarseMatrix dims A R l) (procs l)
    ((coarseMatrix dims A R l).mulVec e))^[N] (x - xs) := ⟨_, rfl⟩
  obtain ⟨x₁, hx₁⟩ : ∃ x₁, x₁ = (fun x => x - relaxVmult kind (coarseMatrix dims A R l) (procs l)
    ((coarseMatrix dims A R l).mulVec x - (coarseMatrix dims A R l).mulVec xs))^[N] x := ⟨_, rfl⟩
  have hxw : x₁ - xs = w := by
    rw [hw, hx₁, ← steps_sub (coarseMatrix dims A R l) (procs l) ((coarseMatrix dims A R l).mulVec xs) x xs N, steps_solution]
  obtain ⟨z, hz⟩ : ∃ z, (coarseMatrix dims A R (l + 1)).mulVec z = (R l).mulVec ((coarseMatrix dims A R l).mulVec w) :=
    ⟨(coarseMatrix dims A R (l + 1))⁻¹.mulVec _, mulVec_inv (spd_det (hspd (l + 1))) _⟩
  have hzle : energyOf (coarseMatrix dims A R (l + 1)) z ≤ energyOf (coarseMatrix dims A R l) w := by
    have h1 := coarse_part (hspd l) hz z
    have h2 := energyOf_nonneg (hspd l) (w - (R l).transpose.mulVec z)
    have h3 : energyOf (galerkin (R l) (coarseMatrix dims A R l)) (z - z) = 0 := by
      rw [sub_self, energyOf, zero_dotProduct]
    rw [h1, h3] at h2
    have h4 : energyOf (coarseMatrix dims A R (l + 1)) z = energyOf (galerkin (R l) (coarseMatrix dims A R l)) z := rfl
    linarith
  have hstep : cycleBy kind dims procs (coarseMatrix dims A R) R C N (d + 1) l ((coarseMatrix dims A R l).mulVec xs) x - xs
        = (fun e => e - relaxVmult kind (coarseMatrix dims A R l) (procs l) ((coarseMatrix dims A R l).mulVec e))^[N]
          (w - (R l).transpose.mulVec (cycleBy kind dims procs (coarseMatrix dims A R) R C N d (l + 1)
            ((coarseMatrix dims A R (l + 1)).mulVec z) 0)) := by
    rw [hz, ← hxw]
    rw [sub_right_comm, ← steps_sub (coarseMatrix dims A R l) (procs l) ((coarseMatrix dims A R l).mulVec xs) _ xs N,
      steps_solution]
    simp only [cycleBy, ← hx₁]
    rw [Matrix.mulVec_sub (coarseMatrix dims A R l) x₁ xs]
  refine ⟨w, z, hw, hz, hzle, hstep, ?_⟩
  rw [hstep]
  refine (steps_le hG l N _).trans (le_of_eq ?_)
  exact coarse_part (hspd l) hz _

include hA hR hG in
/-- A coarse solver that does not increase the error does not make the cycle increase it. -/
theorem cycleBy_le (N : ℕ) (C : ∀ l, (Fin (dims l) → K) → Fin (dims l) → K)
    (hC : ∀ l e, energyOf (coarseMatrix dims A R l) (C l ((coarseMatrix dims A R l).mulVec e) - e)
      ≤ energyOf (coarseMatrix dims A R l) e) (d l : ℕ) (xs x : Fin (dims l) → K) (hd : d = 0 → x = 0) :
    energyOf (coarseMatrix dims A R l)
        (cycleBy kind dims procs (coarseMatrix dims A R) R C N d l ((coarseMatrix dims A R l).mulVec xs) x - xs)
      ≤ energyOf (coarseMatrix dims A R l) (x - xs) := by
  induction d generalizing l with
  | zero =>
    rw [hd rfl, zero_sub, energyOf_neg]
    exact hC l xs
  | succ d ih =>
    obtain ⟨w, z, hw, hz, hzle, hstep, h⟩ := cycleBy_level hA hR hG N d l C xs x
    have h1 := ih (l + 1) z 0 (fun _ => rfl)
    rw [zero_sub, energyOf_neg] at h1
    have h2 : energyOf (coarseMatrix dims A R l) w ≤ energyOf (coarseMatrix dims A R l) (x - xs) := by
      rw [hw]
      exact steps_le hG l N _
    linarith

include hA hR hG in
/-- The same with strict smoothers. -/
theorem cycleBy_lt (N : ℕ) (hN : 0 < N) (C : ∀ l, (Fin (dims l) → K) → Fin (dims l) → K)
    (hC : ∀ l e, energyOf (coarseMatrix dims A R l) (C l ((coarseMatrix dims A R l).mulVec e) - e)
      ≤ energyOf (coarseMatrix dims A R l) e) (d l : ℕ)
    (hlt : ∀ e, e ≠ 0 → energyOf (coarseMatrix dims A R l) (e - relaxVmult kind (coarseMatrix dims A R l) (procs l)
      ((coarseMatrix dims A R l).mulVec e)) < energyOf (coarseMatrix dims A R l) e)
    (xs x : Fin (dims l) → K) (hx : x ≠ xs) :
    energyOf (coarseMatrix dims A R l)
        (cycleBy kind dims procs (coarseMatrix dims A R) R C N (d + 1) l ((coarseMatrix dims A R l).mulVec xs) x - xs)
      < energyOf (coarseMatrix dims A R l) (x - xs) := by
  obtain ⟨w, z, hw, hz, hzle, hstep, h⟩ := cycleBy_level hA hR hG N d l C xs x
  have h1 := cycleBy_le hA hR hG N C hC d (l + 1) z 0 (fun _ => rfl)
  rw [zero_sub, energyOf_neg] at h1
  have h2 : energyOf (coarseMatrix dims A R l) w < energyOf (coarseMatrix dims A R l) (x - xs) := by
    obtain ⟨N, rfl⟩ : ∃ k, N = k + 1 := ⟨N - 1, by omega⟩
    rw [hw, Function.iterate_succ_apply]
    exact (steps_le hG l N _).trans_lt (hlt _ (sub_ne_zero.2 hx))
  linarith

include hA hR hG in
/-- The difference between a cycle with an inexact and one with an exact coarse solver. -/
theorem cycleBy_close (N : ℕ) (C C' : ∀ l, (Fin (dims l) → K) → Fin (dims l) → K) {δ : K}
    (hex : ∀ l e, C l ((coarseMatrix dims A R l).mulVec e) = e)
    (hC : ∀ l e, energyOf (coarseMatrix dims A R l) (C' l ((coarseMatrix dims A R l).mulVec e) - e)
      ≤ δ * δ * energyOf (coarseMatrix dims A R l) e) (d l : ℕ) (xs x : Fin (dims l) → K) (hd : d = 0 → x = 0) :
    energyOf (coarseMatrix dims A R l)
        (cycleBy kind dims procs (coarseMatrix dims A R) R C' N d l ((coarseMatrix dims A R l).mulVec xs) x
          - cycleBy kind dims procs (coarseMatrix dims A R) R C N d l ((coarseMatrix dims A R l).mulVec xs) x)
      ≤ δ * δ * energyOf (coarseMatrix dims A R l) (x - xs) := by
  induction d generalizing l with
  | zero =>
    rw [hd rfl, zero_sub, energyOf_neg]
    simp only [cycleBy, hex]
    exact hC l xs
  | succ d ih =>
    obtain ⟨w, z, hw, hz, hzle, hstep, _⟩ := cycleBy_level hA hR hG N d l C' xs x
    obtain ⟨w', z', hw', hz', _, hstep', _⟩ := cycleBy_level hA hR hG N d l C xs x
    obtain rfl : w' = w := hw'.trans hw.symm
    rw [hz', ← hz] at hstep'
    rw [← sub_sub_sub_cancel_right _ _ xs, hstep, hstep']
    have hlin := steps_sub (kind := kind) (coarseMatrix dims A R l) (procs l) 0
      (w' - (R l).transpose.mulVec (cycleBy kind dims procs (coarseMatrix dims A R) R C' N d (l + 1)
            ((coarseMatrix dims A R (l + 1)).mulVec z) 0))
      (w' - (R l).transpose.mulVec (cycleBy kind dims procs (coarseMatrix dims A R) R C N d (l + 1)
            ((coarseMatrix dims A R (l + 1)).mulVec z) 0)) N
    simp only [sub_zero] at hlin
    rw [hlin]
    refine (steps_le hG l N _).trans ?_
    rw [sub_sub_sub_cancel_left, ← Matrix.mulVec_sub, ← energyOf_galerkin, energyOf_sub_comm]
    have h1 := ih (l + 1) z 0 (fun _ => rfl)
    rw [zero_sub, energyOf_neg] at h1
    refine h1.trans (mul_le_mul_of_nonneg_left (hzle.trans ?_) (mul_self_nonneg δ))
    rw [hw]
    exact steps_le hG l N _

end

end Mfmg
