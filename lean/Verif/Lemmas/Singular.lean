import Verif.Model.Direct
import Verif.Spec.Singular
import Verif.Props.Relaxation
import Verif.Lemmas.FastCycle
import Mathlib.LinearAlgebra.Dual.Lemmas

/-!
# Sweeps, coarse corrections and construction with a singular matrix
-/

set_option autoImplicit false

namespace Mfmg

open Spec Matrix

section semidefinite

variable {K : Type} [Field K] [LinearOrder K] [IsStrictOrderedRing K] {n m : ℕ}

theorem semi_errRow {A : Matrix (Fin n) (Fin n) K} (hA : IsSemidefinite A) (e : Fin n → K) (i : Fin n) :
    energyOf A (errRow A e i) = energyOf A e - A.mulVec e i * A.mulVec e i / A i i := by
  have hp := (hA.diag i).ne'
  have h2 : ∀ u : Fin n → K, ∀ c, u ⬝ᵥ A.mulVec (Pi.single i c) = A.mulVec u i * c := by
    intro u c
    rw [form_symm hA.symm, single_dotProduct, mul_comm]
  have h5 : A.mulVec (Pi.single i (A.mulVec e i / A i i)) i = A.mulVec e i := by
    rw [mulVec_single', mul_div_cancel₀ _ hp]
  rw [energyOf, errRow, Matrix.mulVec_sub, sub_dotProduct, dotProduct_sub, dotProduct_sub, h2, h2, single_dotProduct,
    h5, ← energyOf]
  ring

theorem semi_sweep {A : Matrix (Fin n) (Fin n) K} (hA : IsSemidefinite A) (rows : List (Fin n))
    (e : Fin n → K) : energyOf A (rows.foldl (errRow A) e) ≤ energyOf A e ∧
      (energyOf A (rows.foldl (errRow A) e) = energyOf A e → ∀ i ∈ rows, A.mulVec e i = 0) := by
  induction rows generalizing e with
  | nil => exact ⟨le_refl _, by simp⟩
  | cons i rows ih =>
    obtain ⟨h1, h2⟩ := ih (errRow A e i)
    have hp := hA.diag i
    have h0 : 0 ≤ A.mulVec e i * A.mulVec e i / A i i := div_nonneg (mul_self_nonneg _) hp.le
    have h3 := semi_errRow hA e i
    rw [List.foldl_cons]
    refine ⟨by linarith, ?_⟩
    intro heq
    have h4 : A.mulVec e i * A.mulVec e i / A i i = 0 := by linarith
    have h5 : A.mulVec e i = 0 := by
      rcases div_eq_zero_iff.1 h4 with h | h
      · exact mul_self_eq_zero.1 h
      · exact absurd h hp.ne'
    have h6 : errRow A e i = e := by rw [errRow, h5, zero_div, Pi.single_zero, sub_zero]
    rw [h6] at h2 heq
    intro j hj
    rcases List.mem_cons.1 hj with rfl | hj
    · exact h5
    · exact h2 heq j hj

/-- Several sweeps. -/
theorem semi_iterate {A : Matrix (Fin n) (Fin n) K} (hA : IsSemidefinite A) (rows : List (Fin n)) (N : ℕ) (e : Fin n → K) :
    energyOf A ((fun e => rows.foldl (errRow A) e)^[N] e) ≤ energyOf A e ∧
      (0 < N → (∀ i, i ∈ rows) → A.mulVec e ≠ 0 →
        energyOf A ((fun e => rows.foldl (errRow A) e)^[N] e) < energyOf A e) := by
  have hle : ∀ N e, energyOf A ((fun e => rows.foldl (errRow A) e)^[N] e) ≤ energyOf A e := by
    intro N
    induction N with
    | zero => exact fun e => le_rfl
    | succ N ih =>
      intro e
      rw [Function.iterate_succ_apply]
      exact (ih _).trans (semi_sweep hA rows e).1
  refine ⟨hle N e, fun hN hall he => ?_⟩
  obtain ⟨k, rfl⟩ : ∃ k, N = k + 1 := ⟨N - 1, by omega⟩
  rw [Function.iterate_succ_apply]
  refine (hle k _).trans_lt (lt_of_le_of_ne (semi_sweep hA rows e).1 fun h => he ?_)
  funext i
  exact (semi_sweep hA rows e).2 h i (hall i)

omit [IsStrictOrderedRing K] in
theorem semi_galerkin_symm {A : Matrix (Fin n) (Fin n) K} (hA : IsSemidefinite A) (R : Matrix (Fin m) (Fin n) K) :
    (galerkin R A).transpose = galerkin R A := by
  rw [galerkin, Matrix.transpose_mul, Matrix.transpose_mul, hA.symm, Matrix.transpose_transpose, Matrix.mul_assoc]

/-- A vector without energy is in the kernel. -/
theorem semi_kernel {A : Matrix (Fin n) (Fin n) K} (hA : IsSemidefinite A) {v : Fin n → K} (hv : energyOf A v = 0) :
    A.mulVec v = 0 := by
  have h := (semi_sweep hA (List.finRange n) v).2 (le_antisymm (semi_sweep hA (List.finRange n) v).1 (by
    rw [hv]
    exact hA.nonneg _))
  funext i
  exact h i (List.mem_finRange i)

omit [LinearOrder K] [IsStrictOrderedRing K] in
/-- A vector orthogonal to the kernel of a symmetric matrix is in its range. -/
theorem exists_preimage {M : Matrix (Fin m) (Fin m) K} (hM : M.transpose = M) {v : Fin m → K}
    (hv : ∀ c, M.mulVec c = 0 → c ⬝ᵥ v = 0) : ∃ z, M.mulVec z = v := by
  by_contra hno
  have hmem : v ∉ LinearMap.range M.mulVecLin := by
    rintro ⟨z, hz⟩
    exact hno ⟨z, hz⟩
  obtain ⟨f, hf, hfz⟩ := Submodule.exists_dual_map_eq_bot_of_notMem hmem inferInstance
  obtain ⟨c, hc⟩ : ∃ c : Fin m → K, ∀ u, f u = c ⬝ᵥ u := by
    refine ⟨fun i => f (Pi.single i 1), fun u => ?_⟩
    conv_lhs => rw [← Finset.univ_sum_single u]
    rw [map_sum]
    refine Finset.sum_congr rfl fun i _ => ?_
    rw [show (Pi.single i (u i) : Fin m → K) = u i • Pi.single i 1 by
      rw [← Pi.single_smul, smul_eq_mul, mul_one], map_smul, smul_eq_mul, mul_comm]
  have hMc : M.mulVec c = 0 := by
    funext i
    have h1 : f (M.mulVec (Pi.single i 1)) = 0 := by
      have h2 : f (M.mulVec (Pi.single i 1)) ∈ (LinearMap.range M.mulVecLin).map f :=
        Submodule.mem_map_of_mem ⟨Pi.single i 1, rfl⟩
      rw [hfz] at h2
      exact (Submodule.mem_bot K).1 h2
    rw [hc, form_symm hM] at h1
    simpa using h1
  exact hf ((hc v).trans (hv c hMc))

/-- The coarse correction with a generalised inverse. -/
theorem semi_correction {A : Matrix (Fin n) (Fin n) K} (hA : IsSemidefinite A) (R : Matrix (Fin m) (Fin n) K)
    {G : Matrix (Fin m) (Fin m) K} (hG : IsGeneralisedInverse (galerkin R A) G) (e : Fin n → K) :
    energyOf A (e - R.transpose.mulVec (G.mulVec (R.mulVec (A.mulVec e)))) ≤ energyOf A e := by
  have hsymm := semi_galerkin_symm hA R
  have hB : ∀ c, (galerkin R A).mulVec c = R.mulVec (A.mulVec (R.transpose.mulVec c)) := by
    intro c
    rw [galerkin, ← Matrix.mulVec_mulVec, ← Matrix.mulVec_mulVec]
  have hRt : ∀ (c : Fin m → K) (u : Fin n → K), c ⬝ᵥ R.mulVec u = R.transpose.mulVec c ⬝ᵥ u := by
    intro c u
    rw [Matrix.mulVec_transpose, Matrix.dotProduct_mulVec]
  obtain ⟨z, hz⟩ := exists_preimage hsymm (v := R.mulVec (A.mulVec e)) (by
    intro c hc
    have h1 : energyOf A (R.transpose.mulVec c) = 0 := by
      rw [energyOf, ← hRt, ← hB, hc, dotProduct_zero]
    rw [hRt, form_symm hA.symm, semi_kernel hA h1, dotProduct_zero])
  obtain ⟨c, hc⟩ : ∃ c, c = G.mulVec (R.mulVec (A.mulVec e)) := ⟨_, rfl⟩
  have hBc : (galerkin R A).mulVec c = R.mulVec (A.mulVec e) := by
    rw [hc, ← hz, Matrix.mulVec_mulVec, Matrix.mulVec_mulVec, hG]
  rw [← hc]
  have h2 : e ⬝ᵥ A.mulVec (R.transpose.mulVec c) = c ⬝ᵥ R.mulVec (A.mulVec e) := by
    rw [hRt, form_symm hA.symm]
  have h3 : R.transpose.mulVec c ⬝ᵥ A.mulVec e = c ⬝ᵥ R.mulVec (A.mulVec e) := (hRt c _).symm
  have h4 : R.transpose.mulVec c ⬝ᵥ A.mulVec (R.transpose.mulVec c) = c ⬝ᵥ R.mulVec (A.mulVec e) := by
    rw [← hRt, ← hB, hBc]
  have h5 := hA.nonneg (R.transpose.mulVec c)
  rw [h4] at h5
  rw [energyOf, Matrix.mulVec_sub, sub_dotProduct, dotProduct_sub, dotProduct_sub, h2, h3, h4, ← energyOf]
  linarith

end semidefinite

section construction

variable {V : ℕ → Type}

/-- The hierarchy of two levels made of its parts. -/
def twoLevelHierarchy (timer : Bool) (p : Params) (a : Op (V 0) (V 0)) (s : V 0 → V 0 → V 0) (r : Op (V 0) (V (0 + 1)))
    (ac : Op (V (0 + 1)) (V (0 + 1))) (so : V (0 + 1) → V (0 + 1) → V (0 + 1)) : Hierarchy V where
  numLevels := 2
  level := ((((Levels.set (fun _ => {}) 0 fun v => { v with operator := some a }).set 0
    fun v => { v with smoother := some s }).set (0 + 1) fun v => { v with restrictor := some r }).set (0 + 1)
    fun v => { v with operator := some ac }).set (0 + 1) fun v => { v with solver := some so }
  isPreconditioner := p.isPreconditioner.getD true
  nSmoothingSteps := toUnsigned (p.nSmoothingSteps.getD 1)
  timer := timer

/-- Two levels: if the rest succeeds, what the constructor ends with depends on the coarse solver. -/
theorem build_two (debug timer : Bool) (p : Params) (h : Helpers V) {a s r ap ac}
    (ha : h.globalOperator = .ok a) (hs : h.buildSmoother 0 a p = .ok s) (hr : h.buildRestrictor 0 p = .ok r)
    (hap : h.multiplyTranspose 0 a r = .ok ap) (hac : h.multiply 0 r ap = .ok ac) (hlev : p.maxLevels.getD 2 = 2)
    (hfast : p.fastAp.getD false = false) :
    (buildHierarchy debug timer (some p) (.ok h)).result
      = h.buildCoarseSolver (0 + 1) ac p >>= fun so => .ok (twoLevelHierarchy timer p a s r ac so) := by
  have hbind : ∀ {α β : Type} (x : Run α) (f : α → Run β), (x >>= f).result = x.result >>= fun a => (f a).result := by
    intro α β x f
    match x with
    | (t, .ok w) => rfl
    | (t, .throws w) => rfl
    | (t, .aborted) => rfl
    | (t, .ub w) => rfl
  have hloop : (buildLoop h p timer 2 0 (Levels.set (fun _ => {}) 0 fun v => { v with operator := some a })).result
      = h.buildCoarseSolver (0 + 1) ac p >>= fun so => .ok (((((Levels.set (fun _ => {}) 0
        fun v => { v with operator := some a }).set 0
    fun v => { v with smoother := some s }).set (0 + 1) fun v => { v with restrictor := some r }).set (0 + 1)
    fun v => { v with operator := some ac }).set (0 + 1) fun v => { v with solver := some so }) := by
    rw [buildLoop, if_pos (by norm_num)]
    simp only [Levels.set_same, Outcome.deref, Run.result_lift_ok_bind]
    rw [if_neg (by norm_num)]
    rw [Run.result_bind_ok (a := s) (by rw [timed_result, hs])]
    rw [Run.result_bind_ok (a := r) (by rw [timed_result, hr])]
    rw [hfast]
    simp only [Bool.false_eq_true, if_false]
    rw [Run.result_bind_ok (a := ap) (by rw [timed_result, hap])]
    rw [Run.result_bind_ok (a := ac) (by rw [timed_result, hac])]
    rw [buildLoop, if_pos (by norm_num)]
    simp only [Levels.set_same, Outcome.deref, Run.result_lift_ok_bind]
    rw [if_pos (by norm_num), if_neg (by norm_num)]
    rw [Run.pure_bind', hbind, timed_result]
    rfl
  simp only [buildHierarchy, timerEnter_bind_result, Outcome.deref, Run.result_lift_ok_bind, hlev]
  have hassert : Outcome.assert debug (decide ((2 : ℤ) > 0)) = .ok () := by cases debug <;> rfl
  rw [hassert, Run.result_lift_ok_bind, if_neg (by norm_num), ha, Run.result_lift_ok_bind, if_neg (by decide)]
  rw [hbind, show (2 : ℤ).toNat = 2 from rfl, hloop]
  cases h.buildCoarseSolver (0 + 1) ac p with
  | ok so => simp only [Outcome.ok_bind, timerLeave_bind_result]; rfl
  | throws w => rfl
  | aborted => rfl
  | ub w => rfl

end construction

section cycles

variable {K : Type} [Field K] {m n : ℕ}

/-- The linear maps of a hierarchy whose coarse solver applies `G`. -/
noncomputable def semiData (kind : Relaxation) (procs : ∀ l, List (List (Fin (twoLevels n m l))))
    (A : Matrix (Fin n) (Fin n) K) (R : Matrix (Fin m) (Fin n) K) (G : Matrix (Fin m) (Fin m) K) :
    Data K (fun l => Fin (twoLevels n m l) → K) :=
  { fastData kind procs A R (A * R.transpose) with
    C := fun l => match l with
      | 0 => 0
      | _ + 1 => G.mulVecLin }

/-- What the constructor does is decided by the coarse solver. -/
theorem two_build (debug timer : Bool) (p : Params) (type : Option (List Char))
    (k : SmootherKind) (kind : Relaxation) (hk : dealiiSmoother debug true type = .ok k)
    (hk' : k.relaxation = some kind) (procs : ∀ l, List (List (Fin (twoLevels n m l))))
    (A : Matrix (Fin n) (Fin n) K) (R : Matrix (Fin m) (Fin n) K)
    (solve : ∀ l, Matrix (Fin (twoLevels n m l)) (Fin (twoLevels n m l)) K → (Fin (twoLevels n m l) → K) →
      Fin (twoLevels n m l) → K)
    (h : Helpers (fun l => Fin (twoLevels n m l) → K)) (coarse : Matrix (Fin m) (Fin m) K →
      Outcome ((Fin m → K) → (Fin m → K) → Fin m → K))
    (hh : h = { matrixHelpers debug type (twoLevels n m) procs A (twoLevelRestriction R) solve with
      buildCoarseSolver := h.buildCoarseSolver })
    (hc : ∀ a, h.buildCoarseSolver (0 + 1) a p = coarse (entriesOf a))
    (hlev : p.maxLevels.getD 2 = 2) (hfast : p.fastAp.getD false = false) :
    (buildHierarchy debug timer (some p) (.ok h)).result
      = coarse (galerkin R A) >>= fun so => .ok (twoLevelHierarchy timer p (matrixOp A)
        (dealiiSmootherApply kind (procs 0) (matrixOp A)) (matrixOp R)
        ((matrixOp R).mul ((matrixOp A).mulTranspose (matrixOp R))) so) := by
  have e : entriesOf ((matrixOp R).mul ((matrixOp A).mulTranspose (matrixOp R))) = galerkin R A := by
    apply entriesOf_eq
    intro x
    rw [galerkin, ← Matrix.mulVec_mulVec, ← Matrix.mulVec_mulVec]
    rfl
  have := build_two debug timer p h (a := matrixOp A) (s := dealiiSmootherApply kind (procs 0) (matrixOp A))
    (r := matrixOp R) (ap := (matrixOp A).mulTranspose (matrixOp R))
    (ac := (matrixOp R).mul ((matrixOp A).mulTranspose (matrixOp R))) (by rw [hh]; rfl)
    (by rw [hh]; simp [matrixHelpers, hk, hk']) (by rw [hh]; rfl) (by rw [hh]; rfl) (by rw [hh]; rfl) hlev hfast
  exact this.trans (congrArg (fun o => Outcome.bind o _) ((hc _).trans (congrArg coarse e)))

/-- The hierarchy made of its parts performs the cycle of `semiData`. -/
theorem two_linear (timer : Bool) (p : Params) (kind : Relaxation)
    (procs : ∀ l, List (List (Fin (twoLevels n m l)))) (A : Matrix (Fin n) (Fin n) K) (R : Matrix (Fin m) (Fin n) K)
    (G : Matrix (Fin m) (Fin m) K) (so : (Fin m → K) → (Fin m → K) → Fin m → K) (hso : ∀ b, so b 0 = G.mulVec b) :
    IsLinear (twoLevelHierarchy (V := fun l => Fin (twoLevels n m l) → K) timer p (matrixOp A)
        (dealiiSmootherApply kind (procs 0) (matrixOp A)) (matrixOp R)
        ((matrixOp R).mul ((matrixOp A).mulTranspose (matrixOp R))) so) (semiData kind procs A R G) := by
  refine ⟨Nat.two_pos, ?_, ?_, ?_, ?_⟩
  · intro l hl
    change l < 2 at hl
    rcases (by omega : l = 0 ∨ l = 1) with rfl | rfl
    · exact ⟨matrixOp A, rfl, fun x => rfl⟩
    · have e : ∀ x : Fin m → K, R.mulVec (A.mulVec (R.transpose.mulVec x)) = (R * (A * R.transpose)).mulVec x := by
        intro x
        rw [← Matrix.mulVec_mulVec, ← Matrix.mulVec_mulVec]
      exact ⟨_, rfl, fun x => e x⟩
  · intro l hl
    change l + 1 < 2 at hl
    obtain rfl : l = 0 := by omega
    refine ⟨_, rfl, ?_⟩
    intro b x
    rw [dealiiSmootherApply_matrix kind (procs 0) _ A (fun x => rfl)]
    rfl
  · intro l hl
    change l + 1 < 2 at hl
    obtain rfl : l = 0 := by omega
    exact ⟨_, rfl, fun x => rfl, fun y => rfl⟩
  · exact ⟨so, rfl, hso⟩

/-- The error after a standalone cycle. -/
theorem semi_cycle_err (kind : Relaxation) (procs : ∀ l, List (List (Fin (twoLevels n m l))))
    (A : Matrix (Fin n) (Fin n) K) (R : Matrix (Fin m) (Fin n) K) (G : Matrix (Fin m) (Fin m) K) (N : ℕ)
    (b x xs y : Fin n → K) (hxs : A.mulVec xs = b) (hy : cycle (semiData kind procs A R G) N 1 0 b x = y) :
    xs - y =
      (fun e => e - relaxVmult kind A (procs 0) (A.mulVec e))^[N]
        ((fun e => e - R.transpose.mulVec (G.mulVec (R.mulVec (A.mulVec e))))
          ((fun e => e - relaxVmult kind A (procs 0) (A.mulVec e))^[N] (xs - x))) := by
  obtain ⟨S, hS⟩ : ∃ S : (Fin n → K) → Fin n → K,
      S = fun y => y + relaxVmult kind A (procs 0) (b - A.mulVec y) := ⟨_, rfl⟩
  have hy' : S^[N] (S^[N] x + R.transpose.mulVec (G.mulVec (R.mulVec (b - A.mulVec (S^[N] x))))) = y := by
    rw [hS]
    exact hy
  have hstep : ∀ k (y : Fin n → K),
      xs - S^[k] y = (fun e => e - relaxVmult kind A (procs 0) (A.mulVec e))^[k] (xs - y) := by
    intro k
    induction k with
    | zero => exact fun y => rfl
    | succ k ih =>
      intro y
      rw [Function.iterate_succ_apply, ih, Function.iterate_succ_apply]
      congr 1
      rw [hS, ← hxs, Matrix.mulVec_sub]
      simp only
      abel
  rw [← hy', hstep]
  congr 1
  rw [← hstep N x, ← hxs, ← Matrix.mulVec_sub A]
  simp only
  abel

end cycles

end Mfmg
