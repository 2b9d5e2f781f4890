import Verif.Lemmas.CgCoarse
import Verif.Props.CgRate
import Verif.Props.InexactCoarse
import Mathlib.LinearAlgebra.Matrix.Notation

/-!
# C119: the conjugate gradient method does not need an exact coarse solver

`tests/hierarchy_driver.cc` gives the hierarchy to `SolverCG`.  With `coarse.type = ML` the coarse solver is one
application of a preconditioner (`DealIISolver::apply`), which is not exact.  Full claim: the program solves every
system with every coarse solver.
-/

set_option autoImplicit false

namespace Mfmg

open Spec

section

variable {K : Type} [Field K] [LinearOrder K] [IsStrictOrderedRing K]

/-- **C119**, symmetric Gauss-Seidel smoothing, two or more levels, any number of processes that are weakly coupled: for
every coarse solver that is linear, symmetric and does not point away from the right-hand side, the program solves every
system and is at least as fast as the same hierarchy on its own.  No accuracy is asked of the coarse solver.

Missing: other coarse solvers, see `C119_forward_violated`. -/
theorem C119_symmetric_partial (debug timer : Bool) (p : Params) (type : Option (List Char))
    (htype : dealiiSmoother debug true type = .ok .symmetricGaussSeidel) (dims : ℕ → ℕ)
    (procs : ∀ l, List (List (Fin (dims l)))) (hprocs : ∀ l, ListsAll (procs l).flatten)
    (A : Matrix (Fin (dims 0)) (Fin (dims 0)) K) (hA : IsSpd A)
    (R : ∀ l, Matrix (Fin (dims (l + 1))) (Fin (dims l)) K) (hR : ∀ l, IndependentRows (R l))
    (hweak : ∀ l : ℕ, l + 1 < (p.maxLevels.getD 2).toNat →
      WeaklyCoupled (coarseMatrix dims A R l) (procs l))
    (solve : ∀ l, Matrix (Fin (dims l)) (Fin (dims l)) K → (Fin (dims l) → K) → Fin (dims l) → K)
    (hsolve : ∀ l, ActsSymmetrically (solve l (coarseMatrix dims A R l))) (hlev : 2 ≤ p.maxLevels.getD 2)
    (hfast : p.fastAp.getD false = false) (hpre : p.isPreconditioner.getD true = true)
    (hsteps : 0 < toUnsigned (p.nSmoothingSteps.getD 1)) :
    ∃ H Hs, (buildHierarchy debug timer (some p)
        (.ok (matrixHelpers debug type dims procs A R solve))).result = .ok H ∧
      (buildHierarchy debug timer (some { p with isPreconditioner := some false })
        (.ok (matrixHelpers debug type dims procs A R solve))).result = .ok Hs ∧
      ∀ fresh h, SolvesEverySystem A (fun tol2 b x => driverSolve debug A H fresh tol2 b x h) ∧
        NotSlower A (fun tol2 b x => driverSolve debug A H fresh tol2 b x h)
          (fun b y y' => ∃ fresh, (Hs.vmult fresh y b).result = .ok y') :=
  cg_linear debug timer p type _ _ htype rfl dims procs A hA R hR solve hsolve hlev hfast hpre hsteps
    (fun l => C75_processes_symmetric (procs l) (hprocs l) _ (coarseMatrix_spd dims A hA R hR l))
    fun l hl e he => sgs_decreases (coarseMatrix_spd dims A hA R hR l) (hprocs l) (hweak l hl) e he

/-- **C119**, Stieltjes matrices on any number of processes, symmetric Gauss-Seidel or Jacobi smoothing.
Missing: as above. -/
theorem C119_stieltjes_partial (debug timer : Bool) (p : Params) (type : Option (List Char))
    (htype : dealiiSmoother debug true type = .ok .symmetricGaussSeidel ∨
      dealiiSmoother debug true type = .ok .jacobi) (dims : ℕ → ℕ)
    (procs : ∀ l, List (List (Fin (dims l)))) (hprocs : ∀ l, ListsAll (procs l).flatten)
    (A : Matrix (Fin (dims 0)) (Fin (dims 0)) K) (hA : IsSpd A)
    (R : ∀ l, Matrix (Fin (dims (l + 1))) (Fin (dims l)) K) (hR : ∀ l, IndependentRows (R l))
    (hst : ∀ l : ℕ, l + 1 < (p.maxLevels.getD 2).toNat → IsStieltjes (coarseMatrix dims A R l))
    (solve : ∀ l, Matrix (Fin (dims l)) (Fin (dims l)) K → (Fin (dims l) → K) → Fin (dims l) → K)
    (hsolve : ∀ l, ActsSymmetrically (solve l (coarseMatrix dims A R l))) (hlev : 2 ≤ p.maxLevels.getD 2)
    (hfast : p.fastAp.getD false = false) (hpre : p.isPreconditioner.getD true = true)
    (hsteps : 0 < toUnsigned (p.nSmoothingSteps.getD 1)) :
    ∃ H Hs, (buildHierarchy debug timer (some p)
        (.ok (matrixHelpers debug type dims procs A R solve))).result = .ok H ∧
      (buildHierarchy debug timer (some { p with isPreconditioner := some false })
        (.ok (matrixHelpers debug type dims procs A R solve))).result = .ok Hs ∧
      ∀ fresh h, SolvesEverySystem A (fun tol2 b x => driverSolve debug A H fresh tol2 b x h) ∧
        NotSlower A (fun tol2 b x => driverSolve debug A H fresh tol2 b x h)
          (fun b y y' => ∃ fresh, (Hs.vmult fresh y b).result = .ok y') := by
  rcases htype with htype | htype
  · exact cg_linear debug timer p type _ _ htype rfl dims procs A hA R hR solve hsolve hlev hfast hpre hsteps
      (fun l => C75_processes_symmetric (procs l) (hprocs l) _ (coarseMatrix_spd dims A hA R hR l))
      fun l hl e he => stieltjes_decreases _ (hprocs l) (hst l hl) e he
  · exact cg_linear debug timer p type _ _ htype rfl dims procs A hA R hR solve hsolve hlev hfast hpre hsteps
      (fun l => jacobi_symmetric (procs l) (hprocs l) _)
      fun l hl e he => stieltjes_decreases _ (hprocs l) (hst l hl) e he

/-- Relaxation by Gauss-Seidel sweeps as a coarse solver: the symmetric sweep acts symmetrically. -/
theorem sweep_acts {n : ℕ} (own : List (Fin n)) (hown : ListsAll own) {M : Matrix (Fin n) (Fin n) K} (hM : IsSpd M) :
    ActsSymmetrically (relaxVmult .symmetricGaussSeidel M [own]) := by
  have hall : ListsAll [own].flatten := by simpa using hown
  have hsymm := C75_processes_symmetric [own] hall _ hM
  refine ⟨fun b c => (relaxLin .symmetricGaussSeidel M [own]).map_add b c,
    fun a b => (relaxLin .symmetricGaussSeidel M [own]).map_smul a b, hsymm, fun b => ?_⟩
  obtain ⟨e, rfl⟩ : ∃ e, M.mulVec e = b := ⟨M⁻¹.mulVec b, mulVec_inv (spd_det hM) b⟩
  by_cases he : e = 0
  · simp [he]
  have h1 := sgs_decreases hM hall (weaklyCoupled_two hM hall (by simp)) e he
  have h2 := energy_gain hM.1 e (relaxVmult .symmetricGaussSeidel M [own] (M.mulVec e))
  have h3 : 0 ≤ relaxVmult .symmetricGaussSeidel M [own] (M.mulVec e) ⬝ᵥ
      M.mulVec (relaxVmult .symmetricGaussSeidel M [own] (M.mulVec e)) := by
    by_cases hw : relaxVmult .symmetricGaussSeidel M [own] (M.mulVec e) = 0
    · simp [hw]
    · exact (hM.2 _ hw).le
  have h4 := dotProduct_comm (M.mulVec e) (relaxVmult .symmetricGaussSeidel M [own] (M.mulVec e))
  linarith

/-! ## Two unknowns and a cycle that is not symmetric -/

/-- The residual after the first step of the solver, started with the residual `v`. -/
def cgFirst (A M : Matrix (Fin 2) (Fin 2) K) (v : Fin 2 → K) : Fin 2 → K :=
  v - ((v ⬝ᵥ M.mulVec v) / (M.mulVec v ⬝ᵥ A.mulVec (M.mulVec v))) • A.mulVec (M.mulVec v)

/-- The second direction. -/
def cgDirection (A M : Matrix (Fin 2) (Fin 2) K) (v : Fin 2 → K) : Fin 2 → K :=
  -(((cgFirst A M v ⬝ᵥ M.mulVec (cgFirst A M v)) / (v ⬝ᵥ M.mulVec v)) • M.mulVec v) - M.mulVec (cgFirst A M v)

/-- The residual after the second step. -/
def cgSecond (A M : Matrix (Fin 2) (Fin 2) K) (v : Fin 2 → K) : Fin 2 → K :=
  cgFirst A M v + ((cgFirst A M v ⬝ᵥ M.mulVec (cgFirst A M v)) /
    (cgDirection A M v ⬝ᵥ A.mulVec (cgDirection A M v))) • A.mulVec (cgDirection A M v)

omit [LinearOrder K] [IsStrictOrderedRing K] in
theorem cgFirst_smul (A M : Matrix (Fin 2) (Fin 2) K) (v : Fin 2 → K) {t : K} (ht : t ≠ 0) :
    cgFirst A M (t • v) = t • cgFirst A M v := by
  simp only [cgFirst, Matrix.mulVec_smul, smul_dotProduct, dotProduct_smul, smul_eq_mul, smul_sub, smul_smul]
  rw [show t * (t * (v ⬝ᵥ M.mulVec v)) = (t * t) * (v ⬝ᵥ M.mulVec v) by ring,
    show t * (t * (M.mulVec v ⬝ᵥ A.mulVec (M.mulVec v))) = (t * t) * (M.mulVec v ⬝ᵥ A.mulVec (M.mulVec v)) by ring,
    mul_div_mul_left _ _ (mul_ne_zero ht ht), mul_comm _ t]

omit [LinearOrder K] [IsStrictOrderedRing K] in
theorem cgDirection_smul (A M : Matrix (Fin 2) (Fin 2) K) (v : Fin 2 → K) {t : K} (ht : t ≠ 0) :
    cgDirection A M (t • v) = t • cgDirection A M v := by
  simp only [cgDirection, cgFirst_smul A M v ht, Matrix.mulVec_smul, smul_dotProduct, dotProduct_smul, smul_eq_mul,
    smul_sub, smul_neg, smul_smul]
  rw [← mul_assoc, ← mul_assoc t t, mul_div_mul_left _ _ (mul_ne_zero ht ht), mul_comm _ t]

omit [LinearOrder K] [IsStrictOrderedRing K] in
theorem cgSecond_smul (A M : Matrix (Fin 2) (Fin 2) K) (v : Fin 2 → K) {t : K} (ht : t ≠ 0) :
    cgSecond A M (t • v) = t • cgSecond A M v := by
  simp only [cgSecond, cgFirst_smul A M v ht, cgDirection_smul A M v ht, Matrix.mulVec_smul, smul_dotProduct,
    dotProduct_smul, smul_eq_mul, smul_add, smul_smul]
  rw [← mul_assoc, ← mul_assoc t t, mul_div_mul_left _ _ (mul_ne_zero ht ht), mul_comm _ t]

omit [IsStrictOrderedRing K] in
/-- What the solver does with two unknowns if none of the residuals is small enough. -/
theorem cgSolve_two (debug : Bool) (A M : Matrix (Fin 2) (Fin 2) K)
    (prec : ℕ → (Fin 2 → K) → (Fin 2 → K) → Outcome (Fin 2 → K)) (hprec : ∀ i h g, prec i h g = .ok (M.mulVec g))
    (tol2 : K) (x₀ h v : Fin 2 → K) (h0 : tol2 < v ⬝ᵥ v) (h1 : tol2 < cgFirst A M v ⬝ᵥ cgFirst A M v)
    (h2 : v ⬝ᵥ M.mulVec v ≠ 0 → tol2 < cgSecond A M v ⬝ᵥ cgSecond A M v) :
    ∃ msg, cgSolve debug A prec 2 tol2 (A.mulVec x₀ - v) x₀ h = .throws msg := by
  have hdiv : ∃ msg, (cgDivisionByZero debug : Outcome ((Fin 2 → K) × ℕ)) = .throws msg := by
    unfold cgDivisionByZero
    split <;> exact ⟨_, rfl⟩
  have e1 : ∀ c : K, v + c • A.mulVec (-M.mulVec v) = v - c • A.mulVec (M.mulVec v) := by
    intro c
    rw [Matrix.mulVec_neg, smul_neg, sub_eq_add_neg]
  have e2 : -M.mulVec v ⬝ᵥ A.mulVec (-M.mulVec v) = M.mulVec v ⬝ᵥ A.mulVec (M.mulVec v) := by
    rw [Matrix.mulVec_neg, neg_dotProduct, dotProduct_neg, neg_neg]
  have e3 : (if (2 : ℕ) = 0 then (.throws "SolverControl::NoConvergence" : Outcome ((Fin 2 → K) × ℕ)) else
      cgLoop debug A prec tol2 2 0 x₀ v (-M.mulVec v) (v ⬝ᵥ M.mulVec v))
      = cgLoop debug A prec tol2 2 0 x₀ v (-M.mulVec v) (v ⬝ᵥ M.mulVec v) := if_neg (by decide)
  simp only [cgSolve, sub_sub_cancel, if_neg (not_le.2 h0), hprec, Outcome.ok_bind, e3]
  rw [cgLoop]
  simp only [e1, e2]
  by_cases a1 : M.mulVec v ⬝ᵥ A.mulVec (M.mulVec v) = 0
  · rw [if_pos a1]
    exact hdiv
  have h1' := h1
  unfold cgFirst at h1'
  rw [if_neg a1, if_neg (not_le.2 h1'), if_neg (by decide), hprec, Outcome.ok_bind]
  by_cases a3 : v ⬝ᵥ M.mulVec v = 0
  · rw [if_pos a3]
    exact hdiv
  have h2' := h2 a3
  rw [if_neg a3, cgLoop]
  unfold cgSecond cgDirection cgFirst at h2'
  simp only [smul_neg]
  split_ifs with a4 a5
  · exact hdiv
  · exact absurd a5 (not_le.2 h2')
  · exact ⟨_, rfl⟩

/-- Two unknowns: if the cycle is linear but not symmetric, there is for every start and every tolerance a system for
which the solver gives up. -/
theorem cg_two_fails (debug : Bool) (A M : Matrix (Fin 2) (Fin 2) K) (hA : IsSpd A) (hM : M.transpose ≠ M)
    (prec : ℕ → (Fin 2 → K) → (Fin 2 → K) → Outcome (Fin 2 → K)) (hprec : ∀ i h g, prec i h g = .ok (M.mulVec g))
    (tol2 : K) (x₀ h : Fin 2 → K) : ∃ b msg, cgSolve debug A prec 2 tol2 b x₀ h = .throws msg := by
  have hsym : A 1 0 = A 0 1 := by
    have := congrFun (congrFun hA.1 0) 1
    exact this
  have hne : M 0 1 ≠ M 1 0 := by
    intro e
    apply hM
    ext i j
    fin_cases i <;> fin_cases j <;> simp [Matrix.transpose_apply, e]
  have hdet : A 0 0 * A 1 1 - A 0 1 * A 0 1 ≠ 0 := by
    have := spd_det hA
    rwa [Matrix.det_fin_two, hsym] at this
  -- a start that is not solved in one step
  obtain ⟨v, hv⟩ : ∃ v : Fin 2 → K, v 0 * A.mulVec (M.mulVec v) 1 - v 1 * A.mulVec (M.mulVec v) 0 ≠ 0 := by
    by_contra hcon
    push Not at hcon
    have c1 := hcon ![1, 0]
    have c2 := hcon ![0, 1]
    have c3 := hcon ![1, 1]
    simp [Matrix.mulVec, dotProduct, Fin.sum_univ_two, hsym] at c1 c2 c3
    apply hne
    refine mul_left_cancel₀ hdet ?_
    linear_combination -(A 1 1) * c2 - (A 0 1) * (c3 - c1 - c2) - (A 0 0) * c1
  set m := M.mulVec v with hm
  set k := A.mulVec m with hk
  set g := cgFirst A M v with hg
  have hm0 : m ≠ 0 := by
    intro e
    apply hv
    rw [hk, e, Matrix.mulVec_zero]
    simp
  have hp : 0 < m ⬝ᵥ k := hA.2 m hm0
  have hgdef : g = v - ((v ⬝ᵥ m) / (m ⬝ᵥ k)) • k := rfl
  have hg0 : g ≠ 0 := by
    intro e
    apply hv
    rw [hgdef, sub_eq_zero] at e
    have e0 := congrFun e 0
    have e1 := congrFun e 1
    simp only [Pi.smul_apply, smul_eq_mul] at e0 e1
    linear_combination (k 1) * e0 - (k 0) * e1
  have hgm : m ⬝ᵥ g = 0 := by
    rw [hgdef, dotProduct_sub, dotProduct_smul, smul_eq_mul, div_mul_cancel₀ _ hp.ne', dotProduct_comm, sub_self]
  have hsecond : v ⬝ᵥ m ≠ 0 → cgSecond A M v ≠ 0 := by
    intro hq e
    have hd : m ⬝ᵥ A.mulVec (cgDirection A M v) = 0 := by
      have e1 : cgSecond A M v = g + ((g ⬝ᵥ M.mulVec g) /
        (cgDirection A M v ⬝ᵥ A.mulVec (cgDirection A M v))) • A.mulVec (cgDirection A M v) := rfl
      rw [e1] at e
      have e2 := congrArg (m ⬝ᵥ ·) e
      simp only [dotProduct_add, dotProduct_smul, hgm, dotProduct_zero, zero_add, smul_eq_mul] at e2
      rcases mul_eq_zero.1 e2 with h | h
      · rw [h, zero_smul, add_zero] at e
        exact absurd e hg0
      · exact h
    have hd' : k ⬝ᵥ cgDirection A M v = 0 := by
      rw [← hd, hk, form_symm hA.1, dotProduct_comm]
    have e1 : cgDirection A M v = -(((g ⬝ᵥ M.mulVec g) / (v ⬝ᵥ m)) • m) - M.mulVec g := rfl
    rw [e1, dotProduct_sub, dotProduct_neg, dotProduct_smul, smul_eq_mul, dotProduct_comm k m] at hd'
    have hkg : (v ⬝ᵥ m) / (m ⬝ᵥ k) * (k ⬝ᵥ M.mulVec g) = v ⬝ᵥ M.mulVec g - g ⬝ᵥ M.mulVec g := by
      have e2 : v = g + ((v ⬝ᵥ m) / (m ⬝ᵥ k)) • k := by rw [hgdef, sub_add_cancel]
      conv_rhs => rw [e2]
      rw [add_dotProduct, smul_dotProduct, smul_eq_mul]
      ring
    have hvg : v ⬝ᵥ M.mulVec g = 0 := by
      have e2 : k ⬝ᵥ M.mulVec g = -((g ⬝ᵥ M.mulVec g) / (v ⬝ᵥ m) * (m ⬝ᵥ k)) := by linarith
      rw [e2] at hkg
      have e3 : (v ⬝ᵥ m) / (m ⬝ᵥ k) * -((g ⬝ᵥ M.mulVec g) / (v ⬝ᵥ m) * (m ⬝ᵥ k)) = -(g ⬝ᵥ M.mulVec g) := by
        field_simp
      linarith
    have c1 : m 0 = M 0 0 * v 0 + M 0 1 * v 1 := by simp [hm, Matrix.mulVec, dotProduct, Fin.sum_univ_two]
    have c2 : m 1 = M 1 0 * v 0 + M 1 1 * v 1 := by simp [hm, Matrix.mulVec, dotProduct, Fin.sum_univ_two]
    have c3 : m 0 * g 0 + m 1 * g 1 = 0 := by simpa [dotProduct, Fin.sum_univ_two] using hgm
    have c4 : v 0 * (M 0 0 * g 0 + M 0 1 * g 1) + v 1 * (M 1 0 * g 0 + M 1 1 * g 1) = 0 := by
      simpa [Matrix.mulVec, dotProduct, Fin.sum_univ_two] using hvg
    have c5 : v ⬝ᵥ m = v 0 * m 0 + v 1 * m 1 := by simp [dotProduct, Fin.sum_univ_two]
    have hz : ∀ i, g i = 0 := by
      have hprod : (M 0 1 - M 1 0) * (v ⬝ᵥ m) ≠ 0 := mul_ne_zero (sub_ne_zero.2 hne) hq
      rw [c5, c1, c2] at hprod
      rw [c1, c2] at c3
      intro i
      refine mul_left_cancel₀ hprod ?_
      rw [mul_zero]
      fin_cases i
      · change _ * g 0 = 0
        linear_combination (M 0 1 * v 0 + M 1 1 * v 1) * c3 - (M 1 0 * v 0 + M 1 1 * v 1) * c4
      · change _ * g 1 = 0
        linear_combination (-(M 0 0 * v 0 + M 1 0 * v 1)) * c3 + (M 0 0 * v 0 + M 0 1 * v 1) * c4
    exact hg0 (funext hz)
  -- a multiple of it that is large enough
  have hpos : ∀ u : Fin 2 → K, u ≠ 0 → 0 < u ⬝ᵥ u := by
    intro u hu
    by_contra hn
    exact hu (dot_self_eq_zero (not_lt.1 hn))
  have hv0 : v ≠ 0 := by
    rintro rfl
    simp at hv
  obtain ⟨s, hs0, hs⟩ : ∃ s : K, 0 < s ∧ s ≤ v ⬝ᵥ v ∧ s ≤ g ⬝ᵥ g ∧
      (v ⬝ᵥ m ≠ 0 → s ≤ cgSecond A M v ⬝ᵥ cgSecond A M v) := by
    by_cases hq : v ⬝ᵥ m = 0
    · exact ⟨min (v ⬝ᵥ v) (g ⬝ᵥ g), lt_min (hpos v hv0) (hpos g hg0), min_le_left _ _, min_le_right _ _,
        fun h => absurd hq h⟩
    · refine ⟨min (v ⬝ᵥ v) (min (g ⬝ᵥ g) (cgSecond A M v ⬝ᵥ cgSecond A M v)),
        lt_min (hpos v hv0) (lt_min (hpos g hg0) (hpos _ (hsecond hq))), min_le_left _ _,
        (min_le_right _ _).trans (min_le_left _ _), fun _ => (min_le_right _ _).trans (min_le_right _ _)⟩
  obtain ⟨t, ht, hts⟩ : ∃ t : K, t ≠ 0 ∧ tol2 < t * t * s := by
    have h3 : 0 ≤ |tol2| / s := by positivity
    refine ⟨1 + |tol2| / s, by linarith, ?_⟩
    have h1 : (1 + |tol2| / s) * s = s + |tol2| := by field_simp
    have h2 := le_abs_self tol2
    have h4 : (1 + |tol2| / s) * (1 + |tol2| / s) * s = (1 + |tol2| / s) * (s + |tol2|) := by rw [mul_assoc, h1]
    rw [h4]
    nlinarith [mul_nonneg h3 (add_pos_of_pos_of_nonneg hs0 (abs_nonneg tol2)).le]
  have hbig : ∀ u : Fin 2 → K, s ≤ u ⬝ᵥ u → tol2 < (t • u) ⬝ᵥ (t • u) := by
    intro u hu
    rw [smul_dotProduct, dotProduct_smul, smul_eq_mul, smul_eq_mul, ← mul_assoc]
    exact hts.trans_le (mul_le_mul_of_nonneg_left hu (mul_self_nonneg t))
  obtain ⟨msg, hmsg⟩ := cgSolve_two debug A M prec hprec tol2 x₀ h (t • v) (hbig v hs.1)
    (by rw [cgFirst_smul A M v ht]; exact hbig _ hs.2.1)
    (by
      intro hq
      rw [cgSecond_smul A M v ht]
      refine hbig _ (hs.2.2 fun e => hq ?_)
      rw [Matrix.mulVec_smul, smul_dotProduct, dotProduct_smul, ← hm, e]
      simp)
  exact ⟨_, msg, hmsg⟩

omit [LinearOrder K] [IsStrictOrderedRing K] in
/-- How much of a two-level cycle is not symmetric is decided by the coarse solver. -/
theorem M_polar {V : ℕ → Type} [∀ l, AddCommGroup (V l)] [∀ l, Module K (V l)] {D : Data K V} {φ : Forms K V}
    {C : ∀ l, V l →ₗ[K] V l} (hs : Symmetric (withCoarse D fun _ => 0) φ 2) (n : ℕ) (b c : V 0) :
    φ 0 (Spec.M (withCoarse D C) n 1 0 b) c = φ 0 (G D 0 (n + n) b) c +
      φ 1 (C 1 (D.R 0 (b - D.A 0 (G D 0 n b)))) (D.R 0 (c - D.A 0 (G D 0 n c))) := by
  rw [M_succ, map_add, LinearMap.add_apply, G_withCoarse, G_withCoarse]
  congr 1
  have h1 := S_pow_adjoint hs 0 n (by decide) (D.P 0 (C 1 (D.R 0 (b - D.A 0 (G D 0 n b))))) c
  rw [G_withCoarse] at h1
  refine h1.trans ?_
  rw [hs.form 0]
  refine (hs.RP 0 (by decide) _ _).symm.trans ?_
  rw [hs.form 1]
  rfl

/-- The full claim is violated if a cycle is linear but not symmetric.  With two unknowns, whatever the matrix and the
cycle are: for every start and every tolerance there is a system for which the solver gives up; the hierarchy does not
notice. -/
theorem C119_cycle_violated (debug : Bool) (A : Matrix (Fin 2) (Fin 2) K) (hA : IsSpd A)
    (H : Hierarchy fun _ => Fin 2 → K) (M : Matrix (Fin 2) (Fin 2) K) (hM : M.transpose ≠ M)
    (hH : ∀ fresh x b, (H.vmult fresh x b).result = .ok (M.mulVec b))
    (fresh : ℕ → ℕ → Fin 2 → K) (x₀ h : Fin 2 → K) (tol2 : K) :
    ∃ b msg, driverSolve (dims := fun _ => 2) debug A H fresh tol2 b x₀ h = .throws msg :=
  cg_two_fails debug A M hA hM (fun i h g => (H.vmult (fresh i) h g).result) (fun _ h g => hH _ h g) tol2 x₀ h

/-- The full claim is violated by a coarse solver that makes one Gauss-Seidel sweep (a preconditioner one can
choose): Jacobi smoothing, two levels of two unknowns, every symmetric positive definite matrix that is not diagonal.
Construction succeeds, and for every start and every tolerance there is a system for which the solver gives up. -/
theorem C119_forward_violated (debug timer : Bool) (type : Option (List Char))
    (htype : dealiiSmoother debug true type = .ok .jacobi) (A : Matrix (Fin 2) (Fin 2) K) (hA : IsSpd A)
    (hoff : A 0 1 ≠ 0) :
    ∃ H, (buildHierarchy debug timer (some {}) (.ok (matrixHelpers debug type (fun _ => 2) (fun _ => [[0, 1]]) A
        (fun _ => 1) fun _ M => relaxVmult .gaussSeidel M [[0, 1]]))).result = .ok H ∧
      ∀ fresh x₀ h tol2, ∃ b msg,
        driverSolve (dims := fun _ => 2) debug A H fresh tol2 b x₀ h = .throws msg := by
  have hgal : ∀ l, coarseMatrix (fun _ => 2) A (fun _ => 1) l = A := by
    intro l
    induction l with
    | zero => rfl
    | succ l ih =>
      change galerkin 1 (coarseMatrix (fun _ => 2) A (fun _ => 1) l) = _
      rw [ih, galerkin, Matrix.transpose_one, Matrix.one_mul, Matrix.mul_one]
  obtain ⟨H, hH, hlin, hL, hp, hn⟩ := matrixHelpers_build_linear debug timer {} type _ _ htype rfl (fun _ => 2)
    (fun _ => [[0, 1]]) A (fun _ => 1) (fun _ M => relaxVmult .gaussSeidel M [[0, 1]])
    (fun l => relaxLin .gaussSeidel (coarseMatrix (fun _ => 2) A (fun _ => 1) l) [[0, 1]]) (fun _ _ => rfl)
    (by decide) rfl
  refine ⟨H, hH, fun fresh x₀ h tol2 => ?_⟩
  have hall : ListsAll ([[0, 1]] : List (List (Fin 2))).flatten := ⟨by decide, by decide⟩
  have hsym : A 1 0 = A 0 1 := by
    have := congrFun (congrFun hA.1 0) 1
    exact this
  have hd0 : A 0 0 ≠ 0 := (diag_pos hA 0).ne'
  have hd1 : A 1 1 ≠ 0 := (diag_pos hA 1).ne'
  set C : ∀ _ : ℕ, (Fin 2 → K) →ₗ[K] Fin 2 → K := fun l =>
    relaxLin .gaussSeidel (coarseMatrix (fun _ => 2) A (fun _ => 1) l) [[0, 1]] with hC
  have hone : ∀ _ : ℕ, IndependentRows (1 : Matrix (Fin 2) (Fin 2) K) := fun _ y hy => by
    simpa using hy
  have hs : Symmetric (withCoarse (matrixData .jacobi (fun _ => 2) (fun _ => [[0, 1]]) A (fun _ => 1)) fun _ => 0)
      (fun _ => dotForm 2) 2 :=
    symmetric_withCoarse (dims := fun _ => 2) hA hone (fun l => jacobi_symmetric [[0, 1]] hall _) _
      (fun l x y => by simp) 2
  have hL' : H.numLevels - 1 = 1 := by rw [hL]; rfl
  have hn' : H.nSmoothingSteps = 1 := by rw [hn]; rfl
  have hp' : H.isPreconditioner = true := by rw [hp]; rfl
  have hy : ∀ b : Fin 2 → K, (1 : Matrix (Fin 2) (Fin 2) K).mulVec (b - A.mulVec fun i => b i / A i i)
      = ![-(A 0 1 * b 1 / A 1 1), -(A 0 1 * b 0 / A 0 0)] := by
    intro b
    rw [Matrix.one_mulVec]
    ext i
    fin_cases i <;> simp [Matrix.mulVec, dotProduct, Fin.sum_univ_two, hsym] <;> field_simp <;> ring
  have hsweep : ∀ r : Fin 2 → K, relaxVmult .gaussSeidel A [[0, 1]] r
      = ![r 0 / A 0 0, (r 1 - A 0 1 * (r 0 / A 0 0)) / A 1 1] := by
    intro r
    ext i
    fin_cases i <;> simp [relaxVmult, localVmult, relaxRow, hsym]
  have hpolar : ∀ b c : Fin 2 → K, Spec.M (withCoarse (matrixData .jacobi (fun _ => 2) (fun _ => [[0, 1]]) A
      (fun _ => 1)) C) 1 1 0 b ⬝ᵥ c = dotForm 2 (G (matrixData .jacobi (fun _ => 2) (fun _ => [[0, 1]]) A
      (fun _ => 1)) 0 2 b) c + relaxVmult .gaussSeidel A [[0, 1]] ![-(A 0 1 * b 1 / A 1 1), -(A 0 1 * b 0 / A 0 0)]
        ⬝ᵥ ![-(A 0 1 * c 1 / A 1 1), -(A 0 1 * c 0 / A 0 0)] := by
    intro b c
    have hG : ∀ b : Fin 2 → K, G (matrixData .jacobi (fun _ => 2) (fun _ => [[0, 1]]) A (fun _ => 1)) 0 1 b
        = fun i => b i / A i i := by
      intro b
      have h1 : G (matrixData .jacobi (fun _ => 2) (fun _ => [[0, 1]]) A (fun _ => 1)) 0 1 b
        = relaxVmult .jacobi A [[0, 1]] b := by
        simp only [G, LinearMap.comp_zero, zero_add]
        rfl
      rw [h1, relaxVmult_jacobi_all hall]
    refine (M_polar hs 1 b c).trans (congrArg₂ (· + ·) rfl ?_)
    rw [hG, hG, ← hy b, ← hy c]
    change relaxVmult .gaussSeidel (coarseMatrix (fun _ => 2) A (fun _ => 1) 1) [[0, 1]] _ ⬝ᵥ _ = _
    rw [hgal]
    rfl
  refine C119_cycle_violated debug A hA H (LinearMap.toMatrix' (Spec.M (withCoarse (matrixData .jacobi (fun _ => 2)
    (fun _ => [[0, 1]]) A (fun _ => 1)) C) 1 1 0)) ?_ ?_ fresh x₀ h tol2
  · intro e
    have h1 := congrFun (congrFun e 0) 1
    rw [Matrix.transpose_apply, LinearMap.toMatrix'_apply, LinearMap.toMatrix'_apply] at h1
    have h2 := hpolar (Pi.single 0 1) (Pi.single 1 1)
    have h3 := hpolar (Pi.single 1 1) (Pi.single 0 1)
    have h4 : dotForm 2 (G (matrixData .jacobi (fun _ => 2) (fun _ => [[0, 1]]) A (fun _ => 1)) 0 2 (Pi.single 0 1))
        (Pi.single 1 1 : Fin 2 → K) = dotForm 2 (G (matrixData .jacobi (fun _ => 2) (fun _ => [[0, 1]]) A
          (fun _ => 1)) 0 2 (Pi.single 1 1)) (Pi.single 0 1 : Fin 2 → K) := by
      have h5 := G_selfAdjoint hs 0 2 (by decide) (Pi.single 0 1) (Pi.single 1 1)
      rw [G_withCoarse] at h5
      rw [h5, hs.form 0]
    rw [h4] at h2
    rw [hsweep] at h2 h3
    have h6 : (A 0 1 * A 0 1 * A 0 1) / (A 0 0 * A 0 0 * (A 1 1 * A 1 1)) = 0 := by
      simp at h1 h2 h3
      rw [← h1, h2] at h3
      have h8 := left_eq_add.mp h3
      have h9 : A 0 1 * A 0 1 * A 0 1 / (A 0 0 * A 0 0 * (A 1 1 * A 1 1))
          = - -(-(A 0 1 * (-(A 0 1 / A 1 1) / A 0 0)) / A 1 1 * (A 0 1 / A 0 0)) := by
        field_simp
      rw [h9, h8, neg_zero]
    have h7 : A 0 1 * A 0 1 * A 0 1 ≠ 0 := mul_ne_zero (mul_ne_zero hoff hoff) hoff
    exact div_ne_zero h7 (mul_ne_zero (mul_ne_zero hd0 hd0) (mul_ne_zero hd1 hd1)) h6
  · intro fresh x b
    rw [vmult_pre H _ hlin hp', LinearMap.toMatrix'_mulVec, hL', hn']

end

/-- **C119**, how fast, any number of levels on one process: under the conditions of `C93_levels`, a coarse solver that
is within a factor `c` of an exact one makes the condition at most `c` times worse: the program reduces the energy of
the error by `((w - 1) / (w + 1))²` per step for every `w` with `2 s² kappa c ≤ w²`.  Missing: as above. -/
theorem C119_steps_partial (debug timer : Bool) (p : Params) (type : Option (List Char))
    (htype : dealiiSmoother debug true type = .ok .symmetricGaussSeidel) (dims : ℕ → ℕ)
    (own : ∀ l, List (Fin (dims l))) (hown : ∀ l, ListsAll (own l))
    (A : Matrix (Fin (dims 0)) (Fin (dims 0)) ℝ) (hA : IsSpd A)
    (R : ∀ l, Matrix (Fin (dims (l + 1))) (Fin (dims l)) ℝ) (hR : ∀ l, IndependentRows (R l))
    (s : ℕ) (hs : ∀ l, l + 1 < (p.maxLevels.getD 2).toNat → AtMostPerRow (coarseMatrix dims A R l) s)
    (kappa : ℝ) (hk : 0 < kappa) (hone : 1 ≤ (s : ℝ) * s * kappa)
    (happrox : ∀ l, l + 1 < (p.maxLevels.getD 2).toNat →
      StronglyApproximates (R l) (coarseMatrix dims A R l) kappa)
    (solve : ∀ l, Matrix (Fin (dims l)) (Fin (dims l)) ℝ → (Fin (dims l) → ℝ) → Fin (dims l) → ℝ)
    (hsolve : ∀ l, ActsSymmetrically (solve l (coarseMatrix dims A R l))) (c : ℝ) (hc : 1 ≤ c)
    (hwithin : ∀ l, l + 1 = (p.maxLevels.getD 2).toNat →
      WithinFactor c (coarseMatrix dims A R l) (solve l (coarseMatrix dims A R l)))
    (hlev : 2 ≤ p.maxLevels.getD 2) (hfast : p.fastAp.getD false = false)
    (hpre : p.isPreconditioner.getD true = true) (hsteps : 0 < toUnsigned (p.nSmoothingSteps.getD 1))
    (w : ℝ) (hw : 1 < w) (hkw : 2 * ((s : ℝ) * s * kappa) * c ≤ w ^ 2) (d : ℝ) (hd : ∀ i, A i i ≤ d) (hd0 : 0 ≤ d) :
    ∃ H, (buildHierarchy debug timer (some p)
        (.ok (matrixHelpers debug type dims (fun l => [own l]) A R solve))).result = .ok H ∧
      ∀ fresh h, SolvesEverySystem A (fun tol2 b x => driverSolve debug A H fresh tol2 b x h) ∧
        ReducesEnergy A (fun tol2 b x => driverSolve debug A H fresh tol2 b x h) 4 (((w - 1) / (w + 1)) ^ 2) ∧
        FewSteps A (fun tol2 b x => driverSolve debug A H fresh tol2 b x h) (s * d) 4
          (((w - 1) / (w + 1)) ^ 2) := by
  have hall : ∀ l, ListsAll [own l].flatten := fun l => by simpa using hown l
  have hspd := coarseMatrix_spd dims A hA R hR
  have hsymm := fun l => C75_processes_symmetric [own l] (hall l) _ (hspd l)
  have hdec := fun l (e : Fin (dims l) → ℝ) (he : e ≠ 0) => sgs_decreases (hspd l) (hall l)
    (weaklyCoupled_two (hspd l) (hall l) (by simp)) e he
  obtain ⟨H, hH, hlin, hp, hL, hn, M, hM, hMv, hv⟩ := preconditioner_linear debug timer p type _ _ htype rfl dims
    (fun l => [own l]) A hA R hR solve hsolve hlev hfast hpre hsteps hsymm fun l _ => hdec l
  have hexact : ∀ l : ℕ, SolvesExactly fun (N : Matrix (Fin (dims l)) (Fin (dims l)) ℝ) b => N⁻¹.mulVec b :=
    fun l N b hN => mulVec_inv hN b
  obtain ⟨H₀, hH₀, hequiv⟩ := C84_preconditioner debug timer p type htype dims own hown A hA R hR s hs kappa hk hone
    happrox (fun _ N b => N⁻¹.mulVec b) hexact (by omega) hfast hpre hsteps
  obtain ⟨H₁, hH₁, hlin₁, hL₁, hp₁, hn₁⟩ := matrixHelpers_build debug timer p type _ _ htype rfl dims
    (fun l => [own l]) A hA R hR (fun _ N b => N⁻¹.mulVec b) hexact (by omega) hfast
  obtain rfl := Outcome.ok.inj (hH₀.symm.trans hH₁)
  set D := matrixData .symmetricGaussSeidel dims (fun l => [own l]) A R with hD
  have hDC : withCoarse D (fun l => (coarseMatrix dims A R l)⁻¹.mulVecLin) = D := rfl
  have hsC : Symmetric (withCoarse D fun l => coarseLin (hsolve l)) (fun l => dotForm (dims l)) H.numLevels :=
    symmetric_withCoarse hA hR hsymm _ (fun l => (hsolve l).2.2.1) _
  have hinvT : ∀ l, ((coarseMatrix dims A R l)⁻¹).transpose = (coarseMatrix dims A R l)⁻¹ := fun l => by
    rw [Matrix.transpose_nonsing_inv, (hspd l).1]
  have hsE : Symmetric (withCoarse D fun l => (coarseMatrix dims A R l)⁻¹.mulVecLin) (fun l => dotForm (dims l))
      H.numLevels := by
    refine symmetric_withCoarse hA hR hsymm _ (fun l x y => ?_) _
    change (coarseMatrix dims A R l)⁻¹.mulVec x ⬝ᵥ y = x ⬝ᵥ (coarseMatrix dims A R l)⁻¹.mulVec y
    rw [dotProduct_comm, form_symm (hinvT l)]
  have hB : ∀ l, l + 1 < H.numLevels → SmootherConvergent D (fun l => dotForm (dims l)) l := by
    intro l _ y
    by_cases hy : y = 0
    · simp [hy]
    · exact (smoother_strict hA hR hsymm l (hdec l) y hy).le
  have hcoarse : ∀ l, l + 1 = H.numLevels → ∀ x : Fin (dims l) → ℝ,
      (coarseMatrix dims A R l)⁻¹.mulVec x ⬝ᵥ x ≤ c * (solve l (coarseMatrix dims A R l) x ⬝ᵥ x) ∧
      solve l (coarseMatrix dims A R l) x ⬝ᵥ x ≤ (coarseMatrix dims A R l)⁻¹.mulVec x ⬝ᵥ x := by
    intro l hl x
    have h1 := hwithin l (by omega) ((coarseMatrix dims A R l)⁻¹.mulVec x)
    rw [energyOf, mulVec_inv (spd_det (hspd l)), dotProduct_comm x (solve _ _ _)] at h1
    exact h1
  have hle : ∀ b, dotForm (dims 0) (Spec.M D H.nSmoothingSteps (H.numLevels - 1) 0 b) b
      ≤ c * (b ⬝ᵥ M.mulVec b) := by
    intro b
    have h1 := M_mono hsE hsC hc hB H.nSmoothingSteps (H.numLevels - 1) 0 (by omega)
      (fun l hl x => (hcoarse l hl x).1) b
    rw [hDC] at h1
    rw [hMv b, dotProduct_comm]
    exact h1
  have hge : ∀ b, b ⬝ᵥ M.mulVec b ≤ dotForm (dims 0) (Spec.M D H.nSmoothingSteps (H.numLevels - 1) 0 b) b := by
    intro b
    have h1 := M_mono hsC hsE (le_refl (1 : ℝ)) hB H.nSmoothingSteps (H.numLevels - 1) 0 (by omega)
      (fun l hl x => by rw [one_mul]; exact (hcoarse l hl x).2) b
    rw [hDC, one_mul] at h1
    rw [hMv b, dotProduct_comm]
    exact h1
  refine ⟨H, hH, fun fresh h => ?_⟩
  obtain ⟨h1, h2⟩ := C93_equivalent debug A hA H M hM hv w hw (fun f x b u hu => by
    obtain ⟨y, hy, hy1, hy2⟩ := hequiv f x b u hu
    rw [vmult_pre H₀ _ hlin₁ (by rw [hp₁, hpre])] at hy
    have hy' : y = Spec.M D H.nSmoothingSteps (H.numLevels - 1) 0 b := by
      rw [← Outcome.ok.inj hy, hn₁, hn, hL₁, hL]
    have hby : b ⬝ᵥ y = dotForm (dims 0) (Spec.M D H.nSmoothingSteps (H.numLevels - 1) 0 b) b := by
      rw [hy', dotProduct_comm]
      rfl
    rw [hby] at hy1 hy2
    refine ⟨M.mulVec b, hv _ _ _, hy1.trans ?_, (hge b).trans hy2⟩
    have hMb : 0 ≤ b ⬝ᵥ M.mulVec b := by
      by_cases hb : b = 0
      · simp [hb]
      · exact (hM.2 b hb).le
    calc 2 * ((s : ℝ) * s * kappa) * dotForm (dims 0) (Spec.M D H.nSmoothingSteps (H.numLevels - 1) 0 b) b
        ≤ 2 * ((s : ℝ) * s * kappa) * (c * (b ⬝ᵥ M.mulVec b)) :=
          mul_le_mul_of_nonneg_left (hle b) (by linarith)
      _ = 2 * ((s : ℝ) * s * kappa) * c * (b ⬝ᵥ M.mulVec b) := by ring
      _ ≤ w ^ 2 * (b ⬝ᵥ M.mulVec b) := mul_le_mul_of_nonneg_right hkw hMb) fresh h
  refine ⟨C92_solves_partial debug A hA H M hM hv fresh h, h1, h2 _ (residual_le_energy hA (hs 0 (by omega)) hd) ?_⟩
  exact mul_nonneg (Nat.cast_nonneg _) hd0

/-! ## Examples -/

/-- A coarse solver that makes half of the correction. -/
noncomputable def halfSolve {n : ℕ} (N : Matrix (Fin n) (Fin n) ℝ) (b : Fin n → ℝ) : Fin n → ℝ :=
  (1 / 2 : ℝ) • N⁻¹.mulVec b

theorem halfSolve_acts {n : ℕ} {N : Matrix (Fin n) (Fin n) ℝ} (hN : IsSpd N) :
    ActsSymmetrically (halfSolve N) ∧ WithinFactor 2 N (halfSolve N) := by
  have hT : N⁻¹.transpose = N⁻¹ := by rw [Matrix.transpose_nonsing_inv, hN.1]
  have hnonneg : ∀ e, 0 ≤ energyOf N e := energyOf_nonneg hN
  have hhalf : ∀ e, N.mulVec e ⬝ᵥ halfSolve N (N.mulVec e) = 1 / 2 * energyOf N e := by
    intro e
    have h1 : N⁻¹.mulVec (N.mulVec e) = e := by
      rw [Matrix.mulVec_mulVec, Matrix.nonsing_inv_mul _ (Ne.isUnit (spd_det hN)), Matrix.one_mulVec]
    rw [halfSolve, h1, dotProduct_smul, smul_eq_mul, dotProduct_comm]
    rfl
  refine ⟨⟨fun b c => ?_, fun a b => ?_, fun b c => ?_, fun b => ?_⟩, fun e => ?_⟩
  · simp only [halfSolve, Matrix.mulVec_add, smul_add]
  · simp only [halfSolve, Matrix.mulVec_smul, smul_smul, mul_comm]
  · simp only [halfSolve, smul_dotProduct, dotProduct_smul]
    rw [dotProduct_comm (N⁻¹.mulVec b), form_symm hT]
  · have h1 := hhalf (N⁻¹.mulVec b)
    rw [mulVec_inv (spd_det hN)] at h1
    rw [h1]
    linarith [hnonneg (N⁻¹.mulVec b)]
  · rw [hhalf]
    have := hnonneg e
    constructor <;> linarith

/-- Five levels, 48 unknowns, half of the correction on the coarsest: `2 s² kappa c = 108` and `w = 11`. -/
example := C119_steps_partial true false { maxLevels := some 5 } none rfl (pairDims 3 5)
  (fun _ => List.finRange _) (fun _ => ⟨List.nodup_finRange _, List.mem_finRange⟩)
  (pairMatrix (pairDims 3 5 0) 1) (pair_spd _ 1 one_pos) (pairR 3 5) (pairR_independent 3 5) 3 (by
    intro l hl
    have hl' : l + 1 < 5 := hl
    rw [pair_coarse 3 5 1 l (by omega)]
    exact pair_perRow _ _) 3 (by norm_num) (by norm_num) (by
    intro l hl
    have hl' : l + 1 < 5 := hl
    rw [pair_coarse 3 5 1 l (by omega)]
    exact pair_strong 3 5 l) (fun _ => halfSolve)
  (fun l => (halfSolve_acts (coarseMatrix_spd _ _ (pair_spd _ 1 one_pos) _ (pairR_independent 3 5) l)).1) 2
  (by norm_num) (fun l _ => (halfSolve_acts (coarseMatrix_spd _ _ (pair_spd _ 1 one_pos) _
    (pairR_independent 3 5) l)).2) (by decide) rfl rfl
  (by decide) 11 (by norm_num) (by norm_num) 3 (by
    intro i
    simp only [pairMatrix, Matrix.of_apply, if_true]
    norm_num) (by norm_num)

/-- The same hierarchy with a symmetric sweep as the coarse solver. -/
example := C119_symmetric_partial true false { maxLevels := some 5 } none rfl (pairDims 3 5)
  (fun _ => [List.finRange _]) (fun _ => by simpa using ⟨List.nodup_finRange _, List.mem_finRange⟩)
  (pairMatrix (pairDims 3 5 0) (1 : ℝ)) (pair_spd _ 1 one_pos) (pairR 3 5) (pairR_independent 3 5)
  (fun l _ => weaklyCoupled_two (coarseMatrix_spd _ _ (pair_spd _ 1 one_pos) _ (pairR_independent 3 5) l)
    (by simpa using ⟨List.nodup_finRange _, List.mem_finRange⟩) (by simp))
  (fun _ N => relaxVmult .symmetricGaussSeidel N [List.finRange _])
  (fun l => sweep_acts _ ⟨List.nodup_finRange _, List.mem_finRange⟩
    (coarseMatrix_spd _ _ (pair_spd _ 1 one_pos) _ (pairR_independent 3 5) l)) (by decide) rfl rfl (by decide)

/-- A matrix of two unknowns. -/
theorem twoMatrix_spd (c : ℚ) (hc : c * c < 4) : IsSpd (!![2, c; c, 2] : Matrix (Fin 2) (Fin 2) ℚ) := by
  refine ⟨by ext i j; fin_cases i <;> fin_cases j <;> rfl, fun v hv => ?_⟩
  have h1 : v ⬝ᵥ (!![2, c; c, 2] : Matrix (Fin 2) (Fin 2) ℚ).mulVec v
      = 2 * (v 0 + c / 2 * v 1) ^ 2 + (4 - c * c) / 2 * v 1 ^ 2 := by
    simp [Matrix.mulVec, dotProduct, Fin.sum_univ_two]
    ring
  rw [h1]
  by_cases h : v 1 = 0
  · have h0 : v 0 ≠ 0 := by
      intro h0
      apply hv
      ext i
      fin_cases i
      · exact h0
      · exact h
    rw [h]
    have := pow_pos (abs_pos.2 h0) 2
    rw [sq_abs] at this
    simpa using this
  · have h2 : 0 < v 1 ^ 2 := by positivity
    have h3 : 0 < (4 - c * c) / 2 * v 1 ^ 2 := mul_pos (by linarith) h2
    positivity

/-- Two unknowns on two processes, Jacobi smoothing, and a coarse solver that does nothing at all. -/
example :=
  C119_stieltjes_partial true false {} (some (chars! "Jacobi")) (Or.inr rfl) (fun _ => 2) (fun _ => [[0], [1]])
    (fun _ => ⟨by decide, by decide⟩) (!![2, -1; -1, 2] : Matrix (Fin 2) (Fin 2) ℚ)
    (twoMatrix_spd (-1) (by norm_num)) (fun _ => 1) (fun _ y hy => by simpa using hy) (fun l hl => by
      obtain rfl : l = 0 := by
        have : l + 1 < 2 := hl
        omega
      refine ⟨twoMatrix_spd (-1) (by norm_num), fun i j hij => ?_⟩
      change (!![2, -1; -1, 2] : Matrix (Fin 2) (Fin 2) ℚ) i j ≤ 0
      fin_cases i <;> fin_cases j <;> simp at hij ⊢) (fun _ _ _ => 0)
    (fun _ => ⟨by simp, by simp, by simp, by simp⟩) (by decide) rfl rfl (by decide)

/-- A sweep forward as the coarse solver for the same matrix. -/
example := C119_forward_violated true false (some (chars! "Jacobi")) rfl !![2, -1; -1, 2]
  (twoMatrix_spd (-1) (by norm_num)) (by simp)

end Mfmg
