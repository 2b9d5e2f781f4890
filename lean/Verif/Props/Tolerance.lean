import Verif.Spec.Tolerance
import Verif.Props.ConjugateGradient

/-!
# C127: what the tolerance of the solver guarantees

Full claim: if the conjugate gradient method returns, with the tolerance given to the distributed program
/repo/tests/hierarchy_driver.cc, the error is small compared with the solution.
-/

set_option autoImplicit false

namespace Mfmg

open Spec

section

variable {K : Type} [Field K] [LinearOrder K] [IsStrictOrderedRing K]

theorem dot_sq_le {n : ℕ} (u v : Fin n → K) : (u ⬝ᵥ v) ^ 2 ≤ (u ⬝ᵥ u) * (v ⬝ᵥ v) := by
  have h := Finset.sum_mul_sq_le_sq_mul_sq Finset.univ u v
  simpa [dotProduct, pow_two] using h

theorem error_of_residual {n : ℕ} {A : Matrix (Fin n) (Fin n) K} {bound : K} (h0 : 0 ≤ bound) (hA : BoundedBelow A bound)
    (e : Fin n → K) :
    bound * energyOf A e ≤ A.mulVec e ⬝ᵥ A.mulVec e ∧ bound ^ 2 * (e ⬝ᵥ e) ≤ A.mulVec e ⬝ᵥ A.mulVec e := by
  have h1 := hA e
  have h2 := dot_sq_le e (A.mulVec e)
  have hr : 0 ≤ A.mulVec e ⬝ᵥ A.mulVec e := Finset.sum_nonneg fun i _ => mul_self_nonneg _
  have hee : 0 ≤ e ⬝ᵥ e := Finset.sum_nonneg fun i _ => mul_self_nonneg _
  unfold energyOf
  generalize e ⬝ᵥ A.mulVec e = E at *
  generalize A.mulVec e ⬝ᵥ A.mulVec e = r at *
  generalize e ⬝ᵥ e = s at *
  have hE : 0 ≤ E := (mul_nonneg h0 hee).trans h1
  have key : bound * E ≤ r := by
    rcases hE.eq_or_lt with hE | hE
    · rw [← hE, mul_zero]
      exact hr
    · have h3 : bound * E * E ≤ r * E := by
        have h4 := mul_le_mul_of_nonneg_left h2 h0
        have h5 := mul_le_mul_of_nonneg_right h1 hr
        nlinarith
      exact le_of_mul_le_mul_right h3 hE
  exact ⟨key, by nlinarith [mul_le_mul_of_nonneg_left h1 h0]⟩

theorem errorWithin_of_solves {n : ℕ} {A : Matrix (Fin n) (Fin n) K}
    {solver : K → (Fin n → K) → (Fin n → K) → Outcome ((Fin n → K) × ℕ)} (h : SolvesEverySystem A solver) {bound : K}
    (h0 : 0 ≤ bound) (hA : BoundedBelow A bound) : ErrorWithin A solver bound := by
  intro tol2 b x₀ xs ht hxs
  obtain ⟨x, steps, h1, -, h2⟩ := h tol2 b x₀ ht
  refine ⟨x, steps, h1, ?_⟩
  have e : A.mulVec (xs - x) = -(A.mulVec x - b) := by
    rw [Matrix.mulVec_sub, hxs]
    abel
  obtain ⟨h3, h4⟩ := error_of_residual h0 hA (xs - x)
  rw [e, neg_dotProduct_neg] at h3 h4
  exact ⟨h3.trans h2, h4.trans h2⟩

/-- **C127**, symmetric Gauss-Seidel smoothing: what the program returns has an error of at most the tolerance, divided by
a lower bound of the eigenvalues of the matrix.  (Partial: the bound is absolute and depends on the matrix, see
`C127_units_violated`.) -/
theorem C127_error_partial (debug timer : Bool) (p : Params) (type : Option (List Char))
    (htype : dealiiSmoother debug true type = .ok .symmetricGaussSeidel) (dims : ℕ → ℕ)
    (procs : ∀ l, List (List (Fin (dims l)))) (hprocs : ∀ l, ListsAll (procs l).flatten)
    (A : Matrix (Fin (dims 0)) (Fin (dims 0)) K) (hA : IsSpd A)
    (R : ∀ l, Matrix (Fin (dims (l + 1))) (Fin (dims l)) K) (hR : ∀ l, IndependentRows (R l))
    (hweak : ∀ l : ℕ, l + 1 < (p.maxLevels.getD 2).toNat →
      WeaklyCoupled (coarseMatrix dims A R l) (procs l))
    (solve : ∀ l, Matrix (Fin (dims l)) (Fin (dims l)) K → (Fin (dims l) → K) → Fin (dims l) → K)
    (hsolve : ∀ l, SolvesExactly (solve l)) (hlev : 2 ≤ p.maxLevels.getD 2)
    (hfast : p.fastAp.getD false = false) (hpre : p.isPreconditioner.getD true = true)
    (hsteps : 0 < toUnsigned (p.nSmoothingSteps.getD 1)) (bound : K) (h0 : 0 ≤ bound) (hbound : BoundedBelow A bound) :
    ∃ H, (buildHierarchy debug timer (some p)
        (.ok (matrixHelpers debug type dims procs A R solve))).result = .ok H ∧
      ∀ fresh h, ErrorWithin A (fun tol2 b x => driverSolve debug A H fresh tol2 b x h) bound := by
  obtain ⟨H, _, hH, -, h⟩ := C92_symmetric_partial debug timer p type htype dims procs hprocs A hA R hR hweak solve hsolve
    hlev hfast hpre hsteps
  exact ⟨H, hH, fun fresh h' => errorWithin_of_solves (h fresh h').1 h0 hbound⟩

/-- The tolerance is absolute: whatever the hierarchy, the matrix, the right-hand side, the start and the tolerance, in
small enough units the program returns the start, after no step and without an error.  The system has the same solution
in all units. -/
theorem C127_units_violated (debug : Bool) {dims : ℕ → ℕ} (A : Matrix (Fin (dims 0)) (Fin (dims 0)) K)
    (fresh : ℕ → ∀ l, Fin (dims l) → K) (tol2 : K) (ht : 0 < tol2) (b x h : Fin (dims 0) → K) :
    ∃ c₀ : K, 0 < c₀ ∧ ∀ c, 0 < c → c ≤ c₀ →
      (∀ xs, A.mulVec xs = b → (c • A).mulVec xs = c • b) ∧
      ∀ H : Hierarchy fun l => Fin (dims l) → K, driverSolve debug (c • A) H fresh tol2 (c • b) x h = .ok (x, 0) := by
  have hg : 0 ≤ (A.mulVec x - b) ⬝ᵥ (A.mulVec x - b) := Finset.sum_nonneg fun i _ => mul_self_nonneg _
  refine ⟨min 1 (tol2 / ((A.mulVec x - b) ⬝ᵥ (A.mulVec x - b) + 1)), lt_min one_pos (by positivity), ?_⟩
  intro c hc hle
  refine ⟨fun xs hxs => by rw [Matrix.smul_mulVec, hxs], fun H => ?_⟩
  have h1 : c ≤ 1 := hle.trans (min_le_left _ _)
  have h2 : c * ((A.mulVec x - b) ⬝ᵥ (A.mulVec x - b) + 1) ≤ tol2 :=
    (le_div_iff₀ (by positivity)).1 (hle.trans (min_le_right _ _))
  have e : (c • A).mulVec x - c • b = c • (A.mulVec x - b) := by
    rw [Matrix.smul_mulVec, smul_sub]
  unfold driverSolve cgSolve
  simp only [e]
  rw [if_pos]
  · rfl
  · rw [smul_dotProduct, dotProduct_smul, smul_eq_mul, smul_eq_mul]
    generalize (A.mulVec x - b) ⬝ᵥ (A.mulVec x - b) = g at *
    nlinarith [mul_nonneg hc.le hg]

end

section examples

/-- Four processes, with the lower bound 2. -/
example : ∃ H, (buildHierarchy true false (some {})
      (.ok (matrixHelpers true none (twoDims 4) exFourProcs exRing (differenceRow 4)
        (fun l => exInvSolve l (twoDims 4))))).result = .ok H ∧
    ∀ fresh h, ErrorWithin exRing (fun tol2 b x => driverSolve (dims := twoDims 4) true exRing H fresh tol2 b x h) 2 :=
  C127_error_partial true false {} none rfl (twoDims 4) exFourProcs exFourProcs_all exRing exRing_stieltjes.1 _
    (fun l => differenceRow_independent 4 (by norm_num) l)
    (fun l hl => weaklyCoupled_stieltjes (exRing_levels l hl).1 (exFourProcs_all l)) _
    (fun l => exInvSolve_exact _ l) (by decide) rfl rfl (by decide) 2 (by norm_num) (by
      intro v
      change Fin 4 → ℚ at v
      change 2 * (v ⬝ᵥ v) ≤ v ⬝ᵥ exRing.mulVec v
      simp [exRing, Matrix.mulVec, dotProduct, Fin.sum_univ_four]
      nlinarith [sq_nonneg (v 0 - v 1), sq_nonneg (v 1 - v 2), sq_nonneg (v 2 - v 3), sq_nonneg (v 3 - v 0)])

/-- The start `(9, 9, 9, 9)` is returned for a system with the solution `(1, 1, 1, 1)`. -/
example := C127_units_violated true (dims := twoDims 4) exRing (fun _ _ => 0) (1 / 1000000000000) (by norm_num)
  (exRing.mulVec fun _ => 1) (fun _ => 9) 0

end examples

end Mfmg
