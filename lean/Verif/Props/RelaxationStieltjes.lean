import Verif.Lemmas.RelaxationStieltjes
import Verif.Props.RelaxationProcs
import Verif.Props.Ilu

/-!
# Convergence for Stieltjes matrices on any number of processes, all relaxation smoothers (C75)
-/

set_option autoImplicit false

namespace Mfmg

open Spec

section

variable {K : Type} [Field K] [LinearOrder K] [IsStrictOrderedRing K]

/-- **C75**, Gauss-Seidel on any number of processes: one step decreases the energy of every nonzero error
exactly if the energy of every vector is less than the sum of the energies of its parts on the processes and
of its energy with respect to the diagonal. -/
theorem C75_gauss_seidel_iff {n : ℕ} (A : Matrix (Fin n) (Fin n) K) (hA : IsSpd A)
    (procs : List (List (Fin n))) (hprocs : ListsAll procs.flatten) :
    (∀ b x xs, A.mulVec xs = b → x ≠ xs →
      energyOf A (xs - dealiiSmootherApply .gaussSeidel procs (matrixOp A) b x) < energyOf A (xs - x)) ↔
    ∀ w : Fin n → K, w ≠ 0 → energyOf A w < ∑ i, A i i * w i ^ 2
      + (procs.map fun own => energyOf A (restrictTo own w)).sum := by
  constructor
  · intro h w hw
    have hinj : Function.Injective (relaxLin .gaussSeidel A procs) :=
      (injective_iff_map_eq_zero _).2 fun r hr => gs_injective hA hprocs hr
    obtain ⟨r, hr⟩ := LinearMap.injective_iff_surjective.1 hinj w
    have hr' : relaxVmult .gaussSeidel A procs r = w := hr
    set e := A⁻¹.mulVec r with he
    have hAe : A.mulVec e = r := mulVec_inv (spd_det hA) r
    have he0 : e ≠ 0 := by
      intro h0
      rw [h0, Matrix.mulVec_zero] at hAe
      apply hw
      rw [← hr, ← hAe, map_zero]
    have h1 := h (A.mulVec e) 0 e rfl (Ne.symm he0)
    rw [err_smoother .gaussSeidel procs A _ 0 e rfl, sub_zero, gs_energy hA hprocs, hAe, hr'] at h1
    linarith
  · intro h b x xs hxs hx
    rw [err_smoother .gaussSeidel procs A b x xs hxs, gs_energy hA hprocs]
    have hne : relaxVmult .gaussSeidel A procs (A.mulVec (xs - x)) ≠ 0 := fun h0 =>
      spd_mulVec_ne hA (sub_ne_zero.2 (Ne.symm hx)) (gs_injective hA hprocs h0)
    linarith [h _ hne]

/-- **C75**, one smoothing step for Stieltjes matrices: symmetric Gauss-Seidel (the default), Gauss-Seidel and
Jacobi decrease the energy of the error on any number of processes. -/
theorem C75_stieltjes_smoother_partial {n : ℕ} (kind : Relaxation) (procs : List (List (Fin n)))
    (hprocs : ListsAll procs.flatten) (A : Matrix (Fin n) (Fin n) K) (hA : IsStieltjes A)
    (b x xs : Fin n → K) (hxs : A.mulVec xs = b) (hx : x ≠ xs) :
    energyOf A (xs - dealiiSmootherApply kind procs (matrixOp A) b x) < energyOf A (xs - x) := by
  cases kind
  · exact C75_processes_smoother_partial procs hprocs A hA.1 (weaklyCoupled_stieltjes hA hprocs) b x xs hxs hx
  · exact (C75_gauss_seidel_iff A hA.1 procs hprocs).2 (gs_stieltjes hA hprocs) b x xs hxs hx
  · exact (C75_jacobi_iff A hA.1 procs (procs_count hprocs)).2 (jacobi_stieltjes hA) b x xs hxs hx

theorem stieltjes_decreases {n : ℕ} (kind : Relaxation) {procs : List (List (Fin n))}
    (hprocs : ListsAll procs.flatten) {A : Matrix (Fin n) (Fin n) K} (hA : IsStieltjes A)
    (e : Fin n → K) (he : e ≠ 0) :
    energyOf A (e - relaxVmult kind A procs (A.mulVec e)) < energyOf A e := by
  have h := C75_stieltjes_smoother_partial kind procs hprocs A hA (A.mulVec e) 0 e rfl (Ne.symm he)
  rwa [err_smoother kind procs A _ 0 e rfl, sub_zero] at h

/-- **C75**, the whole cycle for Stieltjes matrices: with any of the smoothers symmetric Gauss-Seidel (also by
default), Gauss-Seidel and Jacobi, any number of processes, two or more levels, at least one smoothing step,
restriction matrices of full rank and Stieltjes matrices on every level but the coarsest (with two levels:
the given matrix), construction succeeds and every standalone cycle decreases the energy of the error. -/
theorem C75_stieltjes_cycle_partial (debug timer : Bool) (p : Params) (type : Option (List Char))
    (k : SmootherKind) (hk : k ≠ .ilu) (htype : dealiiSmoother debug true type = .ok k) (dims : ℕ → ℕ)
    (procs : ∀ l, List (List (Fin (dims l)))) (hprocs : ∀ l, ListsAll (procs l).flatten)
    (A : Matrix (Fin (dims 0)) (Fin (dims 0)) K) (hA : IsSpd A)
    (R : ∀ l, Matrix (Fin (dims (l + 1))) (Fin (dims l)) K) (hR : ∀ l, IndependentRows (R l))
    (hst : ∀ l : ℕ, l + 1 < (p.maxLevels.getD 2).toNat → IsStieltjes (coarseMatrix dims A R l))
    (solve : ∀ l, Matrix (Fin (dims l)) (Fin (dims l)) K → (Fin (dims l) → K) → Fin (dims l) → K)
    (hsolve : ∀ l, SolvesExactly (solve l)) (hlev : 2 ≤ p.maxLevels.getD 2)
    (hfast : p.fastAp.getD false = false) (hpre : p.isPreconditioner = some false)
    (hsteps : 0 < toUnsigned (p.nSmoothingSteps.getD 1)) :
    ∃ H, (buildHierarchy debug timer (some p)
        (.ok (matrixHelpers debug type dims procs A R solve))).result = .ok H ∧
      ∀ fresh (x b xs : Fin (dims 0) → K), A.mulVec xs = b → x ≠ xs →
        ∃ y, (H.vmult fresh x b).result = .ok y ∧
          energyOf A (xs - y) < energyOf A (xs - x) := by
  obtain ⟨kind, hkind⟩ : ∃ kind, k.relaxation = some kind := by
    cases k
    · exact ⟨_, rfl⟩
    · exact ⟨_, rfl⟩
    · exact ⟨_, rfl⟩
    · exact absurd rfl hk
  obtain ⟨H, hH, _, _, _, h⟩ := cycle_decreases debug timer p type _ kind htype hkind dims procs A hA R hR solve
    hsolve hlev hfast hpre hsteps fun l hl e he => stieltjes_decreases kind (hprocs l) (hst l hl) e he
  exact ⟨H, hH, h⟩

/-- **C75**, used as a preconditioner for Stieltjes matrices: with symmetric Gauss-Seidel smoothing (also by
default) one cycle is a symmetric positive definite linear map on any number of processes. -/
theorem C75_stieltjes_preconditioner_partial (debug timer : Bool) (p : Params) (type : Option (List Char))
    (htype : dealiiSmoother debug true type = .ok .symmetricGaussSeidel) (dims : ℕ → ℕ)
    (procs : ∀ l, List (List (Fin (dims l)))) (hprocs : ∀ l, ListsAll (procs l).flatten)
    (A : Matrix (Fin (dims 0)) (Fin (dims 0)) K) (hA : IsSpd A)
    (R : ∀ l, Matrix (Fin (dims (l + 1))) (Fin (dims l)) K) (hR : ∀ l, IndependentRows (R l))
    (hst : ∀ l : ℕ, l + 1 < (p.maxLevels.getD 2).toNat → IsStieltjes (coarseMatrix dims A R l))
    (solve : ∀ l, Matrix (Fin (dims l)) (Fin (dims l)) K → (Fin (dims l) → K) → Fin (dims l) → K)
    (hsolve : ∀ l, SolvesExactly (solve l)) (hlev : 0 < p.maxLevels.getD 2)
    (hfast : p.fastAp.getD false = false) (hpre : p.isPreconditioner.getD true = true)
    (hsteps : 0 < toUnsigned (p.nSmoothingSteps.getD 1)) :
    ∃ H, (buildHierarchy debug timer (some p)
        (.ok (matrixHelpers debug type dims procs A R solve))).result = .ok H ∧
      ∃ M : Matrix (Fin (dims 0)) (Fin (dims 0)) K, IsSpd M ∧
        ∀ fresh x b, (H.vmult fresh x b).result = .ok (M.mulVec b) :=
  C75_processes_preconditioner_partial debug timer p type htype dims procs hprocs A hA R hR
    (fun l hl => weaklyCoupled_stieltjes (hst l hl) (hprocs l)) solve hsolve hlev hfast hpre hsteps

/-- **C75**, where it fails for Gauss-Seidel on two processes already: four unknowns that are all coupled by
`a`, `1 / 2 ≤ a < 1`, two on each process: some errors do not get smaller in a smoothing step. -/
theorem C75_gauss_seidel_violated (a : K) (h0 : 1 / 2 ≤ a) (h1 : a < 1) :
    IsSpd (uniformMatrix 4 a) ∧ ListsAll ([[0, 1], [2, 3]] : List (List (Fin 4))).flatten ∧
    ∃ b x xs, (uniformMatrix 4 a).mulVec xs = b ∧ x ≠ xs ∧
      energyOf (uniformMatrix 4 a) (xs - x) ≤ energyOf (uniformMatrix 4 a)
        (xs - dealiiSmootherApply .gaussSeidel [[0, 1], [2, 3]] (matrixOp (uniformMatrix 4 a)) b x) := by
  have hall : ListsAll ([[0, 1], [2, 3]] : List (List (Fin 4))).flatten := ⟨by decide, by decide⟩
  have hspd := uniformMatrix_spd 4 a (by linarith) h1
  refine ⟨hspd, hall, ?_⟩
  by_contra hn
  push Not at hn
  have h := (C75_gauss_seidel_iff _ hspd _ hall).1 hn (fun _ => 1) (by
    intro h
    have := congrFun h 0
    simp at this)
  simp [energyOf, restrictTo, uniformMatrix, dotProduct, Matrix.mulVec, Fin.sum_univ_four] at h
  linarith

end

/-- **C75**, rate of convergence for Stieltjes matrices on any number of processes. -/
theorem C75_stieltjes_rate_partial (debug timer : Bool) (p : Params) (type : Option (List Char))
    (k : SmootherKind) (hk : k ≠ .ilu) (htype : dealiiSmoother debug true type = .ok k) (dims : ℕ → ℕ)
    (procs : ∀ l, List (List (Fin (dims l)))) (hprocs : ∀ l, ListsAll (procs l).flatten)
    (A : Matrix (Fin (dims 0)) (Fin (dims 0)) ℝ) (hA : IsSpd A)
    (R : ∀ l, Matrix (Fin (dims (l + 1))) (Fin (dims l)) ℝ) (hR : ∀ l, IndependentRows (R l))
    (hst : ∀ l : ℕ, l + 1 < (p.maxLevels.getD 2).toNat → IsStieltjes (coarseMatrix dims A R l))
    (solve : ∀ l, Matrix (Fin (dims l)) (Fin (dims l)) ℝ → (Fin (dims l) → ℝ) → Fin (dims l) → ℝ)
    (hsolve : ∀ l, SolvesExactly (solve l)) (hlev : 2 ≤ p.maxLevels.getD 2)
    (hfast : p.fastAp.getD false = false) (hpre : p.isPreconditioner = some false)
    (hsteps : 0 < toUnsigned (p.nSmoothingSteps.getD 1)) :
    ∃ H, (buildHierarchy debug timer (some p)
        (.ok (matrixHelpers debug type dims procs A R solve))).result = .ok H ∧
      ∃ q : ℝ, 0 ≤ q ∧ q < 1 ∧ ∀ b xs, A.mulVec xs = b → ∀ x : ℕ → Fin (dims 0) → ℝ,
        (∀ m, ∃ fresh, (H.vmult fresh (x m) b).result = .ok (x (m + 1))) →
        ∀ m, energyOf A (xs - x m) ≤ q ^ m * energyOf A (xs - x 0) := by
  obtain ⟨kind, hkind⟩ : ∃ kind, k.relaxation = some kind := by
    cases k
    · exact ⟨_, rfl⟩
    · exact ⟨_, rfl⟩
    · exact ⟨_, rfl⟩
    · exact absurd rfl hk
  obtain ⟨H, hH, hlin, hp', hL2, hdec⟩ := cycle_decreases debug timer p type _ kind htype hkind dims procs A hA
    R hR solve hsolve hlev hfast hpre hsteps fun l hl e he =>
      stieltjes_decreases kind (hprocs l) (hst l hl) e he
  refine ⟨H, hH, ?_⟩
  set D := matrixData kind dims procs A R with hD
  set E : (Fin (dims 0) → ℝ) →ₗ[ℝ] (Fin (dims 0) → ℝ) :=
    LinearMap.id - (M D H.nSmoothingSteps (H.numLevels - 1) 0).comp (D.A 0) with hE
  have hv := fun fresh x b => vmult_sa H D hlin hp' hL2 fresh x b
  obtain ⟨q, h0, h1, h2⟩ := uniform_rate A hA E (by
    intro e he
    obtain ⟨y, hy, hlt⟩ := hdec 0 0 (A.mulVec e) e rfl (Ne.symm he)
    rw [hv] at hy
    rw [← Outcome.ok.inj hy, sub_zero, map_zero, sub_zero, zero_add] at hlt
    exact hlt)
  refine ⟨q, h0, h1, ?_⟩
  intro b xs hxs x hx m
  induction m with
  | zero => simp
  | succ m ih =>
    obtain ⟨fresh, hf⟩ := hx m
    rw [hv] at hf
    have herr : xs - x (m + 1) = E (xs - x m) := by
      rw [← Outcome.ok.inj hf, ← hxs]
      change xs - (x m + M D _ _ 0 (D.A 0 xs - D.A 0 (x m))) = (xs - x m) - M D _ _ 0 (D.A 0 (xs - x m))
      rw [map_sub (D.A 0), sub_sub]
    rw [herr]
    refine (h2 _).trans ?_
    rw [pow_succ', mul_assoc]
    exact mul_le_mul_of_nonneg_left ih h0

/-! ### Concrete cases -/

/-- Four processes with one unknown each: the same distribution as in `C75_cycle_violated`. -/
def exFourProcs : ∀ l, List (List (Fin (twoDims 4 l)))
  | 0 => [[(0 : Fin 4)], [(1 : Fin 4)], [(2 : Fin 4)], [(3 : Fin 4)]]
  | _ + 1 => [[], [], [(0 : Fin 1)], []]

theorem exFourProcs_all (l : ℕ) : ListsAll (exFourProcs l).flatten := by
  cases l with
  | zero =>
    change ListsAll (n := 4) [0, 1, 2, 3]
    exact ⟨by decide, by decide⟩
  | succ l =>
    change ListsAll (n := 1) [0]
    exact ⟨by decide, by decide⟩

example (kind : Relaxation) (x xs : Fin 4 → ℚ) (hx : x ≠ xs) :
    energyOf exRing (xs - dealiiSmootherApply kind [[0], [1], [2], [3]] (matrixOp exRing) (exRing.mulVec xs) x)
      < energyOf exRing (xs - x) :=
  C75_stieltjes_smoother_partial kind _ ⟨by decide, by decide⟩ _ exRing_stieltjes _ x xs rfl hx

/-- Jacobi. -/
example : ∃ H, (buildHierarchy true false (some { isPreconditioner := some false })
      (.ok (matrixHelpers true (some (chars! "Jacobi")) (twoDims 4) exFourProcs
        exRing (differenceRow 4) (fun l => exInvSolve l (twoDims 4))))).result = .ok H ∧
    ∀ fresh (x b xs : Fin 4 → ℚ), exRing.mulVec xs = b → x ≠ xs →
      ∃ y : Fin 4 → ℚ, (H.vmult fresh x b).result = .ok y ∧
        energyOf exRing (xs - y) < energyOf exRing (xs - x) :=
  C75_stieltjes_cycle_partial true false { isPreconditioner := some false } _ .jacobi (by decide) rfl
    (twoDims 4) exFourProcs exFourProcs_all exRing exRing_stieltjes.1 _
    (fun l => differenceRow_independent 4 (by norm_num) l) (fun l hl => (exRing_levels l hl).1) _
    (fun l => exInvSolve_exact _ l) (by decide) rfl rfl (by decide)

/-- The default smoother. -/
example : ∃ H, (buildHierarchy true false (some { nSmoothingSteps := some 2 })
      (.ok (matrixHelpers true none (twoDims 4) exFourProcs
        exRing (differenceRow 4) (fun l => exInvSolve l (twoDims 4))))).result = .ok H ∧
    ∃ M : Matrix (Fin 4) (Fin 4) ℚ, IsSpd M ∧
      ∀ fresh x b, (H.vmult fresh x b).result = .ok (M.mulVec b) :=
  C75_stieltjes_preconditioner_partial true false { nSmoothingSteps := some 2 } _ rfl (twoDims 4)
    exFourProcs exFourProcs_all exRing exRing_stieltjes.1 _
    (fun l => differenceRow_independent 4 (by norm_num) l) (fun l hl => (exRing_levels l hl).1) _
    (fun l => exInvSolve_exact _ l) (by decide) rfl rfl (by decide)

/-- Three quarters of a coupling on two processes. -/
example : ∃ b x xs, (uniformMatrix 4 (3 / 4 : ℚ)).mulVec xs = b ∧ x ≠ xs ∧
    energyOf (uniformMatrix 4 (3 / 4 : ℚ)) (xs - x) ≤ energyOf (uniformMatrix 4 (3 / 4 : ℚ))
      (xs - dealiiSmootherApply .gaussSeidel [[0, 1], [2, 3]] (matrixOp (uniformMatrix 4 (3 / 4))) b x) :=
  (C75_gauss_seidel_violated (3 / 4 : ℚ) (by norm_num) (by norm_num)).2.2

/-- The two-by-two Stieltjes matrix over the reals. -/
theorem exPair_stieltjes : IsStieltjes (Matrix.of ![![2, -1], ![-1, 2]] : Matrix (Fin 2) (Fin 2) ℝ) := by
  refine ⟨⟨?_, ?_⟩, ?_⟩
  · ext i j
    fin_cases i <;> fin_cases j <;> rfl
  · intro v hv
    have h : v ⬝ᵥ (Matrix.of ![![2, -1], ![-1, 2]] : Matrix (Fin 2) (Fin 2) ℝ).mulVec v
        = v 0 ^ 2 + v 1 ^ 2 + (v 0 - v 1) ^ 2 := by
      simp [dotProduct, Matrix.mulVec, Fin.sum_univ_two]
      ring
    rw [h]
    obtain ⟨i, hi⟩ := Function.ne_iff.1 hv
    have hi' : 0 < v i ^ 2 := by
      have : v i ≠ 0 := hi
      positivity
    have e : v i ^ 2 ≤ v 0 ^ 2 + v 1 ^ 2 := by
      have := Finset.single_le_sum (f := fun i => v i ^ 2) (fun i _ => sq_nonneg (v i)) (Finset.mem_univ i)
      rwa [Fin.sum_univ_two] at this
    have := sq_nonneg (v 0 - v 1)
    linarith
  · intro i j h
    fin_cases i <;> fin_cases j <;> first | exact absurd rfl h | norm_num

/-- One unknown on each of two processes, Gauss-Seidel. -/
def exPairProcs : ∀ l, List (List (Fin (twoDims 2 l)))
  | 0 => [[(1 : Fin 2)], [(0 : Fin 2)]]
  | _ + 1 => [[(0 : Fin 1)], []]

example : ∃ H, (buildHierarchy false true (some { isPreconditioner := some false })
      (.ok (matrixHelpers false (some (chars! "Gauss-Seidel")) (twoDims 2) exPairProcs
        (Matrix.of ![![2, -1], ![-1, 2]] : Matrix (Fin 2) (Fin 2) ℝ) (differenceRow 2)
        (fun l => exInvSolve l (twoDims 2))))).result = .ok H ∧
    ∃ q : ℝ, 0 ≤ q ∧ q < 1 ∧ ∀ b xs,
      (Matrix.of ![![2, -1], ![-1, 2]] : Matrix (Fin 2) (Fin 2) ℝ).mulVec xs = b →
      ∀ x : ℕ → Fin 2 → ℝ, (∀ m, ∃ fresh, (H.vmult fresh (x m) b).result = .ok (x (m + 1))) →
        ∀ m, energyOf (Matrix.of ![![2, -1], ![-1, 2]]) (xs - x m)
          ≤ q ^ m * energyOf (Matrix.of ![![2, -1], ![-1, 2]]) (xs - x 0) :=
  C75_stieltjes_rate_partial false true { isPreconditioner := some false } _ .gaussSeidel (by decide) rfl
    (twoDims 2) exPairProcs
    (fun l => by
      cases l with
      | zero => change ListsAll (n := 2) [1, 0]; exact ⟨by decide, by decide⟩
      | succ l => change ListsAll (n := 1) [0]; exact ⟨by decide, by decide⟩)
    _ exPair_stieltjes.1 _ (fun l => differenceRow_independent 2 (by norm_num) l)
    (fun l hl => by
      have hl2 : l + 1 < 2 := hl
      obtain rfl : l = 0 := by omega
      exact exPair_stieltjes) _
    (fun l => exInvSolve_exact _ l) (by decide) rfl rfl (by decide)

end Mfmg
