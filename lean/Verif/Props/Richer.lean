import Verif.Lemmas.Richer
import Verif.Props.ConjugateGradient
import Verif.Examples.SetupAll
import Mathlib.LinearAlgebra.Matrix.Notation

/-!
# C114: more eigenvectors and more smoothing steps
-/

set_option autoImplicit false

namespace Mfmg

open Spec Matrix

section cycles

variable {K : Type} [Field K] [LinearOrder K] [IsStrictOrderedRing K] {n : ℕ}

/-- Symmetric smoothers on any number of processes. -/
theorem smoother_selfAdjoint {debug : Bool} {type : Option (List Char)}
    (htype : dealiiSmoother debug true type = .ok .symmetricGaussSeidel ∨
      dealiiSmoother debug true type = .ok .jacobi) (procs : List (List (Fin n))) (hprocs : ListsAll procs.flatten)
    (A : Matrix (Fin n) (Fin n) K) (hA : IsSpd A) :
    ∃ k kind, dealiiSmoother debug true type = .ok k ∧ k.relaxation = some kind ∧
      ∀ N u v, (fun e => e - relaxVmult kind A procs (A.mulVec e))^[N] u ⬝ᵥ A.mulVec v
        = u ⬝ᵥ A.mulVec ((fun e => e - relaxVmult kind A procs (A.mulVec e))^[N] v) := by
  have key : ∀ kind, (∀ r s, relaxVmult kind A procs r ⬝ᵥ s = r ⬝ᵥ relaxVmult kind A procs s) →
      ∀ N u v, (fun e => e - relaxVmult kind A procs (A.mulVec e))^[N] u ⬝ᵥ A.mulVec v
        = u ⬝ᵥ A.mulVec ((fun e => e - relaxVmult kind A procs (A.mulVec e))^[N] v) := by
    intro kind h
    have h1 : ∀ u v, (u - relaxVmult kind A procs (A.mulVec u)) ⬝ᵥ A.mulVec v
        = u ⬝ᵥ A.mulVec (v - relaxVmult kind A procs (A.mulVec v)) := by
      intro u v
      rw [sub_dotProduct, Matrix.mulVec_sub, dotProduct_sub, h, form_symm hA.1 u (relaxVmult kind A procs (A.mulVec v)),
        dotProduct_comm (A.mulVec u)]
    intro N
    induction N with
    | zero => exact fun u v => rfl
    | succ N ih =>
      intro u v
      rw [Function.iterate_succ_apply, ih, Function.iterate_succ_apply', h1]
  rcases htype with h | h
  · exact ⟨_, _, h, rfl, key _ (C75_processes_symmetric procs hprocs A hA)⟩
  · exact ⟨_, _, h, rfl, key _ (jacobi_symmetric procs hprocs A)⟩

/-- Full claim: `LargerNotSlower` for every smoother.  Proved for symmetric Gauss-Seidel and Jacobi, on any number of
processes: whatever bound the cycles satisfy with some coarse space, they satisfy it with a larger one.  Missing:
Gauss-Seidel, see `C114_gaussSeidel_violated`. -/
theorem C114_rate_partial (debug timer : Bool) (p : Params) (type : Option (List Char))
    (htype : dealiiSmoother debug true type = .ok .symmetricGaussSeidel ∨
      dealiiSmoother debug true type = .ok .jacobi) (procs : List (List (Fin n))) (hprocs : ListsAll procs.flatten)
    (solve : ∀ m, Matrix (Fin m) (Fin m) K → (Fin m → K) → Fin m → K) (hsolve : ∀ m, SolvesExactly (solve m))
    (A : Matrix (Fin n) (Fin n) K) (hA : IsSpd A) (hlev : p.maxLevels.getD 2 = 2)
    (hfast : p.fastAp.getD false = false) (hpre : p.isPreconditioner = some false) :
    LargerNotSlower A (fun R => TwoLevelGives debug timer p type procs solve A R) := by
  obtain ⟨k, kind, hk, hk', hS⟩ := smoother_selfAdjoint htype procs hprocs A hA
  intro m m' R R' hR hR' hc c hc0 h
  have hx₀ : ∀ x : Fin n → K, x = if p.isPreconditioner.getD true then 0 else x := by simp [hpre]
  obtain ⟨N, hN⟩ : ∃ N, toUnsigned (p.nSmoothingSteps.getD 1) = N := ⟨_, rfl⟩
  have hS := hS N
  have hcyc : ∀ e, energyOf A ((fun e => e - relaxVmult kind A procs (A.mulVec e))^[N]
      (corrected A R ((fun e => e - relaxVmult kind A procs (A.mulVec e))^[N] e))) ≤ c * c * energyOf A e := by
    intro e
    obtain ⟨y, h1, h2⟩ := h 0 _ e rfl
    obtain ⟨y', h3, h4⟩ := twoLevelGives_err debug timer p type k kind hk hk' procs solve hsolve hA hR hlev hfast
      0 _ e rfl 0 (hx₀ 0)
    obtain rfl := twoLevelGives_unique h1 h3
    rw [h4, hN, sub_zero] at h2
    exact h2
  have hhalf := half_of_cycle hA hS (corrected_proj hA hR) hc0 hcyc
  have hbig := cycle_of_half hA hS (corrected_proj hA hR') hc0
    (fun e => (corrected_le hA hR' hc _).trans (hhalf e))
  intro x b xs hxs
  obtain ⟨y, h1, h2⟩ := twoLevelGives_err debug timer p type k kind hk hk' procs solve hsolve hA hR' hlev hfast
    x b xs hxs x (hx₀ x)
  refine ⟨y, h1, ?_⟩
  rw [h2, hN]
  exact hbig _

/-- The hierarchy as a preconditioner: the energy it finds is at most that of the solution, and grows with the coarse
space. -/
theorem C114_preconditioner_partial (debug timer : Bool) (p : Params) (type : Option (List Char))
    (htype : dealiiSmoother debug true type = .ok .symmetricGaussSeidel ∨
      dealiiSmoother debug true type = .ok .jacobi) (procs : List (List (Fin n))) (hprocs : ListsAll procs.flatten)
    (solve : ∀ m, Matrix (Fin m) (Fin m) K → (Fin m → K) → Fin m → K) (hsolve : ∀ m, SolvesExactly (solve m))
    (A : Matrix (Fin n) (Fin n) K) (hA : IsSpd A) (hlev : p.maxLevels.getD 2 = 2)
    (hfast : p.fastAp.getD false = false) (hpre : p.isPreconditioner.getD true = true) {m m' : ℕ}
    (R : Matrix (Fin m) (Fin n) K) (R' : Matrix (Fin m') (Fin n) K) (hR : IndependentRows R) (hR' : IndependentRows R')
    (hc : ContainsRows R' R) (x b xs : Fin n → K) (hxs : A.mulVec xs = b) :
    ∃ y y', TwoLevelGives debug timer p type procs solve A R x b y ∧
      TwoLevelGives debug timer p type procs solve A R' x b y' ∧ y ⬝ᵥ b ≤ y' ⬝ᵥ b ∧ y' ⬝ᵥ b ≤ xs ⬝ᵥ b := by
  obtain ⟨k, kind, hk, hk', hS⟩ := smoother_selfAdjoint htype procs hprocs A hA
  have hx₀ : (0 : Fin n → K) = if p.isPreconditioner.getD true then 0 else x := by simp [hpre]
  obtain ⟨y, h1, h2⟩ := twoLevelGives_err debug timer p type k kind hk hk' procs solve hsolve hA hR hlev hfast
    x b xs hxs 0 hx₀
  obtain ⟨y', h3, h4⟩ := twoLevelGives_err debug timer p type k kind hk hk' procs solve hsolve hA hR' hlev hfast
    x b xs hxs 0 hx₀
  have hS := hS (toUnsigned (p.nSmoothingSteps.getD 1))
  have e1 := cycle_form hS (corrected_proj hA hR) (xs - 0)
  have e2 := cycle_form hS (corrected_proj hA hR') (xs - 0)
  rw [← h2, sub_zero, hxs, sub_dotProduct] at e1
  rw [← h4, sub_zero, hxs, sub_dotProduct] at e2
  have h5 := corrected_le hA hR' hc ((fun e => e - relaxVmult kind A procs (A.mulVec e))^[toUnsigned (p.nSmoothingSteps.getD 1)] xs)
  have h6 := spd_nonneg hA (corrected A R' ((fun e => e - relaxVmult kind A procs (A.mulVec e))^[toUnsigned (p.nSmoothingSteps.getD 1)] xs))
  refine ⟨y, y', h1, h3, ?_, ?_⟩
  · linarith
  · linarith

/-- More smoothing steps: every bound of the cycle stays valid, with symmetric Gauss-Seidel and Gauss-Seidel. -/
theorem C114_steps (debug timer : Bool) (p : Params) (type : Option (List Char))
    (htype : dealiiSmoother debug true type = .ok .symmetricGaussSeidel ∨
      dealiiSmoother debug true type = .ok .gaussSeidel) (own : List (Fin n)) (hown : ListsAll own)
    (solve : ∀ m, Matrix (Fin m) (Fin m) K → (Fin m → K) → Fin m → K) (hsolve : ∀ m, SolvesExactly (solve m))
    (A : Matrix (Fin n) (Fin n) K) (hA : IsSpd A) (hlev : p.maxLevels.getD 2 = 2)
    (hfast : p.fastAp.getD false = false) (hpre : p.isPreconditioner = some false) {m : ℕ}
    (R : Matrix (Fin m) (Fin n) K) (hR : IndependentRows R) (steps : ℤ)
    (hsteps : toUnsigned (p.nSmoothingSteps.getD 1) ≤ toUnsigned steps) (c : K) (hc : 0 ≤ c)
    (h : ReducesBy A (TwoLevelGives debug timer p type [own] solve A R) c) :
    ReducesBy A (TwoLevelGives debug timer { p with nSmoothingSteps := some steps } type [own] solve A R) c := by
  obtain ⟨k, kind, hk, hk', hs⟩ : ∃ k kind, dealiiSmoother debug true type = .ok k ∧
      k.relaxation = some kind ∧ IsSweep kind := by
    rcases htype with h | h
    · exact ⟨_, _, h, rfl, by simp [IsSweep]⟩
    · exact ⟨_, _, h, rfl, by simp [IsSweep]⟩
  obtain ⟨d, hd⟩ := Nat.exists_eq_add_of_le hsteps
  have hx₀ : ∀ x : Fin n → K, x = if p.isPreconditioner.getD true then 0 else x := by simp [hpre]
  have hdec : ∀ (d : ℕ) (e : Fin n → K),
      energyOf A ((fun e => e - relaxVmult kind A [own] (A.mulVec e))^[d] e) ≤ energyOf A e := by
    intro d
    induction d with
    | zero => exact fun e => le_refl _
    | succ d ih =>
      intro e
      rw [Function.iterate_succ_apply]
      refine (ih _).trans ?_
      have h1 : e - relaxVmult kind A [own] (A.mulVec e) = (sweepRows kind own).foldl (errRow A) e :=
        err_relax hs A hown e
      simp only [h1]
      exact (energy_sweep hA _ e).1
  intro x b xs hxs
  obtain ⟨y, h1, h2⟩ := twoLevelGives_err debug timer { p with nSmoothingSteps := some steps } type k kind hk hk' [own]
    solve hsolve hA hR hlev hfast x b xs hxs x (hx₀ x)
  refine ⟨y, h1, ?_⟩
  obtain ⟨e', he'⟩ : ∃ e', (fun e => e - relaxVmult kind A [own] (A.mulVec e))^[d] (xs - x) = e' := ⟨_, rfl⟩
  obtain ⟨y₁, h3, h4⟩ := h 0 _ e' rfl
  obtain ⟨y₂, h5, h6⟩ := twoLevelGives_err debug timer p type k kind hk hk' [own] solve hsolve hA hR hlev hfast
    0 _ e' rfl 0 (hx₀ 0)
  obtain rfl := twoLevelGives_unique h3 h5
  rw [h6, sub_zero] at h4
  have e : toUnsigned (Option.getD ({ p with nSmoothingSteps := some steps } : Params).nSmoothingSteps 1)
      = d + toUnsigned (p.nSmoothingSteps.getD 1) := by
    rw [Nat.add_comm, ← hd]
    rfl
  rw [h2, e]
  have hsplit : (fun e => e - relaxVmult kind A [own] (A.mulVec e))^[d + toUnsigned (p.nSmoothingSteps.getD 1)] (xs - x)
      = (fun e => e - relaxVmult kind A [own] (A.mulVec e))^[toUnsigned (p.nSmoothingSteps.getD 1)] e' := by
    rw [Nat.add_comm, Function.iterate_add_apply, he']
  rw [hsplit, Function.iterate_add_apply]
  refine (hdec d _).trans (h4.trans (mul_le_mul_of_nonneg_left ?_ hc))
  rw [← he']
  exact hdec d _

end cycles

section setup

variable {K : Type} [Field K]

/-- The set-up with more vectors on the agglomerates, on any number of processes: the same agglomerates, and a
restriction matrix that contains the rows of the other one. -/
theorem C114_setup (debug dynAdds matrixFree : Bool) (dim : ℕ) (ap : AggParams) (strat : Strategy)
    (hap : dispatch dim ap = .ok strat) (ep : EigParams) (name : String) (hep : Selects matrixFree ep name)
    (procs procs' : List (ProcFem K)) (hm : List.Forall₂ (MoreVectors name) procs procs')
    (hs : ∀ q ∈ procs, q.share.Sound debug) (hq : ∀ q ∈ procs, q.Faithful name)
    (hs' : ∀ q ∈ procs', q.share.Sound debug) (hq' : ∀ q ∈ procs', q.Faithful name) (gdiag : ℕ → K) :
    ∃ (us : List UserIndex) (a a' : Assembled K) (m m' : ℕ),
      setupRestrictor debug dynAdds matrixFree dim ap ep gdiag (procs.map fun q => (q.share, fun _ => 0)) = .ok (us, a) ∧
      setupRestrictor debug dynAdds matrixFree dim ap ep gdiag (procs'.map fun q => (q.share, fun _ => 0)) = .ok (us, a') ∧
      (∀ r x, m ≤ r → a.R r x = 0) ∧ (∀ r x, m' ≤ r → a'.R r x = 0) ∧
      ∀ n, ContainsRows (a'.R.block m' n) (a.R.block m n) := by
  obtain ⟨rs, h1, h2⟩ := setupShares_spec hap hep procs hs hq
  obtain ⟨rs', h1', h2'⟩ := setupShares_spec hap hep procs' hs' hq'
  obtain ⟨a, h3, h4, h5⟩ := C20_rows debug dynAdds gdiag (rs.map Prod.snd) (setup_wf h2)
  obtain ⟨a', h3', h4', h5'⟩ := C20_rows debug dynAdds gdiag (rs'.map Prod.snd) (setup_wf h2')
  have hboth : rs'.map Prod.fst = rs.map Prod.fst ∧
      List.Forall₂ (fun c c' => c'.dofMap = c.dofMap ∧ c'.diag = c.diag ∧ c.eigenvectors <+: c'.eigenvectors)
        (rs.map Prod.snd).flatten (rs'.map Prod.snd).flatten := by
    clear h1 h1' h3 h4 h5 h3' h4' h5' hs hq hs' hq'
    induction hm generalizing rs rs' with
    | nil =>
      cases h2
      cases h2'
      exact ⟨rfl, .nil⟩
    | @cons q q' procs procs' hm _ ih =>
      cases h2 with
      | @cons _ r _ rs hr hrs =>
        cases h2' with
        | @cons _ r' _ rs' hr' hrs' =>
          obtain ⟨i1, i2⟩ := ih rs hrs rs' hrs'
          have e := hr'.2
          rw [hm.agglomerate, hr.2] at e
          obtain ⟨e1, e2⟩ := Prod.mk.inj (Outcome.ok.inj e)
          refine ⟨by rw [List.map_cons, List.map_cons, i1, e1], ?_⟩
          rw [List.map_cons, List.map_cons, List.flatten_cons, List.flatten_cons]
          exact List.rel_append (more_copies hm hr.1 (e1 ▸ hr'.1) e2.symm) i2
  have hok : ∀ (rs : List (UserIndex × List (CopyData K))) procs a,
      setupShares debug matrixFree dim ap ep procs = .ok (rs.map Prod.fst, rs.map fun r => collect r.2) →
      assembleAll debug dynAdds gdiag ((rs.map Prod.snd).map collect) = .ok a →
      setupRestrictor debug dynAdds matrixFree dim ap ep gdiag procs = .ok (rs.map Prod.fst, a) := by
    intro rs procs a h h'
    rw [List.map_map] at h'
    simp only [setupRestrictor, h, Outcome.ok_bind]
    rw [show (rs.map fun r => collect r.2) = rs.map (collect ∘ Prod.snd) from rfl, h']
    rfl
  refine ⟨rs.map Prod.fst, a, a', _, _, hok rs _ a h1 h3, hboth.1 ▸ hok rs' _ a' h1' h3',
    fun r x hr => h5 r hr x, fun r x hr => h5' r hr x, ?_⟩
  intro n
  have hrow : ∀ i : Fin (rowsOf (rs.map Prod.snd).flatten).length,
      ∃ j : Fin (rowsOf (rs'.map Prod.snd).flatten).length, ∀ x, a'.R j x = a.R i x := by
    intro i
    obtain ⟨⟨c, v⟩, hcv⟩ : ∃ cv, (rowsOf (rs.map Prod.snd).flatten)[i.val]? = some cv :=
      ⟨_, List.getElem?_eq_getElem i.isLt⟩
    obtain ⟨c', h6, h7, h8⟩ := more_rows hboth.2 (List.mem_of_getElem? hcv)
    obtain ⟨j, hj, hcv'⟩ := List.getElem_of_mem h6
    refine ⟨⟨j, hj⟩, ?_⟩
    intro x
    rw [h4 i c v hcv x, h4' j c' v (by rw [List.getElem?_eq_getElem hj, hcv']) x, h7, h8]
  choose f hf using hrow
  refine ⟨Matrix.of fun i j => if j = f i then 1 else 0, ?_⟩
  ext i x
  simp only [Matrix.mul_apply, Matrix.of_apply, ite_mul, one_mul, zero_mul, Finset.sum_ite_eq', Finset.mem_univ, if_true]
  exact (hf i x.val).symm

end setup

section violated

/-- A chain of three unknowns held in the middle. -/
def middleChain : Matrix (Fin 3) (Fin 3) ℚ := !![1, -1, 0; -1, 3, -1; 0, -1, 1]

theorem middleChain_spd : IsSpd middleChain := by
  refine ⟨by ext i j; fin_cases i <;> fin_cases j <;> rfl, ?_⟩
  intro v hv
  have e : v ⬝ᵥ middleChain.mulVec v = (v 0 - v 1) ^ 2 + (v 1 - v 2) ^ 2 + v 1 ^ 2 := by
    simp [middleChain, Matrix.mulVec, dotProduct, Fin.sum_univ_three]
    ring
  rw [e]
  by_contra h
  have h1 : v 1 = 0 := by nlinarith [sq_nonneg (v 0 - v 1), sq_nonneg (v 1 - v 2), sq_nonneg (v 1)]
  have h0 : v 0 = 0 := by
    rw [h1] at h
    nlinarith [sq_nonneg (v 0), sq_nonneg (v 2)]
  have h2 : v 2 = 0 := by
    rw [h1] at h
    nlinarith [sq_nonneg (v 0), sq_nonneg (v 2)]
  exact hv (by ext i; fin_cases i <;> assumption)

/-- The constant vector. -/
def onesRow : Matrix (Fin 1) (Fin 3) ℚ := !![1, 1, 1]

/-- The constant vector and the one in the middle. -/
def onesAndMiddle : Matrix (Fin 2) (Fin 3) ℚ := !![1, 1, 1; 0, 1, 0]

theorem onesRow_independent : IndependentRows onesRow := by
  intro y hy
  have := congrFun hy 0
  simp [onesRow, Matrix.mulVec, dotProduct] at this
  ext i
  fin_cases i
  exact this

theorem onesAndMiddle_independent : IndependentRows onesAndMiddle := by
  intro y hy
  have h0 := congrFun hy 0
  have h1 := congrFun hy 1
  simp [onesAndMiddle, Matrix.mulVec, dotProduct, Fin.sum_univ_two] at h0 h1
  ext i
  fin_cases i
  · exact h0
  · rw [h0] at h1
    simpa using h1

theorem onesAndMiddle_contains : ContainsRows onesAndMiddle onesRow :=
  ⟨!![1, 0], by ext i j; fin_cases i; fin_cases j <;> simp [onesRow, onesAndMiddle, Matrix.mul_apply, Fin.sum_univ_two]⟩

/-- Gauss-Seidel on the chain. -/
theorem middleChain_sweep (e : Fin 3 → ℚ) :
    e - relaxVmult .gaussSeidel middleChain [[0, 1, 2]] (middleChain.mulVec e)
      = ![e 1, (e 1 + e 2) / 3, (e 1 + e 2) / 3] := by
  have h : e - relaxVmult .gaussSeidel middleChain [[0, 1, 2]] (middleChain.mulVec e)
      = (sweepRows .gaussSeidel [0, 1, 2]).foldl (errRow middleChain) e :=
    err_relax (by simp [IsSweep]) middleChain (⟨by decide, by decide⟩ : ListsAll ([0, 1, 2] : List (Fin 3))) e
  rw [h]
  simp only [sweepRows, List.foldl_cons, List.foldl_nil]
  ext i
  fin_cases i <;>
    simp [errRow, middleChain, Matrix.mulVec, dotProduct, Fin.sum_univ_three, Pi.single_apply] <;> ring

/-- The full claim is violated with Gauss-Seidel: here one vector makes every cycle exact, two do not. -/
theorem C114_gaussSeidel_violated (debug timer : Bool) (type : Option (List Char))
    (htype : dealiiSmoother debug true type = .ok .gaussSeidel)
    (solve : ∀ m, Matrix (Fin m) (Fin m) ℚ → (Fin m → ℚ) → Fin m → ℚ) (hsolve : ∀ m, SolvesExactly (solve m)) :
    ¬ LargerNotSlower middleChain
      (fun R => TwoLevelGives debug timer { isPreconditioner := some false } type [[0, 1, 2]] solve middleChain R) := by
  intro h
  have hR := onesRow_independent
  have hR' := onesAndMiddle_independent
  have hc := onesAndMiddle_contains
  have hzero : ReducesBy middleChain
      (TwoLevelGives debug timer { isPreconditioner := some false } type [[0, 1, 2]] solve middleChain onesRow) (0 * 0) := by
    intro x b xs hxs
    obtain ⟨y, h1, h2⟩ := twoLevelGives_err debug timer { isPreconditioner := some false } type _ _ htype rfl [[0, 1, 2]]
      solve hsolve middleChain_spd hR rfl rfl x b xs hxs x rfl
    refine ⟨y, h1, ?_⟩
    obtain ⟨e, he⟩ : ∃ e, xs - x = e := ⟨_, rfl⟩
    have hq := corrected_eq middleChain_spd hR ![e 1, (e 1 + e 2) / 3, (e 1 + e 2) / 3] (z := ![(e 1 + e 2) / 3]) (by
      ext i
      fin_cases i
      simp [galerkin, onesRow, middleChain, Matrix.mulVec, dotProduct, Matrix.mul_apply, Fin.sum_univ_three]
      try ring)
    have h3 : xs - y = 0 := by
      rw [h2, he]
      change e - relaxVmult .gaussSeidel middleChain [[0, 1, 2]] (middleChain.mulVec e) |> fun w =>
        corrected middleChain onesRow w - relaxVmult .gaussSeidel middleChain [[0, 1, 2]]
          (middleChain.mulVec (corrected middleChain onesRow w)) = 0
      simp only [middleChain_sweep]
      rw [hq]
      ext i
      fin_cases i <;> simp [onesRow, Matrix.mulVec, dotProduct]
    rw [h3]
    simp [energyOf]
  obtain ⟨y, h1, h2⟩ := h onesRow onesAndMiddle hR hR' hc 0 le_rfl hzero 0 _ ![0, 3, 0] rfl
  obtain ⟨y', h3, h4⟩ := twoLevelGives_err debug timer { isPreconditioner := some false } type _ _ htype rfl [[0, 1, 2]]
      solve hsolve middleChain_spd hR' rfl rfl 0 _ ![0, 3, 0] rfl 0 rfl
  obtain rfl := twoLevelGives_unique h1 h3
  have hq := corrected_eq middleChain_spd hR' ![3, 1, 1] (z := ![2, -1]) (by
      ext i
      fin_cases i <;>
        simp [galerkin, onesAndMiddle, middleChain, Matrix.mulVec, dotProduct, Matrix.mul_apply, Fin.sum_univ_three,
          Fin.sum_univ_two] <;> norm_num)
  have h5 : ![0, 3, 0] - y = ![0, -1 / 3, -1 / 3] := by
    rw [h4, sub_zero]
    change ![0, 3, 0] - relaxVmult .gaussSeidel middleChain [[0, 1, 2]] (middleChain.mulVec ![0, 3, 0]) |> fun w =>
      corrected middleChain onesAndMiddle w - relaxVmult .gaussSeidel middleChain [[0, 1, 2]]
        (middleChain.mulVec (corrected middleChain onesAndMiddle w)) = _
    simp only [middleChain_sweep]
    have e : ![(![0, 3, 0] : Fin 3 → ℚ) 1, ((![0, 3, 0] : Fin 3 → ℚ) 1 + (![0, 3, 0] : Fin 3 → ℚ) 2) / 3,
        ((![0, 3, 0] : Fin 3 → ℚ) 1 + (![0, 3, 0] : Fin 3 → ℚ) 2) / 3] = ![3, 1, 1] := by
      ext i
      fin_cases i <;> simp
    rw [e, hq]
    ext i
    fin_cases i <;> simp [onesAndMiddle, Matrix.mulVec, dotProduct, Fin.sum_univ_two] <;> norm_num
  rw [h5] at h2
  simp [energyOf, middleChain, Matrix.mulVec, dotProduct, Fin.sum_univ_three] at h2
  norm_num at h2

/-- A chain of three unknowns held at one end. -/
def endChain : Matrix (Fin 3) (Fin 3) ℚ := !![2, -1, 0; -1, 2, -1; 0, -1, 1]

theorem endChain_spd : IsSpd endChain := by
  refine ⟨by ext i j; fin_cases i <;> fin_cases j <;> rfl, ?_⟩
  intro v hv
  have e : v ⬝ᵥ endChain.mulVec v = v 0 ^ 2 + (v 0 - v 1) ^ 2 + (v 1 - v 2) ^ 2 := by
    simp [endChain, Matrix.mulVec, dotProduct, Fin.sum_univ_three]
    ring
  rw [e]
  by_contra h
  have h0 : v 0 = 0 := by nlinarith [sq_nonneg (v 0 - v 1), sq_nonneg (v 1 - v 2), sq_nonneg (v 0)]
  have h1 : v 1 = 0 := by
    rw [h0] at h
    nlinarith [sq_nonneg (v 1), sq_nonneg (v 1 - v 2)]
  have h2 : v 2 = 0 := by
    rw [h0, h1] at h
    nlinarith [sq_nonneg (v 2)]
  exact hv (by ext i; fin_cases i <;> assumption)

/-- Symmetric Gauss-Seidel on the chain. -/
theorem endChain_sweep (e : Fin 3 → ℚ) :
    e - relaxVmult .symmetricGaussSeidel endChain [[0, 1, 2]] (endChain.mulVec e)
      = ![3 * e 1 / 16 + e 2 / 8, 3 * e 1 / 8 + e 2 / 4, e 1 / 4 + e 2 / 2] := by
  have h : e - relaxVmult .symmetricGaussSeidel endChain [[0, 1, 2]] (endChain.mulVec e)
      = (sweepRows .symmetricGaussSeidel [0, 1, 2]).foldl (errRow endChain) e :=
    err_relax (by simp [IsSweep]) endChain (⟨by decide, by decide⟩ : ListsAll ([0, 1, 2] : List (Fin 3))) e
  rw [h]
  simp only [sweepRows, List.reverse_cons, List.reverse_nil, List.nil_append, List.cons_append, List.foldl_cons,
    List.foldl_nil]
  ext i
  fin_cases i <;>
    simp [errRow, endChain, Matrix.mulVec, dotProduct, Fin.sum_univ_three, Pi.single_apply] <;> ring

/-- Nothing of this holds for single cycles: with a symmetric smoother too, a cycle can leave a larger error with two
vectors than with one. -/
theorem C114_single_violated (debug timer : Bool) (type : Option (List Char))
    (htype : dealiiSmoother debug true type = .ok .symmetricGaussSeidel)
    (solve : ∀ m, Matrix (Fin m) (Fin m) ℚ → (Fin m → ℚ) → Fin m → ℚ) (hsolve : ∀ m, SolvesExactly (solve m)) :
    ¬ LargerBetterEachTime endChain
      (fun R => TwoLevelGives debug timer { isPreconditioner := some false } type [[0, 1, 2]] solve endChain R) := by
  intro h
  have hR : IndependentRows (!![1, 0, 0] : Matrix (Fin 1) (Fin 3) ℚ) := by
    intro y hy
    have := congrFun hy 0
    simp [Matrix.mulVec, dotProduct] at this
    ext i
    fin_cases i
    exact this
  have hR' : IndependentRows (!![1, 0, 0; 0, 1, 0] : Matrix (Fin 2) (Fin 3) ℚ) := by
    intro y hy
    have h0 := congrFun hy 0
    have h1 := congrFun hy 1
    simp [Matrix.mulVec, dotProduct, Fin.sum_univ_two] at h0 h1
    ext i
    fin_cases i
    · exact h0
    · exact h1
  have hc : ContainsRows (!![1, 0, 0; 0, 1, 0] : Matrix (Fin 2) (Fin 3) ℚ) (!![1, 0, 0] : Matrix (Fin 1) (Fin 3) ℚ) :=
    ⟨!![1, 0], by ext i j; fin_cases i; fin_cases j <;> simp [Matrix.mul_apply, Fin.sum_univ_two]⟩
  obtain ⟨y, h1, h2⟩ := twoLevelGives_err debug timer { isPreconditioner := some false } type _ _ htype rfl [[0, 1, 2]]
    solve hsolve endChain_spd hR rfl rfl 0 _ ![0, -2, 3] rfl 0 rfl
  obtain ⟨y', h3, h4⟩ := twoLevelGives_err debug timer { isPreconditioner := some false } type _ _ htype rfl [[0, 1, 2]]
    solve hsolve endChain_spd hR' rfl rfl 0 _ ![0, -2, 3] rfl 0 rfl
  have h5 := h _ _ hR hR' hc 0 _ _ y y' rfl h1 h3
  have hq := corrected_eq endChain_spd hR ![0, 0, 1] (z := ![0]) (by
      ext i
      fin_cases i
      simp [galerkin, endChain, Matrix.mulVec, dotProduct, Fin.sum_univ_three])
  have hq' := corrected_eq endChain_spd hR' ![0, 0, 1] (z := ![-1 / 3, -2 / 3]) (by
      ext i
      fin_cases i <;>
        simp [galerkin, endChain, Matrix.mulVec, dotProduct, Matrix.mul_apply, Fin.sum_univ_three,
          Fin.sum_univ_two] <;> norm_num)
  have e : ![3 * (![0, -2, 3] : Fin 3 → ℚ) 1 / 16 + (![0, -2, 3] : Fin 3 → ℚ) 2 / 8,
      3 * (![0, -2, 3] : Fin 3 → ℚ) 1 / 8 + (![0, -2, 3] : Fin 3 → ℚ) 2 / 4,
      (![0, -2, 3] : Fin 3 → ℚ) 1 / 4 + (![0, -2, 3] : Fin 3 → ℚ) 2 / 2] = ![0, 0, 1] := by
    ext i
    fin_cases i <;> simp <;> norm_num
  have h6 : ![0, -2, 3] - y = ![1 / 8, 1 / 4, 1 / 2] := by
    rw [h2, sub_zero]
    change ![0, -2, 3] - relaxVmult .symmetricGaussSeidel endChain [[0, 1, 2]] (endChain.mulVec ![0, -2, 3]) |> fun w =>
      corrected endChain _ w - relaxVmult .symmetricGaussSeidel endChain [[0, 1, 2]]
        (endChain.mulVec (corrected endChain _ w)) = _
    simp only [endChain_sweep]
    rw [e, hq]
    ext i
    fin_cases i <;> simp [Matrix.mulVec, dotProduct]
  have h7 : ![0, -2, 3] - y' = ![1 / 4, 1 / 2, 2 / 3] := by
    rw [h4, sub_zero]
    change ![0, -2, 3] - relaxVmult .symmetricGaussSeidel endChain [[0, 1, 2]] (endChain.mulVec ![0, -2, 3]) |> fun w =>
      corrected endChain _ w - relaxVmult .symmetricGaussSeidel endChain [[0, 1, 2]]
        (endChain.mulVec (corrected endChain _ w)) = _
    simp only [endChain_sweep]
    rw [e, hq']
    ext i
    fin_cases i <;> simp [Matrix.mulVec, dotProduct, Fin.sum_univ_two] <;> norm_num
  rw [h6, h7] at h5
  simp [energyOf, endChain, Matrix.mulVec, dotProduct, Fin.sum_univ_three] at h5
  norm_num at h5

end violated

section examples

/-- A direct solver. -/
noncomputable def exInverse (m : ℕ) (M : Matrix (Fin m) (Fin m) ℚ) (b : Fin m → ℚ) : Fin m → ℚ := M⁻¹.mulVec b

theorem exInverse_exact (m : ℕ) : SolvesExactly (exInverse m) := fun _ b h => mulVec_inv h b

/-- Two processes, symmetric Gauss-Seidel; one coarse vector and two. -/
example (c : ℚ) (hc : 0 ≤ c)
    (h : ReducesBy endChain (TwoLevelGives true true { isPreconditioner := some false } none [[2, 0], [1]] exInverse
      endChain onesRow) (c * c)) :=
  C114_rate_partial true true { isPreconditioner := some false } none (Or.inl rfl) [[2, 0], [1]]
    ⟨by decide, by decide⟩ exInverse exInverse_exact endChain endChain_spd rfl rfl rfl onesRow onesAndMiddle
    onesRow_independent onesAndMiddle_independent onesAndMiddle_contains c hc h

example (x b xs : Fin 3 → ℚ) (h : endChain.mulVec xs = b) :=
  C114_preconditioner_partial true true {} none (Or.inl rfl) [[2, 0], [1]] ⟨by decide, by decide⟩ exInverse
    exInverse_exact endChain endChain_spd rfl rfl rfl onesRow onesAndMiddle onesRow_independent
    onesAndMiddle_independent onesAndMiddle_contains x b xs h

/-- From one step to three: a bound that every cycle satisfies. -/
example (h : ReducesBy endChain (TwoLevelGives true true { isPreconditioner := some false } none [[0, 1, 2]] exInverse
      endChain (1 : Matrix (Fin 3) (Fin 3) ℚ)) (1 / 2)) :=
  C114_steps true true { isPreconditioner := some false } none (Or.inl rfl) [0, 1, 2] ⟨by decide, by decide⟩ exInverse
    exInverse_exact endChain endChain_spd rfl rfl rfl (1 : Matrix (Fin 3) (Fin 3) ℚ) (by intro y hy; simpa using hy) 3
    (by decide) (1 / 2) (by norm_num) h

/-- The process of the example of C80 with a second vector on every agglomerate. -/
def rowFemTwo : ProcFem ℚ :=
  { rowFem lapMat 0 with
    share := { (rowFem lapMat 0).share with
      solver := fun cells name g => do
        let c ← (rowFem lapMat 0).share.solver cells name g
        .ok { c with eigenvalues := c.eigenvalues ++ [1]
                     eigenvectors := c.eigenvectors ++ [c.dofMap.map fun x : ℕ => (x : ℚ)] } } }

example (gdiag : ℕ → ℚ) :=
  C114_setup true false false 2 ⟨some "block", none, some 2, some 1, none⟩ (.block 2 1 1) (by decide +kernel)
    ⟨some "lanczos", false⟩ "lanczos" ⟨rfl, Or.inl rfl, by simp⟩ [rowFem lapMat 0] [rowFemTwo]
    (.cons ⟨rfl, fun _ _ _ _ => rfl, by
      intro cells c h
      cases h
      exact ⟨_, rfl, rfl, rfl, List.prefix_append _ _⟩⟩ .nil)
    (by simpa using rowFem_sound lapMat 0) (by simpa using rowFem_faithful lapMat 0 lapMat_support)
    (by
      simp only [List.mem_singleton, forall_eq]
      exact ⟨rfl, rfl, row4_sound, (rowFem_sound lapMat 0).forward, fun _ _ _ _ _ _ => rfl, fun _ _ _ => rfl,
        wsSequential_legal⟩)
    (by
      simp only [List.mem_singleton, forall_eq]
      refine ⟨lapMat_support, ?_⟩
      intro cells h1 h2 h3
      obtain ⟨c, e1, e2, e3, e4⟩ := (rowFem_faithful lapMat 0 lapMat_support).solves cells h1 h2 h3
      refine ⟨{ c with eigenvalues := c.eigenvalues ++ [1]
                       eigenvectors := c.eigenvectors ++ [c.dofMap.map fun x : ℕ => (x : ℚ)] }, ?_, ?_, e3, e4⟩
      · change ((rowFem lapMat 0).share.solver cells "lanczos" [] >>= fun c => _) = _
        rw [e1]
        rfl
      · obtain ⟨w1, w2, w3⟩ := e2
        refine ⟨w1, w2, ?_⟩
        intro v hv
        rcases List.mem_append.1 hv with hv | hv
        · exact w3 v hv
        · rw [List.mem_singleton.1 hv, List.length_map]) gdiag

end examples

end Mfmg
