import Verif.Lemmas.ConjugateGradient
import Verif.Lemmas.Numbering
import Verif.Spec.ConjugateGradient
import Verif.Props.RelaxationStieltjes
import Verif.Props.Chebyshev

/-!
# C92: the hierarchy as a preconditioner of the conjugate gradient method

The claim: with `is preconditioner = true` the conjugate gradient method preconditioned with the hierarchy solves
every system with the given symmetric positive definite matrix in at most as many steps as there are unknowns,
and is at least as fast as the hierarchy on its own.
-/

set_option autoImplicit false

namespace Mfmg

open Spec

section

variable {K : Type} [Field K] [LinearOrder K] [IsStrictOrderedRing K]

/-- **C92**, from the preconditioner to the solver: if one cycle is a symmetric positive definite linear map, the
program solves every system; what is in the vectors the solver and the cycles make does not matter. -/
theorem C92_solves_partial (debug : Bool) {dims : ℕ → ℕ} (A : Matrix (Fin (dims 0)) (Fin (dims 0)) K)
    (hA : IsSpd A) (H : Hierarchy fun l => Fin (dims l) → K) (M : Matrix (Fin (dims 0)) (Fin (dims 0)) K)
    (hM : IsSpd M) (hH : ∀ fresh x b, (H.vmult fresh x b).result = .ok (M.mulVec b))
    (fresh : ℕ → ∀ l, Fin (dims l) → K) (h : Fin (dims 0) → K) :
    SolvesEverySystem A (fun tol2 b x => driverSolve debug A H fresh tol2 b x h) := by
  intro tol2 b x₀ ht
  obtain ⟨x, steps, h1, h2, h3, -⟩ := cgSolve_ok debug hA hM
    (prec := fun i h g => (H.vmult (fresh i) h g).result) (fun i h g => hH _ h g) (le_refl (dims 0)) ht b x₀ h
    (y := fun _ => x₀) (ω := fun _ => 0) rfl (fun j => by simp)
  exact ⟨x, steps, h1, h2, h3⟩

/-- **C92**: no iteration that adds multiples of the cycle applied to the residual is faster, whatever the
factors are. -/
theorem C92_best_partial (debug : Bool) {dims : ℕ → ℕ} (A : Matrix (Fin (dims 0)) (Fin (dims 0)) K)
    (hA : IsSpd A) (H : Hierarchy fun l => Fin (dims l) → K) (M : Matrix (Fin (dims 0)) (Fin (dims 0)) K)
    (hM : IsSpd M) (hH : ∀ fresh x b, (H.vmult fresh x b).result = .ok (M.mulVec b))
    (fresh : ℕ → ∀ l, Fin (dims l) → K) (h : Fin (dims 0) → K) :
    NotSlower A (fun tol2 b x => driverSolve debug A H fresh tol2 b x h)
      (fun b y y' => ∃ (ω : K) (fresh : ∀ l, Fin (dims l) → K) (z d : Fin (dims 0) → K),
        (H.vmult fresh z (b - A.mulVec y)).result = .ok d ∧ y' = y + ω • d) := by
  intro tol2 b x₀ x steps ht hx y hy0 hy xs hxs
  choose ω fresh' z d hd hyd using hy
  obtain ⟨x', steps', h1, h2, h3, h4, -⟩ := cgSolve_ok debug hA hM
    (prec := fun i h g => (H.vmult (fresh i) h g).result) (fun i h g => hH _ h g) (le_refl (dims 0)) ht b x₀ h
    (y := y) (ω := ω) hy0 (by
      intro j
      have e := hd j
      rw [hH] at e
      rw [hyd, Outcome.ok.inj e])
  have e := Outcome.ok.inj (h1.symm.trans hx)
  rw [Prod.mk.injEq] at e
  rw [← e.1, ← e.2]
  exact h4 xs hxs

/-- With a smoother that is symmetric and decreases the energy on every level but the coarsest, one cycle is a
symmetric positive definite map. -/
theorem preconditioner_of_decreasing (debug timer : Bool) (p : Params) (type : Option (List Char)) (k : SmootherKind)
    (kind : Relaxation) (hk : dealiiSmoother debug true type = .ok k) (hk' : k.relaxation = some kind)
    (dims : ℕ → ℕ) (procs : ∀ l, List (List (Fin (dims l))))
    (A : Matrix (Fin (dims 0)) (Fin (dims 0)) K) (hA : IsSpd A)
    (R : ∀ l, Matrix (Fin (dims (l + 1))) (Fin (dims l)) K) (hR : ∀ l, IndependentRows (R l))
    (solve : ∀ l, Matrix (Fin (dims l)) (Fin (dims l)) K → (Fin (dims l) → K) → Fin (dims l) → K)
    (hsolve : ∀ l, SolvesExactly (solve l)) (hlev : 0 < p.maxLevels.getD 2)
    (hfast : p.fastAp.getD false = false) (hpre : p.isPreconditioner.getD true = true)
    (hsteps : 0 < toUnsigned (p.nSmoothingSteps.getD 1))
    (hsymm : ∀ l x y, relaxVmult kind (coarseMatrix dims A R l) (procs l) x ⬝ᵥ y
      = x ⬝ᵥ relaxVmult kind (coarseMatrix dims A R l) (procs l) y)
    (hdec : ∀ l : ℕ, l + 1 < (p.maxLevels.getD 2).toNat → ∀ e : Fin (dims l) → K, e ≠ 0 →
      energyOf (coarseMatrix dims A R l)
        (e - relaxVmult kind (coarseMatrix dims A R l) (procs l) ((coarseMatrix dims A R l).mulVec e))
        < energyOf (coarseMatrix dims A R l) e) :
    ∃ H, (buildHierarchy debug timer (some p)
        (.ok (matrixHelpers debug type dims procs A R solve))).result = .ok H ∧
      IsLinear H (matrixData kind dims procs A R) ∧ H.isPreconditioner = true ∧
      H.numLevels = (p.maxLevels.getD 2).toNat ∧ H.nSmoothingSteps = toUnsigned (p.nSmoothingSteps.getD 1) ∧
      ∃ M : Matrix (Fin (dims 0)) (Fin (dims 0)) K, IsSpd M ∧
        ∀ fresh x b, (H.vmult fresh x b).result = .ok (M.mulVec b) := by
  obtain ⟨H, hH, hlin, hL, hp, hn⟩ := matrixHelpers_build debug timer p type _ _ hk hk' dims
    procs A hA R hR solve hsolve hlev hfast
  have hp' : H.isPreconditioner = true := by rw [hp, hpre]
  refine ⟨H, hH, hlin, hp', by omega, hn, ?_⟩
  set D := matrixData kind dims procs A R with hD
  set φ : Forms K (fun l => Fin (dims l) → K) := fun l => dotForm (dims l) with hφ
  have hchain := matrixData_chain kind dims procs A hA R hR H.numLevels
  have hspd := coarseMatrix_spd dims A hA R hR
  have hsym : Symmetric D φ H.numLevels := by
    refine ⟨hchain.form, hchain.A, ?_, hchain.RP, ?_⟩
    · intro l _ x y
      exact hsymm l x y
    · intro l _ x y
      have hi : ((coarseMatrix dims A R l)⁻¹).transpose = (coarseMatrix dims A R l)⁻¹ := by
        rw [Matrix.transpose_nonsing_inv, (hspd l).1]
      change (coarseMatrix dims A R l)⁻¹.mulVec x ⬝ᵥ y = x ⬝ᵥ (coarseMatrix dims A R l)⁻¹.mulVec y
      rw [dotProduct_comm, form_symm hi]
  have hinv : ∀ l (x : Fin (dims l) → K), x ≠ 0 → (coarseMatrix dims A R l)⁻¹.mulVec x ≠ 0 := by
    intro l x hx h
    have := mulVec_inv (spd_det (hspd l)) x
    rw [h, Matrix.mulVec_zero] at this
    exact hx this.symm
  have hB : ∀ l, l + 1 < H.numLevels → SmootherStrictlyConvergent D φ l := by
    intro l hl x hx
    set w := D.B l x with hw
    have h1 : φ l (2 • w - D.B l (D.A l w)) x = 2 * (w ⬝ᵥ x) - w ⬝ᵥ (coarseMatrix dims A R l).mulVec w := by
      rw [map_sub, LinearMap.sub_apply, hsym.B l hl, ← hw, map_nsmul, LinearMap.smul_apply]
      change 2 • (w ⬝ᵥ x) - (coarseMatrix dims A R l).mulVec w ⬝ᵥ w = _
      rw [dotProduct_comm w ((coarseMatrix dims A R l).mulVec w), two_nsmul, two_mul]
    rw [h1]
    have h2 := hdec l (by omega) _ (hinv l x hx)
    rw [mulVec_inv (spd_det (hspd l)) x] at h2
    have h3 := energy_gain (hspd l).1 ((coarseMatrix dims A R l)⁻¹.mulVec x)
      (relaxVmult kind (coarseMatrix dims A R l) (procs l) x)
    rw [mulVec_inv (spd_det (hspd l)) x] at h3
    have h4 : relaxVmult kind (coarseMatrix dims A R l) (procs l) x = w := rfl
    rw [h4] at h2 h3
    linarith
  have hC : ∀ l, l + 1 = H.numLevels → ∀ x, x ≠ 0 → 0 < φ l (D.C l x) x := by
    intro l _ x hx
    have := (hspd l).2 _ (hinv l x hx)
    rw [mulVec_inv (spd_det (hspd l)) x] at this
    exact this
  refine ⟨LinearMap.toMatrix' (Spec.M D H.nSmoothingSteps (H.numLevels - 1) 0), ?_, ?_⟩
  · refine ⟨?_, ?_⟩
    · ext i j
      obtain ⟨mb, mc, h1, h2, h3⟩ := C05_preconditioner_symmetric H D hlin hp' φ hsym 0
        (Pi.single i 1) (Pi.single j 1)
      have h1' := h1 0
      have h2' := h2 0
      rw [vmult_pre H D hlin hp'] at h1' h2'
      rw [← Outcome.ok.inj h1', ← Outcome.ok.inj h2'] at h3
      have h4 : Spec.M D H.nSmoothingSteps (H.numLevels - 1) 0 (Pi.single i 1) ⬝ᵥ Pi.single j 1
          = Pi.single i 1 ⬝ᵥ Spec.M D H.nSmoothingSteps (H.numLevels - 1) 0 (Pi.single j 1) := h3
      rw [Matrix.transpose_apply, LinearMap.toMatrix'_apply, LinearMap.toMatrix'_apply]
      simpa using h4
    · intro v hv
      obtain ⟨mb, h1, h2⟩ := C52_preconditioner_positive_definite H D hlin hp' φ hsym (by omega) hB hC
        0 v hv
      have h3 := h1 0
      rw [vmult_pre H D hlin hp'] at h3
      rw [LinearMap.toMatrix'_mulVec, Outcome.ok.inj h3, dotProduct_comm]
      exact h2
  · intro fresh x b
    rw [vmult_pre H D hlin hp', LinearMap.toMatrix'_mulVec]

/-- The hierarchy as a preconditioner and on its own. -/
theorem cg_of_decreasing (debug timer : Bool) (p : Params) (type : Option (List Char)) (k : SmootherKind)
    (kind : Relaxation) (hk : dealiiSmoother debug true type = .ok k) (hk' : k.relaxation = some kind)
    (dims : ℕ → ℕ) (procs : ∀ l, List (List (Fin (dims l))))
    (A : Matrix (Fin (dims 0)) (Fin (dims 0)) K) (hA : IsSpd A)
    (R : ∀ l, Matrix (Fin (dims (l + 1))) (Fin (dims l)) K) (hR : ∀ l, IndependentRows (R l))
    (solve : ∀ l, Matrix (Fin (dims l)) (Fin (dims l)) K → (Fin (dims l) → K) → Fin (dims l) → K)
    (hsolve : ∀ l, SolvesExactly (solve l)) (hlev : 2 ≤ p.maxLevels.getD 2)
    (hfast : p.fastAp.getD false = false) (hpre : p.isPreconditioner.getD true = true)
    (hsteps : 0 < toUnsigned (p.nSmoothingSteps.getD 1))
    (hsymm : ∀ l x y, relaxVmult kind (coarseMatrix dims A R l) (procs l) x ⬝ᵥ y
      = x ⬝ᵥ relaxVmult kind (coarseMatrix dims A R l) (procs l) y)
    (hdec : ∀ l : ℕ, l + 1 < (p.maxLevels.getD 2).toNat → ∀ e : Fin (dims l) → K, e ≠ 0 →
      energyOf (coarseMatrix dims A R l)
        (e - relaxVmult kind (coarseMatrix dims A R l) (procs l) ((coarseMatrix dims A R l).mulVec e))
        < energyOf (coarseMatrix dims A R l) e) :
    ∃ H Hs, (buildHierarchy debug timer (some p)
        (.ok (matrixHelpers debug type dims procs A R solve))).result = .ok H ∧
      (buildHierarchy debug timer (some { p with isPreconditioner := some false })
        (.ok (matrixHelpers debug type dims procs A R solve))).result = .ok Hs ∧
      ∀ fresh h, SolvesEverySystem A (fun tol2 b x => driverSolve debug A H fresh tol2 b x h) ∧
        NotSlower A (fun tol2 b x => driverSolve debug A H fresh tol2 b x h)
          (fun b y y' => ∃ fresh, (Hs.vmult fresh y b).result = .ok y') := by
  obtain ⟨H, hH, hlin, hp, hL, hn, M, hM, hv⟩ := preconditioner_of_decreasing debug timer p type k kind hk hk' dims
    procs A hA R hR solve hsolve (by omega) hfast hpre hsteps hsymm hdec
  obtain ⟨Hs, hHs, hlins, hLs, hps, hns⟩ := matrixHelpers_build debug timer
    { p with isPreconditioner := some false } type _ _ hk hk' dims procs A hA R hR solve hsolve
    (by change 0 < p.maxLevels.getD 2; omega) hfast
  refine ⟨H, Hs, hH, hHs, fun fresh h => ⟨C92_solves_partial debug A hA H M hM hv fresh h, ?_⟩⟩
  intro tol2 b x₀ x steps ht hx y hy0 hy xs hxs
  refine C92_best_partial debug A hA H M hM hv fresh h tol2 b x₀ x steps ht hx y hy0 ?_ xs hxs
  intro m
  obtain ⟨f, hf⟩ := hy m
  have hLs' : Hs.numLevels = H.numLevels := by
    rw [hL]
    change _ = ((({ p with isPreconditioner := some false } : Params)).maxLevels.getD 2).toNat
    omega
  have hns' : Hs.nSmoothingSteps = H.nSmoothingSteps := by rw [hn, hns]
  rw [vmult_sa Hs _ hlins (by rw [hps]; rfl) (by omega), hLs', hns'] at hf
  refine ⟨1, f, 0, _, vmult_pre H _ hlin hp f 0 _, ?_⟩
  rw [one_smul, ← Outcome.ok.inj hf]
  rfl

/-- **C92**, symmetric Gauss-Seidel smoothing (also by default): with two or more levels, at least one smoothing
step, restriction matrices of full rank and weak coupling of the processes on every level but the coarsest,
construction succeeds, the program solves every system and is at least as fast as the same hierarchy with
`is preconditioner = false`. -/
theorem C92_symmetric_partial (debug timer : Bool) (p : Params) (type : Option (List Char))
    (htype : dealiiSmoother debug true type = .ok .symmetricGaussSeidel) (dims : ℕ → ℕ)
    (procs : ∀ l, List (List (Fin (dims l)))) (hprocs : ∀ l, ListsAll (procs l).flatten)
    (A : Matrix (Fin (dims 0)) (Fin (dims 0)) K) (hA : IsSpd A)
    (R : ∀ l, Matrix (Fin (dims (l + 1))) (Fin (dims l)) K) (hR : ∀ l, IndependentRows (R l))
    (hweak : ∀ l : ℕ, l + 1 < (p.maxLevels.getD 2).toNat →
      WeaklyCoupled (coarseMatrix dims A R l) (procs l))
    (solve : ∀ l, Matrix (Fin (dims l)) (Fin (dims l)) K → (Fin (dims l) → K) → Fin (dims l) → K)
    (hsolve : ∀ l, SolvesExactly (solve l)) (hlev : 2 ≤ p.maxLevels.getD 2)
    (hfast : p.fastAp.getD false = false) (hpre : p.isPreconditioner.getD true = true)
    (hsteps : 0 < toUnsigned (p.nSmoothingSteps.getD 1)) :
    ∃ H Hs, (buildHierarchy debug timer (some p)
        (.ok (matrixHelpers debug type dims procs A R solve))).result = .ok H ∧
      (buildHierarchy debug timer (some { p with isPreconditioner := some false })
        (.ok (matrixHelpers debug type dims procs A R solve))).result = .ok Hs ∧
      ∀ fresh h, SolvesEverySystem A (fun tol2 b x => driverSolve debug A H fresh tol2 b x h) ∧
        NotSlower A (fun tol2 b x => driverSolve debug A H fresh tol2 b x h)
          (fun b y y' => ∃ fresh, (Hs.vmult fresh y b).result = .ok y') :=
  cg_of_decreasing debug timer p type _ _ htype rfl dims procs A hA R hR solve hsolve hlev hfast hpre hsteps
    (fun l => C75_processes_symmetric (procs l) (hprocs l) _ (coarseMatrix_spd dims A hA R hR l))
    fun l hl e he => sgs_decreases (coarseMatrix_spd dims A hA R hR l) (hprocs l) (hweak l hl) e he

/-- **C92**, one or two processes: no condition on the matrix but that it is symmetric positive definite. -/
theorem C92_two_processes_partial (debug timer : Bool) (p : Params) (type : Option (List Char))
    (htype : dealiiSmoother debug true type = .ok .symmetricGaussSeidel) (dims : ℕ → ℕ)
    (procs : ∀ l, List (List (Fin (dims l)))) (hprocs : ∀ l, ListsAll (procs l).flatten)
    (htwo : ∀ l, (procs l).length ≤ 2)
    (A : Matrix (Fin (dims 0)) (Fin (dims 0)) K) (hA : IsSpd A)
    (R : ∀ l, Matrix (Fin (dims (l + 1))) (Fin (dims l)) K) (hR : ∀ l, IndependentRows (R l))
    (solve : ∀ l, Matrix (Fin (dims l)) (Fin (dims l)) K → (Fin (dims l) → K) → Fin (dims l) → K)
    (hsolve : ∀ l, SolvesExactly (solve l)) (hlev : 2 ≤ p.maxLevels.getD 2)
    (hfast : p.fastAp.getD false = false) (hpre : p.isPreconditioner.getD true = true)
    (hsteps : 0 < toUnsigned (p.nSmoothingSteps.getD 1)) :
    ∃ H Hs, (buildHierarchy debug timer (some p)
        (.ok (matrixHelpers debug type dims procs A R solve))).result = .ok H ∧
      (buildHierarchy debug timer (some { p with isPreconditioner := some false })
        (.ok (matrixHelpers debug type dims procs A R solve))).result = .ok Hs ∧
      ∀ fresh h, SolvesEverySystem A (fun tol2 b x => driverSolve debug A H fresh tol2 b x h) ∧
        NotSlower A (fun tol2 b x => driverSolve debug A H fresh tol2 b x h)
          (fun b y y' => ∃ fresh, (Hs.vmult fresh y b).result = .ok y') :=
  C92_symmetric_partial debug timer p type htype dims procs hprocs A hA R hR
    (fun l _ => weaklyCoupled_two (coarseMatrix_spd dims A hA R hR l) (hprocs l) (htwo l)) solve hsolve
    hlev hfast hpre hsteps

theorem jacobi_symmetric {n : ℕ} (procs : List (List (Fin n))) (hprocs : ListsAll procs.flatten)
    (A : Matrix (Fin n) (Fin n) K) (r s : Fin n → K) :
    relaxVmult .jacobi A procs r ⬝ᵥ s = r ⬝ᵥ relaxVmult .jacobi A procs s := by
  rw [relaxVmult_jacobi_all hprocs, relaxVmult_jacobi_all hprocs]
  unfold dotProduct
  exact Finset.sum_congr rfl fun i _ => by ring

/-- **C92**, Stieltjes matrices on any number of processes, symmetric Gauss-Seidel or Jacobi smoothing. -/
theorem C92_stieltjes_partial (debug timer : Bool) (p : Params) (type : Option (List Char))
    (htype : dealiiSmoother debug true type = .ok .symmetricGaussSeidel ∨
      dealiiSmoother debug true type = .ok .jacobi) (dims : ℕ → ℕ)
    (procs : ∀ l, List (List (Fin (dims l)))) (hprocs : ∀ l, ListsAll (procs l).flatten)
    (A : Matrix (Fin (dims 0)) (Fin (dims 0)) K) (hA : IsSpd A)
    (R : ∀ l, Matrix (Fin (dims (l + 1))) (Fin (dims l)) K) (hR : ∀ l, IndependentRows (R l))
    (hst : ∀ l : ℕ, l + 1 < (p.maxLevels.getD 2).toNat → IsStieltjes (coarseMatrix dims A R l))
    (solve : ∀ l, Matrix (Fin (dims l)) (Fin (dims l)) K → (Fin (dims l) → K) → Fin (dims l) → K)
    (hsolve : ∀ l, SolvesExactly (solve l)) (hlev : 2 ≤ p.maxLevels.getD 2)
    (hfast : p.fastAp.getD false = false) (hpre : p.isPreconditioner.getD true = true)
    (hsteps : 0 < toUnsigned (p.nSmoothingSteps.getD 1)) :
    ∃ H Hs, (buildHierarchy debug timer (some p)
        (.ok (matrixHelpers debug type dims procs A R solve))).result = .ok H ∧
      (buildHierarchy debug timer (some { p with isPreconditioner := some false })
        (.ok (matrixHelpers debug type dims procs A R solve))).result = .ok Hs ∧
      ∀ fresh h, SolvesEverySystem A (fun tol2 b x => driverSolve debug A H fresh tol2 b x h) ∧
        NotSlower A (fun tol2 b x => driverSolve debug A H fresh tol2 b x h)
          (fun b y y' => ∃ fresh, (Hs.vmult fresh y b).result = .ok y') := by
  rcases htype with htype | htype
  · exact cg_of_decreasing debug timer p type _ _ htype rfl dims procs A hA R hR solve hsolve hlev hfast hpre hsteps
      (fun l => C75_processes_symmetric (procs l) (hprocs l) _ (coarseMatrix_spd dims A hA R hR l))
      fun l hl e he => stieltjes_decreases _ (hprocs l) (hst l hl) e he
  · exact cg_of_decreasing debug timer p type _ _ htype rfl dims procs A hA R hR solve hsolve hlev hfast hpre hsteps
      (fun l => jacobi_symmetric (procs l) (hprocs l) _)
      fun l hl e he => stieltjes_decreases _ (hprocs l) (hst l hl) e he

/-- **C92**, where it fails: a hierarchy made with `is preconditioner = false` as the preconditioner.  Its cycles
start from the vector they are given, which `SolverCG` does not initialise.  Unless a cycle is an exact solver,
there is for every start and every tolerance a system, and a content of that vector, for which the solver gives
up; the hierarchy does not notice. -/
theorem C92_standalone_violated (debug : Bool) {dims : ℕ → ℕ} (A : Matrix (Fin (dims 0)) (Fin (dims 0)) K)
    (H : Hierarchy fun l => Fin (dims l) → K) (D : Data K fun l => Fin (dims l) → K)
    (hlin : IsLinear H D) (hDA : ∀ x, D.A 0 x = A.mulVec x) (hpre : H.isPreconditioner = false)
    (hL : 2 ≤ H.numLevels) (z e : Fin (dims 0) → K) (f : ∀ l, Fin (dims l) → K)
    (hz : (H.vmult f z 0).result = .ok e) (he : e ≠ 0)
    (fresh : ℕ → ∀ l, Fin (dims l) → K) (x₀ : Fin (dims 0) → K) (tol2 : K) :
    ∃ b h msg, driverSolve debug A H fresh tol2 b x₀ h = .throws msg := by
  have hv := fun fresh x b => vmult_sa H D hlin hpre hL fresh x b
  generalize hB : Spec.M D H.nSmoothingSteps (H.numLevels - 1) 0 = B at hv
  have hee : 0 < e ⬝ᵥ e := by
    by_contra hn
    exact he (dot_self_eq_zero (not_lt.1 hn))
  have hez : z - B (A.mulVec z) = e := by
    rw [hv, zero_sub, map_neg, hDA] at hz
    rw [← Outcome.ok.inj hz, sub_eq_add_neg]
  -- a multiple of `e` as residual
  obtain ⟨g, hc2, hge⟩ : ∃ g : Fin (dims 0) → K, tol2 < g ⬝ᵥ g ∧ g ⬝ᵥ e ≠ 0 := by
    refine ⟨(1 + |tol2| / (e ⬝ᵥ e)) • e, ?_, ?_⟩
    · rw [smul_dotProduct, dotProduct_smul, smul_eq_mul, smul_eq_mul]
      have h1 : (1 + |tol2| / (e ⬝ᵥ e)) * (e ⬝ᵥ e) = e ⬝ᵥ e + |tol2| := by field_simp
      rw [h1]
      have h2 := le_abs_self tol2
      have h3 : 0 ≤ |tol2| / (e ⬝ᵥ e) := by positivity
      nlinarith [mul_nonneg h3 (add_pos_of_pos_of_nonneg hee (abs_nonneg tol2)).le]
    · rw [smul_dotProduct, smul_eq_mul]
      have h1 : 0 < 1 + |tol2| / (e ⬝ᵥ e) := by positivity
      exact (mul_pos h1 hee).ne'
  -- the content of the temporary vector that makes the first product zero
  set t := -(g ⬝ᵥ B g) / (g ⬝ᵥ e) with ht
  have hfirst : ∀ i, (H.vmult (fresh i) (t • z) g).result = .ok (t • e + B g) := by
    intro i
    rw [hv, map_sub, hDA, Matrix.mulVec_smul, map_smul, ← hez, smul_sub]
    congr 1
    abel
  have hzero : g ⬝ᵥ (t • e + B g) = 0 := by
    rw [dotProduct_add, dotProduct_smul, smul_eq_mul, ht, div_mul_cancel₀ _ hge, neg_add_cancel]
  have hres : A.mulVec x₀ - (A.mulVec x₀ - g) = g := by abel
  obtain ⟨n, hn⟩ : ∃ n, dims 0 = n + 1 := by
    cases h0 : dims 0 with
    | zero =>
      exfalso
      apply he
      funext i
      exact absurd i.2 (by omega)
    | succ n => exact ⟨n, rfl⟩
  refine ⟨A.mulVec x₀ - g, t • z, ?_⟩
  unfold driverSolve cgSolve
  simp only [hres, not_le.2 hc2, if_false, hfirst, Outcome.ok_bind, hzero]
  generalize hd : -(t • e + B g) = d
  have hdz : ∀ α, ∃ msg, (cgDivisionByZero debug : Outcome α) = .throws msg := by
    intro α
    cases debug
    · exact ⟨_, rfl⟩
    · exact ⟨_, rfl⟩
  rw [if_neg (by omega)]
  have hloop : ∀ k, ∃ msg, cgLoop debug A (fun i h g => (H.vmult (fresh i) h g).result) tol2 (k + 1) 0 x₀ g d 0
      = .throws msg := by
    intro k
    rw [cgLoop]
    by_cases h0 : d ⬝ᵥ A.mulVec d = 0
    · simp only [h0, if_true]
      exact hdz _
    · simp only [h0, if_false, zero_div, zero_smul, add_zero, not_le.2 hc2]
      by_cases hk : k = 0
      · simp only [hk, if_true]
        exact ⟨_, rfl⟩
      · simp only [hk, if_false, hv, Outcome.ok_bind, if_true]
        exact hdz _
  obtain ⟨msg, h⟩ := hloop n
  refine ⟨msg, ?_⟩
  rw [← h]
  congr 1

/-- **C92**, where it fails: without smoothing steps (accepted by the library) and with fewer unknowns on the coarse
level, the cycle maps some residuals to zero: for every start and tolerance there is a system for which the solver
divides by zero in the first step. -/
theorem C92_no_smoothing_violated (debug timer : Bool) (p : Params) (type : Option (List Char)) (k : SmootherKind)
    (kind : Relaxation) (hk : dealiiSmoother debug true type = .ok k) (hk' : k.relaxation = some kind)
    (dims : ℕ → ℕ) (procs : ∀ l, List (List (Fin (dims l))))
    (A : Matrix (Fin (dims 0)) (Fin (dims 0)) K) (hA : IsSpd A)
    (R : ∀ l, Matrix (Fin (dims (l + 1))) (Fin (dims l)) K) (hR : ∀ l, IndependentRows (R l))
    (solve : ∀ l, Matrix (Fin (dims l)) (Fin (dims l)) K → (Fin (dims l) → K) → Fin (dims l) → K)
    (hsolve : ∀ l, SolvesExactly (solve l)) (hlev : 2 ≤ p.maxLevels.getD 2)
    (hfast : p.fastAp.getD false = false) (hpre : p.isPreconditioner.getD true = true)
    (hsteps : p.nSmoothingSteps = some 0) (hdims : dims 1 < dims 0) :
    ∃ H, (buildHierarchy debug timer (some p)
        (.ok (matrixHelpers debug type dims procs A R solve))).result = .ok H ∧
      ∀ fresh x₀ h tol2, ∃ b, driverSolve debug A H fresh tol2 b x₀ h =
        .throws (if debug then "ExcDivideByZero" else "SolverControl::NoConvergence") := by
  obtain ⟨H, hH, hlin, hL, hp, hn⟩ := matrixHelpers_build debug timer p type _ _ hk hk' dims
    procs A hA R hR solve hsolve (by omega) hfast
  have hp' : H.isPreconditioner = true := by rw [hp, hpre]
  have hn0 : H.nSmoothingSteps = 0 := by
    rw [hn, hsteps]
    rfl
  refine ⟨H, hH, fun fresh x₀ h tol2 => ?_⟩
  obtain ⟨d, hd⟩ : ∃ d, H.numLevels - 1 = d + 1 := ⟨H.numLevels - 2, by omega⟩
  -- a vector the restriction maps to zero
  obtain ⟨e, he, hRe⟩ : ∃ e : Fin (dims 0) → K, e ≠ 0 ∧ (R 0).mulVec e = 0 := by
    have hker : (LinearMap.ker (R 0).mulVecLin) ≠ ⊥ := by
      apply LinearMap.ker_ne_bot_of_finrank_lt
      simpa using hdims
    obtain ⟨e, h1, h2⟩ := Submodule.exists_mem_ne_zero_of_ne_bot hker
    exact ⟨e, h2, h1⟩
  have hee : 0 < e ⬝ᵥ e := by
    by_contra hn
    exact he (dot_self_eq_zero (not_lt.1 hn))
  obtain ⟨c, hc2⟩ : ∃ c : K, tol2 < (c • e) ⬝ᵥ (c • e) := by
    refine ⟨1 + |tol2| / (e ⬝ᵥ e), ?_⟩
    rw [smul_dotProduct, dotProduct_smul, smul_eq_mul, smul_eq_mul]
    have h1 : (1 + |tol2| / (e ⬝ᵥ e)) * (e ⬝ᵥ e) = e ⬝ᵥ e + |tol2| := by field_simp
    rw [h1]
    have h2 := le_abs_self tol2
    have h3 : 0 ≤ |tol2| / (e ⬝ᵥ e) := by positivity
    nlinarith [mul_nonneg h3 (add_pos_of_pos_of_nonneg hee (abs_nonneg tol2)).le]
  have hRg : (R 0).mulVec (c • e) = 0 := by rw [Matrix.mulVec_smul, hRe, smul_zero]
  generalize c • e = g at hc2 hRg
  have hM : Spec.M (matrixData kind dims procs A R) 0 (d + 1) 0 g = 0 := by
    have h1 : (matrixData kind dims procs A R).R 0 g = 0 := hRg
    simp only [Spec.M, Spec.G, LinearMap.comp_zero, sub_zero, zero_add, add_zero, LinearMap.comp_apply,
      Module.End.one_apply, h1, map_zero]
  have hres : A.mulVec x₀ - (A.mulVec x₀ - g) = g := by abel
  refine ⟨A.mulVec x₀ - g, ?_⟩
  unfold driverSolve cgSolve
  have hdim : dims 0 ≠ 0 := by omega
  have hloop : ∀ prec m, m ≠ 0 → cgLoop debug A prec tol2 m 0 x₀ g 0 0
      = .throws (if debug then "ExcDivideByZero" else "SolverControl::NoConvergence") := by
    intro prec m hm
    obtain ⟨m, rfl⟩ := Nat.exists_eq_succ_of_ne_zero hm
    rw [cgLoop]
    simp only [zero_dotProduct, if_true, cgDivisionByZero]
    cases debug <;> rfl
  simp only [hres, not_le.2 hc2, if_false, hdim, vmult_pre H _ hlin hp', hd, hn0, hM, Outcome.ok_bind, neg_zero,
    dotProduct_zero]
  exact hloop _ _ hdim

end

/-- **C92**, matrix-free with Chebyshev smoothing and two levels: under the conditions of
`C78_preconditioner_partial` the program solves every system. -/
theorem C92_chebyshev_partial (debug timer : Bool) (p : Params) (type : Option (List Char))
    (htype : EqNoCase (type.getD (chars! "Chebyshev")) (chars! "chebyshev")) (degree : Option ℤ)
    (range maxEigenvalue : Option ℝ) (auto : ℕ) (dims : ℕ → ℕ) (dinv : ∀ l, Fin (dims l) → ℝ)
    (hd : ∀ l i, 0 < dinv l i)
    (estimate : ∀ l, ((Fin (dims l) → ℝ) → Fin (dims l) → ℝ) → (Fin (dims l) → ℝ) → List ℝ)
    (A : Matrix (Fin (dims 0)) (Fin (dims 0)) ℝ) (hA : IsSpd A) (start : Fin (dims 0) → ℝ)
    (hest : RitzContract start A (dinv 0) (estimate 0 A.mulVec (dinv 0)))
    (R : ∀ l, Matrix (Fin (dims (l + 1))) (Fin (dims l)) ℝ) (hR : ∀ l, IndependentRows (R l))
    (solve : ∀ l, Matrix (Fin (dims l)) (Fin (dims l)) ℝ → (Fin (dims l) → ℝ) → Fin (dims l) → ℝ)
    (hsolve : ∀ l, SolvesExactly (solve l)) (hlev : p.maxLevels.getD 2 = 2)
    (hfast : p.fastAp.getD false = false) (hpre : p.isPreconditioner.getD true = true)
    (hsteps : 0 < toUnsigned (p.nSmoothingSteps.getD 1))
    (hlam : ∀ lam, ScaledEigenvalue A (dinv 0) lam →
      lam < upperEnd (estimate 0 A.mulVec (dinv 0)) + lowerEnd range (estimate 0 A.mulVec (dinv 0))) :
    ∃ H, (buildHierarchy debug timer (some p) (.ok (matrixFreeHelpers debug type degree range maxEigenvalue
        auto dims dinv estimate A R solve))).result = .ok H ∧
      ∀ fresh h, SolvesEverySystem A (fun tol2 b x => driverSolve debug A H fresh tol2 b x h) := by
  obtain ⟨H, hH, M, hM, hv⟩ := C78_preconditioner_partial debug timer p type htype degree range maxEigenvalue auto
    dims dinv hd estimate A hA start hest R hR solve hsolve hlev hfast hpre hsteps hlam
  exact ⟨H, hH, fun fresh h => C92_solves_partial debug A hA H M hM hv fresh h⟩

/-- What is not slower than an iteration with a rate has the rate too. -/
theorem rate_of_notSlower {n : ℕ} {A : Matrix (Fin n) (Fin n) ℝ}
    {solver : ℝ → (Fin n → ℝ) → (Fin n → ℝ) → Outcome ((Fin n → ℝ) × ℕ)}
    {step : (Fin n → ℝ) → (Fin n → ℝ) → (Fin n → ℝ) → Prop} (h : NotSlower A solver step)
    (htotal : ∀ b y, ∃ y', step b y y') {q : ℝ}
    (hq : ∀ b xs, A.mulVec xs = b → ∀ x : ℕ → Fin n → ℝ, (∀ m, step b (x m) (x (m + 1))) →
      ∀ m, energyOf A (xs - x m) ≤ q ^ m * energyOf A (xs - x 0))
    (tol2 : ℝ) (b x₀ x : Fin n → ℝ) (steps : ℕ) (ht : 0 ≤ tol2) (hx : solver tol2 b x₀ = .ok (x, steps))
    (xs : Fin n → ℝ) (hxs : A.mulVec xs = b) :
    energyOf A (xs - x) ≤ q ^ steps * energyOf A (xs - x₀) := by
  choose next hnext using htotal
  refine (h tol2 b x₀ x steps ht hx (fun m => (next b)^[m] x₀) rfl (fun m => ?_) xs hxs).trans
    (hq b xs hxs (fun m => (next b)^[m] x₀) (fun m => ?_) steps)
  · rw [Function.iterate_succ_apply']
    exact hnext b _
  · rw [Function.iterate_succ_apply']
    exact hnext b _

/-- **C92**, rate of convergence for Stieltjes matrices on any number of processes: the energy of the error
decreases by a factor below one, the same for all systems, in every step. -/
theorem C92_rate_partial (debug timer : Bool) (p : Params) (type : Option (List Char))
    (htype : dealiiSmoother debug true type = .ok .symmetricGaussSeidel ∨
      dealiiSmoother debug true type = .ok .jacobi) (dims : ℕ → ℕ)
    (procs : ∀ l, List (List (Fin (dims l)))) (hprocs : ∀ l, ListsAll (procs l).flatten)
    (A : Matrix (Fin (dims 0)) (Fin (dims 0)) ℝ) (hA : IsSpd A)
    (R : ∀ l, Matrix (Fin (dims (l + 1))) (Fin (dims l)) ℝ) (hR : ∀ l, IndependentRows (R l))
    (hst : ∀ l : ℕ, l + 1 < (p.maxLevels.getD 2).toNat → IsStieltjes (coarseMatrix dims A R l))
    (solve : ∀ l, Matrix (Fin (dims l)) (Fin (dims l)) ℝ → (Fin (dims l) → ℝ) → Fin (dims l) → ℝ)
    (hsolve : ∀ l, SolvesExactly (solve l)) (hlev : 2 ≤ p.maxLevels.getD 2)
    (hfast : p.fastAp.getD false = false) (hpre : p.isPreconditioner.getD true = true)
    (hsteps : 0 < toUnsigned (p.nSmoothingSteps.getD 1)) :
    ∃ H, (buildHierarchy debug timer (some p)
        (.ok (matrixHelpers debug type dims procs A R solve))).result = .ok H ∧
      ∃ q : ℝ, 0 ≤ q ∧ q < 1 ∧ ∀ fresh h tol2 b x₀ x steps, 0 ≤ tol2 →
        driverSolve debug A H fresh tol2 b x₀ h = .ok (x, steps) →
        ∀ xs, A.mulVec xs = b → energyOf A (xs - x) ≤ q ^ steps * energyOf A (xs - x₀) := by
  obtain ⟨k, kind, hk, hk', hkk⟩ : ∃ k kind, dealiiSmoother debug true type = .ok k ∧
      k.relaxation = some kind ∧ k ≠ .ilu := by
    rcases htype with h | h
    · exact ⟨_, _, h, rfl, by simp⟩
    · exact ⟨_, _, h, rfl, by simp⟩
  obtain ⟨H, Hs, hH, hHs, hboth⟩ := C92_stieltjes_partial debug timer p type htype dims procs hprocs A hA R hR hst
    solve hsolve hlev hfast hpre hsteps
  obtain ⟨Hs', hHs', q, hq0, hq1, hq⟩ := C75_stieltjes_rate_partial debug timer
    { p with isPreconditioner := some false } type k hkk hk dims procs hprocs A hA R hR hst solve hsolve hlev hfast
    rfl hsteps
  obtain rfl := Outcome.ok.inj (hHs'.symm.trans hHs)
  obtain ⟨Hs'', hHs'', hlin, hLs, hps, -⟩ := matrixHelpers_build debug timer
    { p with isPreconditioner := some false } type _ _ hk hk' dims procs A hA R hR solve hsolve
    (by change 0 < p.maxLevels.getD 2; omega) hfast
  obtain rfl := Outcome.ok.inj (hHs''.symm.trans hHs)
  refine ⟨H, hH, q, hq0, hq1, fun fresh h tol2 b x₀ x steps ht hx xs hxs => ?_⟩
  refine rate_of_notSlower (hboth fresh h).2 (fun b y => ?_) (fun b xs hxs x hx m => hq b xs hxs x hx m) tol2 b x₀ x
    steps ht hx xs hxs
  have hL2 : 2 ≤ Hs''.numLevels := by
    have : ({ p with isPreconditioner := some false } : Params).maxLevels = p.maxLevels := rfl
    rw [this] at hLs
    omega
  exact ⟨_, 0, vmult_sa Hs'' _ hlin (by rw [hps]; rfl) hL2 0 y b⟩

/-! ### Gauss-Seidel is not symmetric -/

/-- One cycle with one Gauss-Seidel step before and after the coarse correction: two unknowns coupled by `1 / 2`,
one coarse unknown; `C` solves the coarse problem. -/
def gsCycle (C : (Fin 1 → ℚ) → Fin 1 → ℚ) (g : Fin 2 → ℚ) : Fin 2 → ℚ :=
  let A := uniformMatrix 2 (1 / 2 : ℚ)
  let R : Matrix (Fin 1) (Fin 2) ℚ := differenceRow 2 0
  let x := 0 + relaxVmult .gaussSeidel A [[0, 1]] (g - A.mulVec 0)
  let x := x + R.transpose.mulVec (C (R.mulVec (g - A.mulVec x)))
  x + relaxVmult .gaussSeidel A [[0, 1]] (g - A.mulVec x)

/-- One process. -/
def gsOwn : ∀ l, List (Fin (twoDims 2 l))
  | 0 => [(0 : Fin 2), (1 : Fin 2)]
  | _ + 1 => [(0 : Fin 1)]

theorem gsCycle_eq (g : Fin (twoDims 2 0) → ℚ) :
    cycle (matrixData .gaussSeidel (twoDims 2) (fun l => [gsOwn l]) (uniformMatrix (twoDims 2 0) (1 / 2 : ℚ))
      (differenceRow 2)) 1 1 0 g 0 = gsCycle (fun v => v) g := by
  have h1 : coarseMatrix (twoDims 2) (uniformMatrix (twoDims 2 0) (1 / 2 : ℚ)) (differenceRow 2) 1
      = (1 : Matrix (Fin 1) (Fin 1) ℚ) := by
    change galerkin (m := 1) (n := 2) _ _ = _
    ext i j
    fin_cases i; fin_cases j
    decide +kernel
  have hC : ∀ v : Fin 1 → ℚ, Matrix.mulVec
      (coarseMatrix (twoDims 2) (uniformMatrix (twoDims 2 0) (1 / 2 : ℚ)) (differenceRow 2) 1)⁻¹ v = v := by
    intro v
    rw [h1]
    change Matrix.mulVec (1 : Matrix (Fin 1) (Fin 1) ℚ)⁻¹ v = v
    rw [inv_one, Matrix.one_mulVec]
  have hid : (fun v : Fin 1 → ℚ => v) = Matrix.mulVec
      (coarseMatrix (twoDims 2) (uniformMatrix (twoDims 2 0) (1 / 2 : ℚ)) (differenceRow 2) 1)⁻¹ :=
    funext fun v => (hC v).symm
  rw [hid]
  rfl

/-- Two steps of the conjugate gradient method that do not lead to the solution. -/
theorem cg_two_steps (debug : Bool) {n : ℕ} (A : Matrix (Fin n) (Fin n) ℚ) (prec : (Fin n → ℚ) → Fin n → ℚ)
    (tol2 : ℚ) (b x h g₀ g₁ g₂ d₀ d₁ : Fin n → ℚ) (h0 : g₀ = A.mulVec x - b) (h1 : d₀ = -prec g₀)
    (h2 : g₁ = g₀ + ((g₀ ⬝ᵥ prec g₀) / (d₀ ⬝ᵥ A.mulVec d₀)) • A.mulVec d₀)
    (h3 : d₁ = ((g₁ ⬝ᵥ prec g₁) / (g₀ ⬝ᵥ prec g₀)) • d₀ - prec g₁)
    (h4 : g₂ = g₁ + ((g₁ ⬝ᵥ prec g₁) / (d₁ ⬝ᵥ A.mulVec d₁)) • A.mulVec d₁)
    (t0 : tol2 < g₀ ⬝ᵥ g₀) (t1 : tol2 < g₁ ⬝ᵥ g₁) (t2 : tol2 < g₂ ⬝ᵥ g₂) (n0 : g₀ ⬝ᵥ prec g₀ ≠ 0)
    (n1 : d₀ ⬝ᵥ A.mulVec d₀ ≠ 0) (n2 : d₁ ⬝ᵥ A.mulVec d₁ ≠ 0) :
    cgSolve debug A (fun _ _ g => .ok (prec g)) 2 tol2 b x h = .throws "SolverControl::NoConvergence" := by
  unfold cgSolve
  simp only [← h0, not_le.2 t0, if_false, OfNat.ofNat_ne_zero, Outcome.ok_bind]
  rw [cgLoop]
  simp only [← h1, n1, if_false, ← h2, not_le.2 t1, one_ne_zero, Outcome.ok_bind, n0, ← h3]
  rw [cgLoop]
  simp only [n2, if_false, ← h4, not_le.2 t2, if_true]

/-- **C92**, where it fails: Gauss-Seidel smoothing (an option of the library), for which one cycle is not
symmetric.  Two unknowns: the solver gives up after two steps for every tolerance below `1 / 1000`, in all builds,
whatever is in the uninitialised vectors. -/
theorem C92_gauss_seidel_violated (debug timer : Bool)
    (solve : ∀ l, Matrix (Fin (twoDims 2 l)) (Fin (twoDims 2 l)) ℚ → (Fin (twoDims 2 l) → ℚ) → Fin (twoDims 2 l) → ℚ)
    (hsolve : ∀ l, SolvesExactly (solve l)) :
    IsSpd (uniformMatrix (twoDims 2 0) (1 / 2 : ℚ)) ∧
    ∃ H, (buildHierarchy debug timer (some {}) (.ok (matrixHelpers debug (some (chars! "Gauss-Seidel")) (twoDims 2)
        (fun l => [gsOwn l]) (uniformMatrix (twoDims 2 0) (1 / 2 : ℚ)) (differenceRow 2) solve))).result = .ok H ∧
      ∃ b, ∀ fresh h tol2, tol2 < 1 / 1000000 →
        driverSolve debug (uniformMatrix (twoDims 2 0) (1 / 2 : ℚ)) H fresh tol2 b 0 h
          = .throws "SolverControl::NoConvergence" := by
  have hspd : IsSpd (uniformMatrix (twoDims 2 0) (1 / 2 : ℚ)) := uniformMatrix_spd _ _ (by norm_num) (by norm_num)
  refine ⟨hspd, ?_⟩
  obtain ⟨H, hH, hlin, hL, hp, hn⟩ := matrixHelpers_build debug timer {} (some (chars! "Gauss-Seidel"))
    .gaussSeidel .gaussSeidel (by cases debug <;> rfl) rfl (twoDims 2) (fun l => [gsOwn l])
    (uniformMatrix (twoDims 2 0) (1 / 2 : ℚ)) hspd (differenceRow 2) (differenceRow_independent 2 (by omega)) solve
    hsolve (by decide) rfl
  refine ⟨H, hH, fun i : Fin 2 => if i = 0 then 0 else 1, fun fresh h tol2 ht => ?_⟩
  have hL' : H.numLevels - 1 = 1 := by
    have : (({} : Params).maxLevels.getD 2) = 2 := rfl
    omega
  have hprec : ∀ f h (g : Fin (twoDims 2 0) → ℚ), (H.vmult f h g).result = .ok (gsCycle (fun v => v) g) := by
    intro f h g
    rw [vmult_pre H _ hlin (by rw [hp]; rfl), hL', hn, ← cycle_zero, ← gsCycle_eq g]
    rfl
  unfold driverSolve
  simp only [hprec]
  have hlt : ∀ c : ℚ, 1 / 1000000 < c → tol2 < c := fun c hc => ht.trans hc
  exact cg_two_steps debug (n := 2) (uniformMatrix 2 (1 / 2)) (gsCycle fun v => v) tol2 _ 0 h _ _ _ _ _ rfl rfl rfl rfl rfl
    (hlt _ (by decide +kernel)) (hlt _ (by decide +kernel)) (hlt _ (by decide +kernel)) (by decide +kernel)
    (by decide +kernel) (by decide +kernel)

/-! ### Concrete cases -/

/-- Four processes with one unknown each, Jacobi. -/
example : ∃ H Hs, (buildHierarchy true false (some {})
      (.ok (matrixHelpers true (some (chars! "Jacobi")) (twoDims 4) exFourProcs
        exRing (differenceRow 4) (fun l => exInvSolve l (twoDims 4))))).result = .ok H ∧
    (buildHierarchy true false (some { isPreconditioner := some false })
      (.ok (matrixHelpers true (some (chars! "Jacobi")) (twoDims 4) exFourProcs
        exRing (differenceRow 4) (fun l => exInvSolve l (twoDims 4))))).result = .ok Hs ∧
    ∀ fresh h, SolvesEverySystem exRing (fun tol2 b x => driverSolve (dims := twoDims 4) true exRing H fresh tol2 b x h) ∧
      NotSlower exRing (fun tol2 b x => driverSolve (dims := twoDims 4) true exRing H fresh tol2 b x h)
        (fun b y y' => ∃ fresh, (Hs.vmult fresh y b).result = .ok y') :=
  C92_stieltjes_partial true false {} _ (Or.inr rfl) (twoDims 4) exFourProcs exFourProcs_all exRing exRing_stieltjes.1 _
    (fun l => differenceRow_independent 4 (by norm_num) l) (fun l hl => (exRing_levels l hl).1) _
    (fun l => exInvSolve_exact _ l) (by decide) rfl rfl (by decide)

/-- The default smoother with a matrix that is not a Stieltjes matrix, one process. -/
example : ∃ H Hs, (buildHierarchy false true (some { nSmoothingSteps := some 3 })
      (.ok (matrixHelpers false none (twoDims 2) (fun l => [gsOwn l]) (uniformMatrix (twoDims 2 0) (1 / 2 : ℚ))
        (differenceRow 2) (fun l => exInvSolve l (twoDims 2))))).result = .ok H ∧
    (buildHierarchy false true (some { isPreconditioner := some false, nSmoothingSteps := some 3 })
      (.ok (matrixHelpers false none (twoDims 2) (fun l => [gsOwn l]) (uniformMatrix (twoDims 2 0) (1 / 2 : ℚ))
        (differenceRow 2) (fun l => exInvSolve l (twoDims 2))))).result = .ok Hs ∧
    ∀ fresh h, SolvesEverySystem (uniformMatrix (twoDims 2 0) (1 / 2 : ℚ))
        (fun tol2 b x => driverSolve false (uniformMatrix (twoDims 2 0) (1 / 2 : ℚ)) H fresh tol2 b x h) ∧
      NotSlower (uniformMatrix (twoDims 2 0) (1 / 2 : ℚ))
        (fun tol2 b x => driverSolve false (uniformMatrix (twoDims 2 0) (1 / 2 : ℚ)) H fresh tol2 b x h)
        (fun b y y' => ∃ fresh, (Hs.vmult fresh y b).result = .ok y') :=
  C92_two_processes_partial false true { nSmoothingSteps := some 3 } _ rfl (twoDims 2) _
    (fun l => by
      cases l with
      | zero => change ListsAll (n := 2) [0, 1]; exact ⟨by decide, by decide⟩
      | succ l => change ListsAll (n := 1) [0]; exact ⟨by decide, by decide⟩)
    (fun l => by simp) _ (uniformMatrix_spd _ _ (by norm_num) (by norm_num)) _
    (fun l => differenceRow_independent 2 (by norm_num) l) _ (fun l => exInvSolve_exact _ l) (by decide) rfl rfl
    (by decide)

/-- Several processes and a matrix with weak coupling between them. -/
example : ∃ H Hs, (buildHierarchy true false (some {})
      (.ok (matrixHelpers true none (twoDims 4) exFourProcs
        exRing (differenceRow 4) (fun l => exInvSolve l (twoDims 4))))).result = .ok H ∧
    (buildHierarchy true false (some { isPreconditioner := some false })
      (.ok (matrixHelpers true none (twoDims 4) exFourProcs
        exRing (differenceRow 4) (fun l => exInvSolve l (twoDims 4))))).result = .ok Hs ∧
    ∀ fresh h, SolvesEverySystem exRing (fun tol2 b x => driverSolve (dims := twoDims 4) true exRing H fresh tol2 b x h) ∧
      NotSlower exRing (fun tol2 b x => driverSolve (dims := twoDims 4) true exRing H fresh tol2 b x h)
        (fun b y y' => ∃ fresh, (Hs.vmult fresh y b).result = .ok y') :=
  C92_symmetric_partial true false {} _ rfl (twoDims 4) exFourProcs exFourProcs_all exRing exRing_stieltjes.1 _
    (fun l => differenceRow_independent 4 (by norm_num) l)
    (fun l hl => weaklyCoupled_stieltjes (exRing_levels l hl).1 (exFourProcs_all l)) _
    (fun l => exInvSolve_exact _ l) (by decide) rfl rfl (by decide)

theorem gsOwn_all (l : ℕ) : ListsAll (gsOwn l) := by
  cases l with
  | zero => change ListsAll (n := 2) [0, 1]; exact ⟨by decide, by decide⟩
  | succ l => change ListsAll (n := 1) [0]; exact ⟨by decide, by decide⟩

/-- A hierarchy of one level: the direct solver as preconditioner. -/
example : ∃ H, (buildHierarchy true false (some { maxLevels := some 1 })
      (.ok (matrixHelpers true none (twoDims 2) (fun l => [gsOwn l]) (uniformMatrix (twoDims 2 0) (1 / 2 : ℚ))
        (differenceRow 2) (fun l => exInvSolve l (twoDims 2))))).result = .ok H ∧
    ∀ fresh h, SolvesEverySystem (uniformMatrix (twoDims 2 0) (1 / 2 : ℚ))
        (fun tol2 b x => driverSolve true (uniformMatrix (twoDims 2 0) (1 / 2 : ℚ)) H fresh tol2 b x h) ∧
      NotSlower (uniformMatrix (twoDims 2 0) (1 / 2 : ℚ))
        (fun tol2 b x => driverSolve true (uniformMatrix (twoDims 2 0) (1 / 2 : ℚ)) H fresh tol2 b x h)
        (fun b y y' => ∃ (ω : ℚ) (fresh : ∀ l, Fin (twoDims 2 l) → ℚ) (z d : Fin (twoDims 2 0) → ℚ),
          (H.vmult fresh z (b - (uniformMatrix (twoDims 2 0) (1 / 2 : ℚ)).mulVec y)).result = .ok d ∧
            y' = y + ω • d) := by
  have hspd : IsSpd (uniformMatrix (twoDims 2 0) (1 / 2 : ℚ)) := uniformMatrix_spd _ _ (by norm_num) (by norm_num)
  obtain ⟨H, hH, M, hM, hv⟩ := C75_preconditioner_partial true false { maxLevels := some 1 } none rfl
    (twoDims 2) gsOwn gsOwn_all (uniformMatrix (twoDims 2 0) (1 / 2 : ℚ)) hspd (differenceRow 2)
    (fun l => differenceRow_independent 2 (by norm_num) l)
    (fun l => exInvSolve l (twoDims 2)) (fun l => exInvSolve_exact _ l) (by decide) rfl rfl (by decide)
  exact ⟨H, hH, fun fresh h => ⟨C92_solves_partial true _ hspd H M hM hv fresh h,
    C92_best_partial true _ hspd H M hM hv fresh h⟩⟩

/-- Matrix-free. -/
example : ∃ H, (buildHierarchy true false (some {})
      (.ok (matrixFreeHelpers true none (some 3) none none 0 (twoLevels 2 1) (fun _ _ => 1)
        (fun _ _ _ => [1 / 2, 3 / 2]) (signMatrix exPair (1 / 2)) (twoLevelRestriction exSumRow)
        (fun l => exInvSolve l (twoLevels 2 1))))).result = .ok H ∧
    ∀ fresh h, SolvesEverySystem (signMatrix exPair (1 / 2))
      (fun tol2 b x => driverSolve (dims := twoLevels 2 1) true (signMatrix exPair (1 / 2)) H fresh tol2 b x h) :=
  C92_chebyshev_partial true false _ none exName (some 3) none none 0 (twoLevels 2 1) (fun _ _ => 1)
    (fun _ _ => one_pos) (fun _ _ _ => [1 / 2, 3 / 2]) (signMatrix exPair (1 / 2)) exPair_spd ![1, 0] exPair_ritz
    (twoLevelRestriction exSumRow) (twoLevelRestriction_independent exSumRow_independent) _
    (fun l => exInvSolve_exact _ l) rfl rfl rfl (by decide) exPair_bound

/-- One unknown on each of two processes: the rate. -/
example : ∃ H, (buildHierarchy false true (some {})
      (.ok (matrixHelpers false (some (chars! "Jacobi")) (twoDims 2) exPairProcs
        (Matrix.of ![![2, -1], ![-1, 2]] : Matrix (Fin 2) (Fin 2) ℝ) (differenceRow 2)
        (fun l => exInvSolve l (twoDims 2))))).result = .ok H ∧
    ∃ q : ℝ, 0 ≤ q ∧ q < 1 ∧ ∀ fresh h tol2 b (x₀ x : Fin 2 → ℝ) steps, 0 ≤ tol2 →
      driverSolve (dims := twoDims 2) false (Matrix.of ![![2, -1], ![-1, 2]] : Matrix (Fin 2) (Fin 2) ℝ) H fresh tol2
        b x₀ h = .ok (x, steps) →
      ∀ xs, Matrix.mulVec (Matrix.of ![![2, -1], ![-1, 2]] : Matrix (Fin 2) (Fin 2) ℝ) xs = b →
        energyOf (n := 2) (Matrix.of ![![2, -1], ![-1, 2]]) (xs - x)
          ≤ q ^ steps * energyOf (n := 2) (Matrix.of ![![2, -1], ![-1, 2]]) (xs - x₀) :=
  C92_rate_partial false true {} _ (Or.inr rfl) (twoDims 2) exPairProcs
    (fun l => by
      cases l with
      | zero => change ListsAll (n := 2) [1, 0]; exact ⟨by decide, by decide⟩
      | succ l => change ListsAll (n := 1) [0]; exact ⟨by decide, by decide⟩)
    _ exPair_stieltjes.1 _ (fun l => differenceRow_independent 2 (by norm_num) l)
    (fun l hl => by
      have hl2 : l + 1 < 2 := hl
      obtain rfl : l = 0 := by omega
      exact exPair_stieltjes) _
    (fun l => exInvSolve_exact _ l) (by decide) rfl rfl (by decide)

/-- The standalone hierarchy with Gauss-Seidel smoothing in the conjugate gradient method. -/
example (fresh : ℕ → ∀ l, Fin (twoDims 2 l) → ℚ) (x₀ : Fin (twoDims 2 0) → ℚ) (tol2 : ℚ) :
    ∃ H, (buildHierarchy true false (some { isPreconditioner := some false }) (.ok (matrixHelpers true
        (some (chars! "Gauss-Seidel")) (twoDims 2) (fun l => [gsOwn l]) (uniformMatrix (twoDims 2 0) (1 / 2 : ℚ))
        (differenceRow 2) (fun l => exInvSolve l (twoDims 2))))).result = .ok H ∧
      ∃ b h msg, driverSolve true (uniformMatrix (twoDims 2 0) (1 / 2 : ℚ)) H fresh tol2 b x₀ h = .throws msg := by
  have hspd : IsSpd (uniformMatrix (twoDims 2 0) (1 / 2 : ℚ)) := uniformMatrix_spd _ _ (by norm_num) (by norm_num)
  obtain ⟨H, hH, hlin, hL, hp, hn⟩ := matrixHelpers_build true false { isPreconditioner := some false }
    (some (chars! "Gauss-Seidel")) .gaussSeidel .gaussSeidel rfl rfl (twoDims 2) (fun l => [gsOwn l])
    (uniformMatrix (twoDims 2 0) (1 / 2 : ℚ)) hspd (differenceRow 2) (differenceRow_independent 2 (by omega))
    (fun l => exInvSolve l (twoDims 2)) (fun l => exInvSolve_exact _ l) (by decide) rfl
  have hL2 : H.numLevels = 2 := hL
  refine ⟨H, hH, C92_standalone_violated true _ H _ hlin (fun x => rfl) hp (by omega)
    (fun i : Fin 2 => if i = 0 then 0 else 1)
    ((fun i : Fin 2 => if i = 0 then (0 : ℚ) else 1) + gsCycle (fun v => v)
      (0 - (uniformMatrix 2 (1 / 2 : ℚ)).mulVec fun i : Fin 2 => if i = 0 then 0 else 1)) 0 ?_ ?_ fresh x₀ tol2⟩
  · refine (vmult_sa H _ hlin hp (by omega) 0 _ 0).trans ?_
    rw [hL2, hn, ← cycle_zero]
    exact congrArg (fun v => Outcome.ok ((fun i : Fin 2 => if i = 0 then (0 : ℚ) else 1) + v)) (gsCycle_eq _)
  · intro h
    have := congrFun h (1 : Fin 2)
    revert this
    change ¬ (_ : ℚ) = 0
    decide +kernel

/-- No smoothing steps. -/
example : ∃ H, (buildHierarchy true false (some { nSmoothingSteps := some 0 })
      (.ok (matrixHelpers true none (twoDims 4) exFourProcs
        exRing (differenceRow 4) (fun l => exInvSolve l (twoDims 4))))).result = .ok H ∧
    ∀ fresh x₀ h tol2, ∃ b, driverSolve (dims := twoDims 4) true exRing H fresh tol2 b x₀ h
      = .throws (if true then "ExcDivideByZero" else "SolverControl::NoConvergence") :=
  C92_no_smoothing_violated true false { nSmoothingSteps := some 0 } _ .symmetricGaussSeidel .symmetricGaussSeidel rfl
    rfl (twoDims 4) exFourProcs exRing exRing_stieltjes.1 _
    (fun l => differenceRow_independent 4 (by norm_num) l) _ (fun l => exInvSolve_exact _ l) (by decide) rfl rfl rfl
    (by decide)

end Mfmg
