import Verif.Props.Ilu
import Verif.Props.ConjugateGradient

/-!
# C92, incomplete factorisation smoothing

The conjugate gradient method with a hierarchy that smooths with `TrilinosWrappers::PreconditionILU`
(source/dealii/dealii_smoother.cc:57-64).
-/

set_option autoImplicit false

namespace Mfmg

open Spec

section

variable {K : Type} [Field K] [LinearOrder K] [IsStrictOrderedRing K] [Archimedean K]

/-- **C92**, incomplete factorisation smoothing on any number of processes, Stieltjes matrices on every level but
the coarsest.  Missing: other symmetric positive definite matrices, for which the smoother need not converge
(`C88_cycle_violated`). -/
theorem C92_ilu_partial (debug timer : Bool) (p : Params) (type : Option (List Char))
    (htype : dealiiSmoother debug true type = .ok .ilu) (dims : ℕ → ℕ)
    (procs : ∀ l, List (List (Fin (dims l)))) (hprocs : ∀ l, ListsAll (procs l).flatten)
    (graph : ∀ l, Fin (dims l) → Fin (dims l) → Bool)
    (A : Matrix (Fin (dims 0)) (Fin (dims 0)) K) (hA : IsSpd A)
    (R : ∀ l, Matrix (Fin (dims (l + 1))) (Fin (dims l)) K) (hR : ∀ l, IndependentRows (R l))
    (hst : ∀ l : ℕ, l + 1 < (p.maxLevels.getD 2).toNat → IsStieltjes (coarseMatrix dims A R l) ∧
      IsGraph (graph l) (coarseMatrix dims A R l) ∧ ∀ i j, graph l i j = graph l j i)
    (solve : ∀ l, Matrix (Fin (dims l)) (Fin (dims l)) K → (Fin (dims l) → K) → Fin (dims l) → K)
    (hsolve : ∀ l, SolvesExactly (solve l)) (hlev : 2 ≤ p.maxLevels.getD 2)
    (hfast : p.fastAp.getD false = false) (hpre : p.isPreconditioner.getD true = true)
    (hsteps : 0 < toUnsigned (p.nSmoothingSteps.getD 1)) :
    ∃ H Hs, (buildHierarchy debug timer (some p)
        (.ok (fullHelpers debug type dims procs graph A R solve))).result = .ok H ∧
      (buildHierarchy debug timer (some { p with isPreconditioner := some false })
        (.ok (fullHelpers debug type dims procs graph A R solve))).result = .ok Hs ∧
      ∀ fresh h, SolvesEverySystem A (fun tol2 b x => driverSolve debug A H fresh tol2 b x h) ∧
        NotSlower A (fun tol2 b x => driverSolve debug A H fresh tol2 b x h)
          (fun b y y' => ∃ fresh, (Hs.vmult fresh y b).result = .ok y') := by
  obtain ⟨H, hH, M, hM, hv⟩ := C88_preconditioner_partial debug timer p type htype dims procs hprocs graph A hA R
    hR hst solve hsolve (by omega) hfast hpre hsteps
  obtain ⟨H', hH', hlin, hL, hp, hn⟩ := fullHelpers_build debug timer p type htype dims procs graph A hA
    R hR solve hsolve (by omega) hfast
  obtain rfl : H' = H := Outcome.ok.inj (hH'.symm.trans hH)
  obtain ⟨Hs, hHs, hlins, hLs, hps, hns⟩ := fullHelpers_build debug timer
    { p with isPreconditioner := some false } type htype dims procs graph A hA R hR solve hsolve
    (by change 0 < p.maxLevels.getD 2; omega) hfast
  refine ⟨H', Hs, hH, hHs, fun fresh h => ⟨C92_solves_partial debug A hA H' M hM hv fresh h, ?_⟩⟩
  intro tol2 b x₀ x steps ht hx y hy0 hy xs hxs
  refine C92_best_partial debug A hA H' M hM hv fresh h tol2 b x₀ x steps ht hx y hy0 ?_ xs hxs
  intro m
  obtain ⟨f, hf⟩ := hy m
  have hLs' : Hs.numLevels = ((p.maxLevels.getD 2).toNat) := by
    change _ = ((({ p with isPreconditioner := some false } : Params)).maxLevels.getD 2).toNat
    omega
  have hL' : H'.numLevels = (p.maxLevels.getD 2).toNat := by omega
  have hns' : Hs.nSmoothingSteps = H'.nSmoothingSteps := by rw [hn, hns]
  rw [vmult_sa Hs _ hlins (by rw [hps]; rfl) (by omega), hLs', ← hL', hns'] at hf
  refine ⟨1, f, 0, _, vmult_pre H' _ hlin (by rw [hp, hpre]) f 0 _, ?_⟩
  rw [one_smul, ← Outcome.ok.inj hf]
  rfl

end

/-- The five-point matrix on two by two points, two processes, two smoothing steps. -/
example : ∃ H Hs, (buildHierarchy true false (some { nSmoothingSteps := some 2 })
      (.ok (fullHelpers true (some (chars! "ilu")) (twoDims 4) exTwoProcs ringGraphs
        exRing (differenceRow 4) (fun l => exInvSolve l (twoDims 4))))).result = .ok H ∧
    (buildHierarchy true false (some { nSmoothingSteps := some 2, isPreconditioner := some false })
      (.ok (fullHelpers true (some (chars! "ilu")) (twoDims 4) exTwoProcs ringGraphs
        exRing (differenceRow 4) (fun l => exInvSolve l (twoDims 4))))).result = .ok Hs ∧
    ∀ fresh h, SolvesEverySystem exRing (fun tol2 b x => driverSolve true exRing H fresh tol2 b x h) ∧
      NotSlower exRing (fun tol2 b x => driverSolve true exRing H fresh tol2 b x h)
        (fun b y y' => ∃ fresh, (Hs.vmult fresh y b).result = .ok y') :=
  C92_ilu_partial true false { nSmoothingSteps := some 2 } _ rfl (twoDims 4) exTwoProcs exTwoProcs_all ringGraphs exRing
    exRing_stieltjes.1 _ (fun l => differenceRow_independent 4 (by norm_num) l) exRing_levels _
    (fun l => exInvSolve_exact _ l) (by decide) rfl rfl (by decide)

end Mfmg
