import Verif.Spec.Builds
import Verif.Model.Amgx
import Verif.Model.DeviceSetup
import Verif.Model.DeviceFree
import Verif.Model.DeviceOperator
import Verif.Model.DirectSolver
import Verif.Model.Diagonal
import Verif.Model.FastAP
import Verif.Model.Factory
import Verif.Model.Lanczos
import Verif.Model.LevelSizes
import Verif.Model.Lifetime
import Verif.Model.LocalEig
import Verif.Model.MultiVector
import Verif.Model.ParamTree
import Verif.Model.Relaxation
import Verif.Model.Chebyshev
import Verif.Model.SetupAll

/-!
# Debug and release builds: composition

`SameUnlessStopped` is kept by sequencing, by loops and by case distinctions, so that it can be
proved function by function.
-/

set_option autoImplicit false

namespace Mfmg

section

variable {only : List String}

theorem SameUnlessStopped.refl {α : Type} (o : Outcome α) : SameUnlessStopped only o o := .inr (.inr rfl)

theorem SameUnlessStopped.abort {α : Type} (o : Outcome α) : SameUnlessStopped only .aborted o := .inl rfl

theorem SameUnlessStopped.throw {α : Type} {m : String} (h : m ∈ only) (o : Outcome α) :
    SameUnlessStopped only (.throws m) o := .inr (.inl ⟨m, h, rfl⟩)

theorem SameUnlessStopped.bind {α β : Type} {d r : Outcome α} {f g : α → Outcome β}
    (h : SameUnlessStopped only d r) (hf : ∀ a, SameUnlessStopped only (f a) (g a)) :
    SameUnlessStopped only (d >>= f) (r >>= g) := by
  rcases h with rfl | ⟨m, hm, rfl⟩ | rfl
  · exact .inl rfl
  · exact .inr (.inl ⟨m, hm, rfl⟩)
  · cases r with
    | ok a => exact hf a
    | throws m => exact .inr (.inr rfl)
    | aborted => exact .inl rfl
    | ub w => exact .inr (.inr rfl)

theorem SameUnlessStopped.assert (c : Bool) :
    SameUnlessStopped only (Outcome.assert true c) (Outcome.assert false c) := by
  cases c
  · exact .inl rfl
  · exact .inr (.inr rfl)

theorem SameUnlessStopped.stop {α : Type} (o : Outcome α) :
    SameUnlessStopped only (if true = true then .aborted else o) (if false = true then .aborted else o) :=
  .inl rfl

theorem SameUnlessStopped.ite {α : Type} {c : Prop} [Decidable c] {d d' r r' : Outcome α}
    (h : c → SameUnlessStopped only d r) (h' : ¬ c → SameUnlessStopped only d' r') :
    SameUnlessStopped only (if c then d else d') (if c then r else r') := by
  split
  · exact h ‹_›
  · exact h' ‹_›

theorem SameUnlessStopped.foldlM {α σ : Type} {f g : σ → α → Outcome σ}
    (h : ∀ s a, SameUnlessStopped only (f s a) (g s a)) (l : List α) (s : σ) :
    SameUnlessStopped only (l.foldlM f s) (l.foldlM g s) := by
  induction l generalizing s with
  | nil => exact refl _
  | cons a l ih =>
    rw [List.foldlM_cons, List.foldlM_cons]
    exact bind (h s a) ih

theorem SameUnlessStopped.mapM {α β : Type} {f g : α → Outcome β}
    (h : ∀ a, SameUnlessStopped only (f a) (g a)) (l : List α) :
    SameUnlessStopped only (l.mapM f) (l.mapM g) := by
  induction l with
  | nil => exact refl _
  | cons a l ih =>
    rw [List.mapM_cons, List.mapM_cons]
    exact bind (h a) fun _ => bind ih fun _ => refl _

/-- What is proved from it: a result of the debug build is the result of the release build. -/
theorem SameUnlessStopped.result {α : Type} {d r : Outcome α} (h : SameUnlessStopped only d r) {v : α}
    (hv : d = .ok v) : r = .ok v := by
  rcases h with h | ⟨m, -, h⟩ | h
  · simp [h] at hv
  · simp [h] at hv
  · rw [h, hv]

end

open SameUnlessStopped

/-- One step of a comparison: the two sides have the same structure. -/
macro "builds_step" : tactic => `(tactic| first
  | exact SameUnlessStopped.refl _
  | exact SameUnlessStopped.abort _
  | exact SameUnlessStopped.assert _
  | exact SameUnlessStopped.stop _
  | assumption
  | refine SameUnlessStopped.bind ?_ (fun _ => ?_)
  | refine SameUnlessStopped.ite (fun _ => ?_) (fun _ => ?_))

macro "builds" : tactic => `(tactic| repeat' builds_step)

/-! ## Agglomerates -/

section

variable {only : List String} (hm : "Mesh locally refined" ∈ only)
include hm

theorem walkX_builds (m : Mesh) (c0 a n c : ℕ) (u : UserIndex) :
    SameUnlessStopped only (walkX m true c0 a n c u) (walkX m false c0 a n c u) := by
  induction n generalizing c u with
  | zero => exact refl _
  | succ n ih =>
    unfold walkX
    cases m.nbr .xp c with
    | none => exact refl _
    | some c' =>
      by_cases h : m.sameLevel c0 c'
      · simpa [h] using ih _ _
      · simpa [h] using throw hm _

theorem walkY_builds (m : Mesh) (c0 a nx n c : ℕ) (u : UserIndex) :
    SameUnlessStopped only (walkY m true c0 a nx n c u) (walkY m false c0 a nx n c u) := by
  induction n generalizing c u with
  | zero => exact refl _
  | succ n ih =>
    unfold walkY
    refine bind (walkX_builds hm ..) fun u => ?_
    cases m.nbr .yp c with
    | none => exact refl _
    | some c' =>
      refine ite (fun _ => ?_) (fun _ => ih _ _)
      by_cases h : m.sameLevel c0 c'
      · simpa [h] using ih _ _
      · simpa [h] using throw hm _

theorem walkZ_builds (m : Mesh) (dim c0 a nx ny n c : ℕ) (u : UserIndex) :
    SameUnlessStopped only (walkZ m true dim c0 a nx ny n c u)
      (walkZ m false dim c0 a nx ny n c u) := by
  induction n generalizing c u with
  | zero => exact refl _
  | succ n ih =>
    unfold walkZ
    refine bind (walkY_builds hm ..) fun u => ite (fun _ => ?_) (fun _ => refl _)
    cases m.nbr .zp c with
    | none => exact refl _
    | some c' =>
      refine ite (fun _ => ?_) (fun _ => ih _ _)
      by_cases h : m.sameLevel c0 c'
      · simpa [h] using ih _ _
      · simpa [h] using throw hm _

theorem blockLoop_builds (m : Mesh) (dim nx ny nz : ℕ) (cs : List ℕ) (u : UserIndex) (a : ℕ) :
    SameUnlessStopped only (blockLoop m true dim nx ny nz cs u a)
      (blockLoop m false dim nx ny nz cs u a) := by
  induction cs generalizing u a with
  | nil => exact refl _
  | cons c cs ih =>
    unfold blockLoop
    exact ite (fun _ => bind (walkZ_builds hm ..) fun u => ih _ _) (fun _ => ih _ _)

theorem buildAgglomeratesBlock_builds (m : Mesh) (dim nx ny nz : ℕ) (u : UserIndex) :
    SameUnlessStopped only (buildAgglomeratesBlock m true dim nx ny nz u)
      (buildAgglomeratesBlock m false dim nx ny nz u) :=
  bind (blockLoop_builds hm ..) fun _ => refl _

theorem Share.agglomerate_builds {K : Type} (dim : ℕ) (s : Strategy) (sh : Share K) (u : UserIndex) :
    SameUnlessStopped only (sh.agglomerate true dim s u) (sh.agglomerate false dim s u) := by
  cases s with
  | graph => exact refl _
  | block => exact buildAgglomeratesBlock_builds hm ..

end

/-! ## Work on the agglomerates, assembly -/

section

variable {only : List String} {K : Type}

theorem wsRun_builds {S C R : Type} {f g : ℕ → S → C → Outcome (S × C)}
    (h : ∀ i s c, SameUnlessStopped only (f i s c) (g i s c)) (copier : C → R → R)
    (es : List WSEvent) (st : WS S C R) :
    SameUnlessStopped only (wsRun f copier es st) (wsRun g copier es st) := by
  induction es generalizing st with
  | nil => exact refl _
  | cons e es ih =>
    unfold wsRun
    refine bind ?_ fun st => ih _
    cases e with
    | work => exact bind (h _ _ _) fun _ => refl _
    | copy => exact refl _

theorem computeLocal_builds (matrixFree : Bool) (p : EigParams)
    (solver : ℕ → String → List (List K) → Outcome (CopyData K)) (unsolved : ℕ → CopyData K)
    (i : ℕ) (guess : List (List K)) :
    SameUnlessStopped only (computeLocal true matrixFree p solver unsolved i guess)
      (computeLocal false matrixFree p solver unsolved i guess) := by
  unfold computeLocal
  builds

theorem setupCollect_builds (matrixFree : Bool) (p : EigParams)
    (solver : ℕ → String → List (List K) → Outcome (CopyData K)) (unsolved : ℕ → CopyData K)
    (es : List WSEvent) :
    SameUnlessStopped only (setupCollect true matrixFree p solver unsolved es)
      (setupCollect false matrixFree p solver unsolved es) :=
  bind (wsRun_builds (fun _ _ _ => bind (computeLocal_builds ..) fun _ => refl _) ..) fun _ => refl _

theorem setupShares_builds (hm : "Mesh locally refined" ∈ only) (matrixFree : Bool) (dim : ℕ)
    (ap : AggParams) (ep : EigParams) (l : List (Share K × UserIndex)) :
    SameUnlessStopped only (setupShares true matrixFree dim ap ep l)
      (setupShares false matrixFree dim ap ep l) := by
  induction l with
  | nil => exact refl _
  | cons s l ih =>
    unfold setupShares
    refine bind (bind (refl _) fun s => bind (Share.agglomerate_builds hm ..) fun _ =>
      bind (setupCollect_builds ..) fun _ => refl _) fun _ => bind ih fun _ => refl _

variable [Field K]

theorem vecLoop_builds (dynAdds : Bool) (gdiag : ℕ → K) (first : ℕ) (evs : List (List K))
    (dofs : List ℕ) (diag : Outcome (List K)) (n pos : ℕ) (s : Assembled K) :
    SameUnlessStopped only (vecLoop true dynAdds gdiag first evs dofs diag n pos s)
      (vecLoop false dynAdds gdiag first evs dofs diag n pos s) := by
  induction n generalizing pos s with
  | zero => exact refl _
  | succ n ih =>
    unfold vecLoop
    refine bind (refl _) fun ev => bind (assert _) fun _ => ?_
    cases ev with
    | nil => exact ih _ _
    | cons => exact bind (refl _) fun _ => bind (refl _) fun _ => ih _ _

theorem aggLoop_builds (dynAdds : Bool) (gdiag : ℕ → K) (first : ℕ) (s : Collected K)
    (ns : List ℕ) (i pos : ℕ) (a : Assembled K) :
    SameUnlessStopped only (aggLoop true dynAdds gdiag first s ns i pos a)
      (aggLoop false dynAdds gdiag first s ns i pos a) := by
  induction ns generalizing i pos a with
  | nil => exact refl _
  | cons n ns ih =>
    unfold aggLoop
    cases n with
    | zero => exact ih _ _ _
    | succ n =>
      exact bind (refl _) fun _ => bind (vecLoop_builds ..) fun _ => ih _ _ _

theorem assemble_builds (dynAdds : Bool) (gdiag : ℕ → K) (first : ℕ) (s : Collected K)
    (a : Assembled K) :
    SameUnlessStopped only (assemble true dynAdds gdiag first s a)
      (assemble false dynAdds gdiag first s a) :=
  bind (assert _) fun _ => aggLoop_builds ..

theorem assembleRanks_builds (dynAdds : Bool) (gdiag : ℕ → K) (counts : List ℕ)
    (ss : List (Collected K)) (rank : ℕ) (a : Assembled K) :
    SameUnlessStopped only (assembleRanks true dynAdds gdiag counts ss rank a)
      (assembleRanks false dynAdds gdiag counts ss rank a) := by
  induction ss generalizing rank a with
  | nil => exact refl _
  | cons s ss ih => exact bind (assemble_builds ..) fun _ => ih _ _

theorem assembleAll_builds (dynAdds : Bool) (gdiag : ℕ → K) (ss : List (Collected K)) :
    SameUnlessStopped only (assembleAll true dynAdds gdiag ss) (assembleAll false dynAdds gdiag ss) :=
  assembleRanks_builds ..

theorem fastAP_builds (wide dynAdds : Bool) (nCells : ℕ) (owned : ℕ → Bool) (u : UserIndex)
    (nAgg : ℕ) (conn : ℕ → List ℕ) (pe : PatchEval K) (gdiag : ℕ → K) (first : ℕ)
    (s : Collected K) (es esH : List WSEvent) :
    SameUnlessStopped only (fastAP wide true dynAdds nCells owned u nAgg conn pe gdiag first s es esH)
      (fastAP wide false dynAdds nCells owned u nAgg conn pe gdiag first s es esH) :=
  bind (assemble_builds ..) fun _ => refl _

end

/-! ## The diagonal, distributed -/

section

variable {only : List String} {K : Type} [Field K] [DecidableEq K]

omit [Field K] [DecidableEq K] in
theorem RankVector.read_builds (x : RankVector K) (i : ℕ) :
    SameUnlessStopped only (x.read true i) (x.read false i) := by
  unfold RankVector.read
  cases x i with
  | none => exact abort _
  | some => exact refl _

theorem entryLoop_builds (x : RankVector K) (row : ℕ) (dofs : List ℕ) (diag ev : List K) (j : ℕ)
    (M : Entries (Flt K)) :
    SameUnlessStopped only (entryLoop true x row dofs diag ev j M)
      (entryLoop false x row dofs diag ev j M) := by
  induction ev generalizing j M with
  | nil => exact refl _
  | cons v ev ih =>
    unfold entryLoop
    exact bind (refl _) fun _ => bind (refl _) fun _ => bind (x.read_builds _) fun _ => ih _ _

theorem rowLoop_builds (x : RankVector K) (first : ℕ) (evs : List (List K)) (dofs : List ℕ)
    (diag : List K) (n pos : ℕ) (M : Entries (Flt K)) :
    SameUnlessStopped only (rowLoop true x first evs dofs diag n pos M)
      (rowLoop false x first evs dofs diag n pos M) := by
  induction n generalizing pos M with
  | zero => exact refl _
  | succ n ih =>
    unfold rowLoop
    exact bind (refl _) fun _ => bind (assert _) fun _ => bind (entryLoop_builds ..) fun _ => ih _ _

theorem agglomerateLoop_builds (x : RankVector K) (first : ℕ) (s : Collected K) (ns : List ℕ)
    (i pos : ℕ) (M : Entries (Flt K)) :
    SameUnlessStopped only (agglomerateLoop true x first s ns i pos M)
      (agglomerateLoop false x first s ns i pos M) := by
  induction ns generalizing i pos M with
  | nil => exact refl _
  | cons n ns ih =>
    unfold agglomerateLoop
    exact bind (refl _) fun _ => bind (refl _) fun _ => bind (rowLoop_builds ..) fun _ => ih _ _ _

theorem assembleProcs_builds (counts : List ℕ) (ps : List (RankVector K × Collected K)) (rank : ℕ)
    (M : Entries (Flt K)) :
    SameUnlessStopped only (assembleProcs true counts ps rank M)
      (assembleProcs false counts ps rank M) := by
  induction ps generalizing rank M with
  | nil => exact refl _
  | cons p ps ih =>
    unfold assembleProcs
    exact bind (assert _) fun _ => bind (agglomerateLoop_builds ..) fun _ => ih _ _

end

/-! ## Eigensolvers -/

section

variable {only : List String}

theorem takeIterative_builds {K : Type} (n : ℕ) (r : List K × List (List K)) (es : List K) :
    SameUnlessStopped only (takeIterative true n r es) (takeIterative false n r es) := by
  unfold takeIterative
  builds

theorem localMatrixBased_builds {K : Type} [Field K] [LinearOrder K] (type : Option (List Char))
    (n size : ℕ) (A : ℕ → ℕ → K) (constrained : List ℕ) (S : EigenSolvers K) :
    SameUnlessStopped only (localMatrixBased true type n size A constrained S)
      (localMatrixBased false type n size A constrained S) := by
  refine bind ?_ fun _ => refl _
  unfold solveMatrixBased
  have h := fun r es => takeIterative_builds (K := K) (only := only) n r es
  exact ite (fun _ => refl _) fun _ => ite (fun _ => h _ _) fun _ => ite (fun _ => h _ _) fun _ =>
    ite (fun _ => refl _) fun _ => bind (assert _) fun _ => refl _

theorem localMatrixFree_builds {K : Type} [Field K] [LinearOrder K] (type : Option (List Char))
    (n size : ℕ) (A : ℕ → ℕ → K) (diag : List K) (S : EigenSolvers K) :
    SameUnlessStopped only (localMatrixFree true type n size A diag S)
      (localMatrixFree false type n size A diag S) := by
  refine bind ?_ fun _ => refl _
  unfold solveMatrixFree
  have h := fun r es => takeIterative_builds (K := K) (only := only) n r es
  exact ite (fun _ => h _ _) fun _ => ite (fun _ => h _ _) fun _ => ite (fun _ => refl _) fun _ =>
    ite (fun _ => refl _) fun _ => bind (assert _) fun _ => refl _

variable {E : Type} [NormedAddCommGroup E] [InnerProductSpace ℝ E]

theorem lanczosStep_builds (A : E → E) (s : LanczosState E) :
    SameUnlessStopped only (lanczosStep true A s) (lanczosStep false A s) := by
  unfold lanczosStep
  exact ite (fun _ => stop _) fun _ => refl _

theorem lanczosLoop_builds (A : E → E) (tridiag : List ℝ → List ℝ → List ℝ × List ℝ) (req : ℕ)
    (tol : ℝ) (pct : ℤ) (maxit left it prev : ℕ) (r : LanczosResult E) :
    SameUnlessStopped only (lanczosLoop true A tridiag req tol pct maxit left it prev r)
      (lanczosLoop false A tridiag req tol pct maxit left it prev r) := by
  induction left generalizing it prev r with
  | zero => exact refl _
  | succ left ih =>
    unfold lanczosLoop
    exact bind (lanczosStep_builds ..) fun _ => ite
      (fun _ => bind (refl _) fun _ => ite (fun _ => refl _) fun _ => ih _ _ _) fun _ => ih _ _ _

theorem solveLanczos_builds (A : E → E) (tridiag : List ℝ → List ℝ → ℕ → List ℝ × List ℝ)
    (req : ℕ) (p : LanczosParams) (guess : E) :
    SameUnlessStopped only (solveLanczos true A tridiag req p guess)
      (solveLanczos false A tridiag req p guess) :=
  bind (assert _) fun _ => bind (assert _) fun _ => bind (assert _) fun _ =>
    bind (lanczosLoop_builds ..) fun _ => bind (assert _) fun _ => refl _

theorem gramSchmidt_builds (num left i : ℕ) (p : ℕ → ℕ) (v : ℕ → E) :
    SameUnlessStopped only (gramSchmidt true num left i p v) (gramSchmidt false num left i p v) := by
  induction left generalizing i p v with
  | zero => exact refl _
  | succ left ih =>
    unfold gramSchmidt
    exact ite (fun _ => stop _) fun _ => ih _ _ _

theorem cycleLoop_builds {f g : List E → E → Outcome (List ℝ × List E)}
    (h : ∀ ds x, SameUnlessStopped only (f ds x) (g ds x)) (perturb : ℕ → E → E)
    (per numCycles left cycle : ℕ) (ds : List E) (guess : E) (acc : List ℝ × List E) :
    SameUnlessStopped only (cycleLoop true f perturb per numCycles left cycle ds guess acc)
      (cycleLoop false g perturb per numCycles left cycle ds guess acc) := by
  induction left generalizing cycle ds guess acc with
  | zero => exact refl _
  | succ left ih =>
    unfold cycleLoop
    exact bind (h _ _) fun _ => bind (refl _) fun _ => ite
      (fun _ => bind (bind (gramSchmidt_builds ..) fun _ => refl _) fun _ => ih _ _ _ _)
      fun _ => ih _ _ _ _

theorem lanczosSolve_builds (A : E → E) (tridiag : List ℝ → List ℝ → ℕ → List ℝ × List ℝ)
    (sortPerm : List ℝ → List ℕ) (perturb : ℕ → E → E) (emptyVec : E) (n : ℕ)
    (deflated : Option (ℕ × ℕ)) (p : LanczosParams) (guess : E) :
    SameUnlessStopped only (lanczosSolve true A tridiag sortPerm perturb emptyVec n deflated p guess)
      (lanczosSolve false A tridiag sortPerm perturb emptyVec n deflated p guess) :=
  bind (assert _) fun _ => bind (assert _) fun _ => bind
    (cycleLoop_builds (fun _ _ => bind (solveLanczos_builds ..) fun _ => refl _) ..) fun _ => refl _

end

/-! ## Vectors of the Anasazi interface -/

section

variable {only : List String} {K : Type} [Field K]

theorem mvTimesMatAddMv_builds (alpha : K) (A : MV) (rows cols : ℕ) (B : ℕ → ℕ → K) (beta : K)
    (mv : MV) (h : Heap K) :
    SameUnlessStopped only (mvTimesMatAddMv true alpha A rows cols B beta mv h)
      (mvTimesMatAddMv false alpha A rows cols B beta mv h) :=
  bind (assert _) fun _ => bind (assert _) fun _ => bind (assert _) fun _ => refl _

theorem mvAddMv_builds (alpha : K) (A : MV) (beta : K) (B mv : MV) (h : Heap K) :
    SameUnlessStopped only (mvAddMv true alpha A beta B mv h) (mvAddMv false alpha A beta B mv h) :=
  bind (assert _) fun _ => bind (assert _) fun _ => bind (assert _) fun _ => bind (assert _) fun _ =>
    refl _

omit [Field K] in
theorem setBlock_builds (A : MV) (index : List ℕ) (mv : MV) (h : Heap K) :
    SameUnlessStopped only (setBlock true A index mv h) (setBlock false A index mv h) :=
  bind (assert _) fun _ => bind (assert _) fun _ => bind (assert _) fun _ => refl _

end

/-! ## Operators on the host -/

section

variable {only : List String} {K : Type} [Field K] [LinearOrder K]

theorem hostMultiplyTranspose_builds (eps : K) (a b : HostOp K) :
    SameUnlessStopped only (hostMultiplyTranspose true eps a b)
      (hostMultiplyTranspose false eps a b) := by
  unfold hostMultiplyTranspose
  split
  · exact refl _
  · split
    · exact ite (fun _ => refl _) fun _ => abort _
    · exact abort _
  · exact refl _

theorem OpExpr.build_builds (eps : K) (mm : GMat K → GMat K → Outcome (HostOp K)) (e : OpExpr K) :
    SameUnlessStopped only (e.build true eps mm) (e.build false eps mm) := by
  induction e with
  | leaf => exact refl _
  | transpose e ih => exact bind ih fun _ => refl _
  | multiply e f ihe ihf => exact bind ihe fun _ => bind ihf fun _ => refl _
  | multiplyTranspose e f ihe ihf =>
    exact bind ihe fun _ => bind ihf fun _ => hostMultiplyTranspose_builds ..

theorem sizedLoop_builds (fast : Bool) (eps : K) (mm : GMat K → GMat K → Outcome (HostOp K))
    (ev : Evaluator K) (more l : ℕ) (a : HostOp K) (r : Option (HostOp K)) :
    SameUnlessStopped only (sizedLoop true fast eps mm ev more l a r)
      (sizedLoop false fast eps mm ev more l a r) := by
  induction more generalizing l a r with
  | zero => exact refl _
  | succ more ih =>
    unfold sizedLoop
    exact bind (ite (fun _ => refl _) fun _ => hostMultiplyTranspose_builds ..) fun _ =>
      bind (refl _) fun _ => bind (ih _ _ _) fun _ => refl _

end

/-! ## Device -/

section

variable {only : List String} {K : Type}

theorem copyToGpu_builds {α : Type} (v : List α) :
    SameUnlessStopped only (copyToGpu true v) (copyToGpu false v) :=
  bind (assert _) fun _ => refl _

theorem uploadCsr_builds (c : Csr K) :
    SameUnlessStopped only (uploadCsr true c) (uploadCsr false c) :=
  bind (copyToGpu_builds _) fun _ => bind (copyToGpu_builds _) fun _ =>
    bind (copyToGpu_builds _) fun _ => refl _

theorem convertDealii_builds (read : List ℕ → ℕ → Outcome ℕ) (nCols : ℕ)
    (rows : List (List (ℕ × K))) :
    SameUnlessStopped only (convertDealii read true nCols rows)
      (convertDealii read false nCols rows) :=
  bind (refl _) fun _ => uploadCsr_builds _

theorem convertTrilinos_builds (gid : ℕ → ℕ) (rows : List (List (ℕ × K))) :
    SameUnlessStopped only (convertTrilinos true gid rows) (convertTrilinos false gid rows) :=
  uploadCsr_builds _

theorem convertEpetra_builds (gid : ℕ → ℕ) (data : Csr K) :
    SameUnlessStopped only (convertEpetra true gid data) (convertEpetra false gid data) :=
  bind (copyToGpu_builds _) fun _ => refl _

theorem csrToAmgx_builds (sort : (ℕ → ℕ → Bool) → List ℕ → List ℕ) (nGlobal : ℕ)
    (owned sent : List ℕ) (a : Csr K) :
    SameUnlessStopped only (csrToAmgx true sort nGlobal owned sent a)
      (csrToAmgx false sort nGlobal owned sent a) :=
  bind (bind (assert _) fun _ => refl _) fun _ => refl _

theorem deviceEigenvectors_builds [Zero K] [One K] (sched : EigenSchedule) (junk : K)
    (sygvd : ℕ → List K → List K → List K × List K × Bool) (nEig nRows nCols : ℕ)
    (dense : List K) :
    SameUnlessStopped only (deviceEigenvectors true sched junk sygvd nEig nRows nCols dense)
      (deviceEigenvectors false sched junk sygvd nEig nRows nCols dense) :=
  bind (assert _) fun _ => ite (fun _ => refl _) fun _ => bind (refl _) fun _ => bind (refl _) fun _ =>
    bind (assert _) fun _ => refl _

theorem deviceSetup_builds [Zero K] [One K] (junk : K)
    (sygvd : ℕ → List K → List K → List K × List K × Bool) (nEig : ℕ) (h : DevHeap)
    (aggs : List (DevAgg K)) :
    SameUnlessStopped only (deviceSetup true junk sygvd nEig h aggs)
      (deviceSetup false junk sygvd nEig h aggs) :=
  foldlM (fun _ _ => bind (deviceEigenvectors_builds ..) fun _ => refl _) _ _

theorem deviceRestrictor_builds [Field K] (dynAdds : Bool) (junk : K)
    (sygvd : ℕ → List K → List K → List K × List K × Bool) (nEig : ℕ) (gdiag : ℕ → K)
    (ranks : List (DevHeap × List (DevAgg K))) :
    SameUnlessStopped only (deviceRestrictor true dynAdds junk sygvd nEig gdiag ranks)
      (deviceRestrictor false dynAdds junk sygvd nEig gdiag ranks) :=
  bind (mapM (fun _ => deviceSetup_builds ..) _) fun _ => bind (assembleAll_builds ..) fun _ => refl _

theorem freeMultiplyTranspose_builds [Field K] [LinearOrder K] (eps : K)
    (order : List (ℕ × K) → List (ℕ × K)) (nRows : ℕ) (ownedA : List (List ℕ))
    (apply : (ℕ → K) → (ℕ → K)) (rowsB : ℕ) (ownedB : List (List ℕ))
    (bs : Option (List (DevPart K))) :
    SameUnlessStopped only
      (freeMultiplyTranspose true eps order nRows ownedA apply rowsB ownedB bs)
      (freeMultiplyTranspose false eps order nRows ownedA apply rowsB ownedB bs) := by
  cases bs with
  | none => exact refl _
  | some bs =>
    exact bind (refl _) fun _ => mapM (fun _ => bind (convertTrilinos_builds ..) fun _ => refl _) _

theorem applyPart_builds [Field K] [LinearOrder K] (schedule : List ℕ) (size : ℕ)
    (owned : List (List ℕ)) (values : List (List K)) (junk : K) (y : List K) (a : DevPart K) :
    SameUnlessStopped only (applyPart true schedule size owned values junk y a)
      (applyPart false schedule size owned values junk y a) :=
  ite (fun _ => refl _) fun _ => abort _

theorem directSolverApply_builds [Zero K] (host : Bool) (lib : CuSolver K) (name : List Char)
    (op : Option (SolverMatrix K)) (b x : List K) (h : DevHeap) :
    SameUnlessStopped only (directSolverApply true host lib name op b x h)
      (directSolverApply false host lib name op b x h) := by
  have key : ∀ a : SolverMatrix K, ∀ h, SameUnlessStopped only (directApply true lib name a b x h)
      (directApply false lib name a b x h) := by
    intro a h
    refine ite (fun _ => bind ?_ fun _ => refl _) fun _ => ite (fun _ => ?_) fun _ =>
      ite (fun _ => bind ?_ fun _ => refl _) fun _ => refl _
    · exact ite (fun _ => refl _) fun _ => ite (fun _ => refl _) fun _ => ite (fun _ => refl _) fun _ =>
        bind (assert _) fun _ => refl _
    · exact bind (assert _) fun _ => bind (refl _) fun _ => bind (assert _) fun _ =>
        bind (assert _) fun _ => ite (fun _ => refl _) fun _ => bind (assert _) fun _ => refl _
    · exact bind (refl _) fun _ => bind (refl _) fun _ => bind (refl _) fun _ => bind (refl _) fun _ =>
        bind (refl _) fun _ => bind (assert _) fun _ => refl _
  cases op with
  | none => exact refl _
  | some a => exact ite (fun _ => bind (key _ _) fun _ => refl _) fun _ => key _ _

end

/-! ## Histories of calls on the device -/

section

variable {only : List String}

theorem useArrays_builds (h : DevHeap) (o : SpObj) :
    SameUnlessStopped only (useArrays true h o) (useArrays false h o) := by
  unfold useArrays
  split
  · exact refl _
  · exact abort _

theorem usePattern_builds (h : DevHeap) (o : SpObj) :
    SameUnlessStopped only (usePattern true h o) (usePattern false h o) := by
  unfold usePattern
  split
  · exact refl _
  · exact abort _

theorem vmultMem_builds (h : DevHeap) (o : SpObj) :
    SameUnlessStopped only (vmultMem true h o) (vmultMem false h o) := by
  refine bind (refl _) fun _ => ?_
  split
  · exact refl _
  · exact abort _

theorem memStep_builds (s : MemState) (c : MemCall) :
    SameUnlessStopped only (memStep true s c) (memStep false s c) := by
  cases c with
  | copy =>
    exact bind (refl _) fun _ => bind (ite (fun _ => bind (useArrays_builds ..) fun _ => refl _)
      fun _ => refl _) fun _ => refl _
  | reinit => exact bind (refl _) fun _ => bind (assert _) fun _ => refl _
  | vmult => exact bind (refl _) fun _ => bind (vmultMem_builds ..) fun _ => refl _
  | mmult =>
    refine bind (refl _) fun _ => bind (refl _) fun _ => bind (refl _) fun _ => ?_
    refine ite (fun _ => bind ?_ fun _ => refl _) fun _ => bind ?_ fun _ => refl _
    · exact bind (refl _) fun _ => bind (usePattern_builds ..) fun _ =>
        bind (usePattern_builds ..) fun _ => bind (refl _) fun _ => bind (refl _) fun _ =>
        bind (useArrays_builds ..) fun _ => bind (useArrays_builds ..) fun _ => refl _
    · exact bind (useArrays_builds ..) fun _ => bind (useArrays_builds ..) fun _ => refl _
  | construct => exact refl _
  | convert => exact refl _
  | move => exact refl _
  | moveAssign => exact refl _
  | destroy => exact refl _

theorem memRun_builds (s : MemState) (cs : List MemCall) :
    SameUnlessStopped only (memRun true s cs) (memRun false s cs) := by
  induction cs generalizing s with
  | nil => exact refl _
  | cons c cs ih => exact bind (memStep_builds ..) fun _ => ih _

variable {K : Type} [NonUnitalNonAssocSemiring K]

theorem devVmult_builds (a : DevMatrix K) (x y : List K) :
    SameUnlessStopped only (devVmult true a x y) (devVmult false a x y) :=
  ite (fun _ => refl _) fun _ => abort _

theorem cudaApply_builds (o : CudaOp K) (tr : Bool) (x y : List K) :
    SameUnlessStopped only (cudaApply true o tr x y) (cudaApply false o tr x y) :=
  ite (fun _ => bind (refl _) fun _ => bind (devVmult_builds ..) fun _ => refl _) fun _ =>
    bind (devVmult_builds ..) fun _ => refl _

theorem devMmult_builds (procs : ℕ) (a b : DevMatrix K) :
    SameUnlessStopped only (devMmult procs true a b) (devMmult procs false a b) := by
  unfold devMmult
  split
  · exact abort _
  · exact ite (fun _ => abort _) fun _ => refl _

theorem opStep_builds (procs : ℕ) (ops : List (CudaOp K)) (c : OpCall K) :
    SameUnlessStopped only (opStep procs true ops c) (opStep procs false ops c) := by
  cases c with
  | apply => exact bind (refl _) fun _ => bind (cudaApply_builds ..) fun _ => refl _
  | transpose => exact refl _
  | multiply =>
    exact bind (refl _) fun _ => bind (refl _) fun _ =>
      bind (bind (devMmult_builds ..) fun _ => refl _) fun _ => refl _
  | multiplyTranspose =>
    refine bind (refl _) fun _ => bind (refl _) fun _ => bind ?_ fun _ => refl _
    refine ite (fun _ => bind (devMmult_builds ..) fun _ => refl _) fun _ => ?_
    split
    · exact abort _
    · exact refl _

theorem opRun_builds (procs : ℕ) (ops : List (CudaOp K)) (cs : List (OpCall K)) :
    SameUnlessStopped only (opRun procs true ops cs) (opRun procs false ops cs) := by
  induction cs generalizing ops with
  | nil => exact refl _
  | cons c cs ih => exact bind (opStep_builds ..) fun _ => bind (ih _) fun _ => refl _

end

/-! ## Lifetimes -/

section

variable {only : List String}

theorem releaseFuel_builds (f : ℕ) (m : Mem) (l : List ℕ) :
    SameUnlessStopped only (Mem.releaseFuel true f m l) (Mem.releaseFuel false f m l) := by
  induction f generalizing m l with
  | zero => cases l <;> exact refl _
  | succ f ih =>
    cases l with
    | nil => exact refl _
    | cons a rest =>
      unfold Mem.releaseFuel
      refine ite (fun _ => refl _) fun _ => ite (fun _ => ?_) fun _ => ih _ _
      split
      · exact abort _
      · exact ih _ _

theorem Mem.exec_builds (m : Mem) (s : UseStmt) :
    SameUnlessStopped only (m.exec true s) (m.exec false s) := by
  unfold Mem.exec
  refine ite (fun _ => refl _) fun _ => ?_
  cases s with
  | drop => exact releaseFuel_builds ..
  | build e p t levels amgx =>
    refine bind (refl _) fun _ => ?_
    cases levels with
    | zero => exact abort _
    | succ r =>
      cases (m.obj e).evaluator with
      | none => exact refl _
      | some kind =>
        refine ite (fun _ => ?_) fun _ => refl _
        by_cases h : r = 0
        · simpa [h] using refl _
        · simpa [h] using abort _
  | object => exact refl _
  | evaluator => exact refl _
  | shared => exact refl _
  | copy => exact refl _
  | vmult => exact refl _

theorem Mem.run_builds (m : Mem) (ss : List UseStmt) :
    SameUnlessStopped only (m.run true ss) (m.run false ss) := by
  induction ss generalizing m with
  | nil => exact refl _
  | cons s ss ih => exact bind (m.exec_builds s) fun _ => ih _

end

/-! ## Smoothers -/

section

variable {only : List String}

theorem dealiiSmoother_builds (isTrilinos : Bool) (type : Option (List Char)) :
    SameUnlessStopped only (dealiiSmoother true isTrilinos type)
      (dealiiSmoother false isTrilinos type) :=
  bind (assert _) fun _ => refl _

theorem matrixFreeSmoother_builds {R : Type} (isMatrixFree : Bool) (type : Option (List Char))
    (degree : Option ℤ) (range maxEigenvalue : Option R) :
    SameUnlessStopped only (matrixFreeSmoother true isMatrixFree type degree range maxEigenvalue)
      (matrixFreeSmoother false isMatrixFree type degree range maxEigenvalue) :=
  bind (assert _) fun _ => refl _

theorem cudaSmoother_builds (isCuda square : Bool) (type : Option (List Char)) :
    SameUnlessStopped only (cudaSmoother true isCuda square type)
      (cudaSmoother false isCuda square type) :=
  bind (refl _) fun _ => ite (fun _ => bind (assert _) fun _ => refl _) fun _ => refl _

end

/-! ## The constructor of `Hierarchy` -/

section

variable {only : List String}

theorem SameRunUnlessStopped.refl {α : Type} (r : Run α) : SameRunUnlessStopped only r r := .inr (.inr rfl)

theorem SameRunUnlessStopped.bind {α β : Type} {d r : Run α} {f g : α → Run β}
    (h : SameRunUnlessStopped only d r) (hf : ∀ a, SameRunUnlessStopped only (f a) (g a)) :
    SameRunUnlessStopped only (d >>= f) (r >>= g) := by
  rcases h with h | ⟨m, hm, h⟩ | rfl
  · obtain ⟨t, o⟩ := d
    obtain rfl : o = .aborted := h
    exact .inl rfl
  · obtain ⟨t, o⟩ := d
    obtain rfl : o = .throws m := h
    exact .inr (.inl ⟨m, hm, rfl⟩)
  · obtain ⟨t, o⟩ := r
    cases o with
    | ok a =>
      rcases hf a with h | h | h
      · exact .inl h
      · exact .inr (.inl h)
      · refine .inr (.inr ?_)
        show (t ++ (g a).1, (g a).2) = (t ++ (f a).1, (f a).2)
        rw [h]
    | throws m => exact .inr (.inr rfl)
    | aborted => exact .inl rfl
    | ub w => exact .inr (.inr rfl)

theorem SameRunUnlessStopped.lift {α : Type} {d r : Outcome α} (h : SameUnlessStopped only d r) :
    SameRunUnlessStopped only (Run.lift d) (Run.lift r) := by
  rcases h with rfl | ⟨m, hm, rfl⟩ | rfl
  · exact .inl rfl
  · exact .inr (.inl ⟨m, hm, rfl⟩)
  · exact .inr (.inr rfl)

theorem SameRunUnlessStopped.ite {α : Type} {c : Prop} [Decidable c] {d d' r r' : Run α}
    (h : c → SameRunUnlessStopped only d r) (h' : ¬ c → SameRunUnlessStopped only d' r') :
    SameRunUnlessStopped only (if c then d else d') (if c then r else r') := by
  split
  · exact h ‹_›
  · exact h' ‹_›

end

section

variable {only : List String} {V : ℕ → Type} {d r : Helpers V}

theorem timed_builds {α : Type} (timer : Bool) (sec : String) {f g : Outcome α}
    (h : SameUnlessStopped only f g) : SameRunUnlessStopped only (timed timer sec f) (timed timer sec g) :=
  .bind (.refl _) fun _ => .bind (.lift h) fun _ => .refl _

theorem buildLoop_builds (h : SameHelpers only d r) (p : Params) (timer : Bool) (n l : ℕ)
    (L : Levels V) :
    SameRunUnlessStopped only (buildLoop d p timer n l L) (buildLoop r p timer n l L) := by
  induction hk : n - l generalizing l L with
  | zero =>
    rw [buildLoop, buildLoop, if_neg (by omega), if_neg (by omega)]
    exact .refl _
  | succ k ih =>
    rw [buildLoop, buildLoop.eq_1 r]
    have hl : l < n := by omega
    rw [if_pos hl, if_pos hl]
    refine .bind (.refl _) fun a => .ite (fun _ => ?_) fun _ => ?_
    · refine .bind (.refl _) fun _ => ?_
      exact .bind (timed_builds _ _ (h.buildCoarseSolver _ _ _)) fun _ => .refl _
    · refine .bind (timed_builds _ _ (h.buildSmoother _ _ _)) fun s =>
        .bind (timed_builds _ _ (h.buildRestrictor _ _)) fun R => ?_
      dsimp only
      refine .bind (.ite (fun _ => timed_builds _ _ (h.fastMultiplyTranspose _)) fun _ =>
        timed_builds _ _ (h.multiplyTranspose _ _ _)) fun ap => ?_
      exact .bind (timed_builds _ _ (h.multiply _ _ _)) fun _ => ih _ _ (by omega)

theorem buildHierarchy_builds (h : SameHelpers only d r) (timer : Bool) (params : Option Params) :
    SameRunUnlessStopped only (buildHierarchy true timer params (.ok d))
      (buildHierarchy false timer params (.ok r)) := by
  unfold buildHierarchy
  refine .bind (.refl _) fun _ => ?_
  show SameRunUnlessStopped only ((do
      let p ← Run.lift (Outcome.deref params "null params")
      _ : Run (Hierarchy V))) ((do
      let p ← Run.lift (Outcome.deref params "null params")
      _ : Run (Hierarchy V)))
  refine .bind (.refl _) fun p => ?_
  dsimp only
  refine .bind (.lift (assert _)) fun _ => .ite (fun _ => .refl _) fun _ => ?_
  refine .bind (.lift h.globalOperator) fun _ => .ite (fun _ => .refl _) fun _ => ?_
  exact .bind (buildLoop_builds h ..) fun _ => .refl _

end

end Mfmg
