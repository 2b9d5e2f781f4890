import Verif.Lemmas.Singular
import Verif.Props.SetupAll
import Mathlib.LinearAlgebra.Matrix.ToLinearEquiv

/-!
# C112: problems with a singular matrix
-/

set_option autoImplicit false

namespace Mfmg

open Spec Matrix

section

variable {K : Type} [Field K] [LinearOrder K] [IsStrictOrderedRing K]

/-- The coarse matrix is singular exactly if a nonzero coarse vector is prolonged into the kernel. -/
theorem semi_coarse_det {n m : ℕ} {A : Matrix (Fin n) (Fin n) K} (hA : IsSemidefinite A) (R : Matrix (Fin m) (Fin n) K) :
    (galerkin R A).det = 0 ↔ ∃ y : Fin m → K, y ≠ 0 ∧ A.mulVec (R.transpose.mulVec y) = 0 := by
  rw [← Matrix.exists_mulVec_eq_zero_iff]
  have hB : ∀ c, (galerkin R A).mulVec c = R.mulVec (A.mulVec (R.transpose.mulVec c)) := by
    intro c
    rw [galerkin, ← Matrix.mulVec_mulVec, ← Matrix.mulVec_mulVec]
  constructor
  · rintro ⟨y, hy, h⟩
    refine ⟨y, hy, semi_kernel hA ?_⟩
    rw [energyOf, Matrix.mulVec_transpose, ← Matrix.dotProduct_mulVec, ← Matrix.mulVec_transpose, ← hB, h, dotProduct_zero]
  · rintro ⟨y, hy, h⟩
    exact ⟨y, hy, by rw [hB, h, Matrix.mulVec_zero]⟩

/-- With the direct coarse solver and a symmetric positive semidefinite matrix the construction of a two-level
hierarchy succeeds exactly if the prolongation maps no nonzero coarse vector into the kernel of the matrix; otherwise
it ends with the exception of the factorisation. -/
theorem C112_direct (debug timer : Bool) (p : Params) (type : Option (List Char))
    (k : SmootherKind) (kind : Relaxation) (hk : dealiiSmoother debug true type = .ok k)
    (hk' : k.relaxation = some kind) (n m : ℕ) (rows : ∀ l, List (List (Fin (twoLevels n m l))))
    (A : Matrix (Fin n) (Fin n) K) (hA : IsSemidefinite A) (R : Matrix (Fin m) (Fin n) K)
    (solve : ∀ l, Matrix (Fin (twoLevels n m l)) (Fin (twoLevels n m l)) K → (Fin (twoLevels n m l) → K) →
      Fin (twoLevels n m l) → K)
    (hlev : p.maxLevels.getD 2 = 2) (hfast : p.fastAp.getD false = false) :
    ((∃ H, (buildHierarchy debug timer (some p) (.ok (directHelpers debug type (twoLevels n m) rows A
        (twoLevelRestriction R) solve))).result = .ok H) ↔
      ∀ y : Fin m → K, A.mulVec (R.transpose.mulVec y) = 0 → y = 0) ∧
    ((∃ y : Fin m → K, y ≠ 0 ∧ A.mulVec (R.transpose.mulVec y) = 0) →
      (buildHierarchy debug timer (some p) (.ok (directHelpers debug type (twoLevels n m) rows A
        (twoLevelRestriction R) solve))).result = .throws "ExcTrilinosError") := by
  have hb := two_build debug timer p type k kind hk hk' rows A R solve
    (directHelpers debug type (twoLevels n m) rows A (twoLevelRestriction R) solve) (directSolver (solve 1)) rfl
    (fun a => rfl) hlev hfast
  have hd := semi_coarse_det hA R
  have hthrow : (∃ y : Fin m → K, y ≠ 0 ∧ A.mulVec (R.transpose.mulVec y) = 0) →
      (buildHierarchy debug timer (some p) (.ok (directHelpers debug type (twoLevels n m) rows A
        (twoLevelRestriction R) solve))).result = .throws "ExcTrilinosError" := by
    intro h
    rw [hb]
    have : directSolver (solve 1) (galerkin R A) = .throws "ExcTrilinosError" := if_pos (hd.2 h)
    exact congrArg (fun o => Outcome.bind o _) this
  refine ⟨⟨?_, ?_⟩, hthrow⟩
  · rintro ⟨H, hH⟩ y hy
    by_contra h0
    rw [hthrow ⟨y, h0, hy⟩] at hH
    cases hH
  · intro h
    have h0 : ¬ (galerkin R A).det = 0 := by
      rw [hd]
      rintro ⟨y, h1, h2⟩
      exact h1 (h y h2)
    have : directSolver (solve 1) (galerkin R A) = .ok fun b _ => solve 1 (galerkin R A) b := if_neg h0
    exact ⟨_, hb.trans (congrArg (fun o => Outcome.bind o _) this)⟩

omit [LinearOrder K] [IsStrictOrderedRing K] in
/-- Sums of cell matrices annihilate what every cell matrix annihilates. -/
theorem patch_annihilates {procs : List (ProcFem K)} {n : ℕ} {w : Fin n → K} (hw : CellsAnnihilate procs n w)
    {q : ProcFem K} (hq : q ∈ procs) {cells : Finset ℕ} (hc : ∀ c ∈ cells, c < q.share.mesh.nCells) :
    (q.patchMatrix n cells).mulVec w = 0 := by
  funext x
  simp only [Matrix.mulVec, dotProduct, ProcFem.patchMatrix, Matrix.of_apply, Pi.zero_apply, Finset.sum_mul]
  rw [Finset.sum_comm]
  exact Finset.sum_eq_zero fun c h => hw q hq c (hc c h) x

omit [LinearOrder K] [IsStrictOrderedRing K] in
/-- So does the global matrix. -/
theorem global_annihilates {procs : List (ProcFem K)} {n : ℕ} {w : Fin n → K} (hw : CellsAnnihilate procs n w) :
    (globalMatrix procs n).mulVec w = 0 := by
  have h : ∀ l : List (ProcFem K), (∀ q ∈ l, q ∈ procs) → ∀ x : Fin n, ∑ y : Fin n, globalEntry l x.val y.val * w y = 0 := by
    intro l
    induction l with
    | nil => intro _ x; simp [globalEntry]
    | cons q l ih =>
      intro hl x
      have h1 := ih (fun q h => hl q (List.mem_cons_of_mem _ h)) x
      have h2 := congrFun (patch_annihilates hw (hl q List.mem_cons_self) (cells := q.ownCells)
        (fun c hc => Finset.mem_range.1 (Finset.mem_filter.1 hc).1)) x
      simp only [Matrix.mulVec, dotProduct, ProcFem.patchMatrix, Matrix.of_apply, Pi.zero_apply] at h2
      simp only [globalEntry, List.map_cons, List.sum_cons, add_mul, Finset.sum_add_distrib] at h1 h2 ⊢
      rw [h1, h2, add_zero]
  funext x
  exact h procs (fun q h => h) x

/-- Expected: the solver can be set up for every symmetric positive semidefinite problem.  Violated for every problem
without boundary conditions: on any number of processes, with any partitioner and exact eigenpairs whose omitted
eigenvalues are positive, if some nonzero vector is annihilated by all cell matrices then the restrictor is computed
and the constructor of the hierarchy fails in the factorisation of the coarse matrix, because that vector is in the
coarse space. -/
theorem C112_neumann_violated (debug timer dynAdds matrixFree : Bool) (dim : ℕ) (ap : AggParams) (strat : Strategy)
    (hap : dispatch dim ap = .ok strat) (ep : EigParams) (name : String) (hep : Selects matrixFree ep name)
    (procs : List (ProcFem K)) (hs : ∀ q ∈ procs, q.share.Sound debug) (hq : ∀ q ∈ procs, q.Faithful name)
    (gdiag : ℕ → K) (hg : ∀ x, gdiag x = globalEntry procs x x) (n : ℕ)
    (omitted : ProcFem K → Finset ℕ → K)
    (hsol : ∀ q ∈ procs, q.SolvedExactly debug dim strat n name (omitted q))
    (hA : IsSemidefinite (globalMatrix procs n)) (w : Fin n → K) (hw : CellsAnnihilate procs n w) (hw0 : w ≠ 0)
    (p : Params) (hlev : p.maxLevels.getD 2 = 2) (hfast : p.fastAp.getD false = false) (type : Option (List Char))
    (k : SmootherKind) (kind : Relaxation) (hk : dealiiSmoother debug true type = .ok k)
    (hk' : k.relaxation = some kind) :
    ∃ (us : List UserIndex) (a : Assembled K) (m : ℕ),
      setupRestrictor debug dynAdds matrixFree dim ap ep gdiag (procs.map fun q => (q.share, fun _ => 0)) = .ok (us, a) ∧
      ∀ (rows : ∀ l, List (List (Fin (twoLevels n m l))))
        (solve : ∀ l, Matrix (Fin (twoLevels n m l)) (Fin (twoLevels n m l)) K → (Fin (twoLevels n m l) → K) →
          Fin (twoLevels n m l) → K),
        (buildHierarchy debug timer (some p) (.ok (directHelpers debug type (twoLevels n m) rows (globalMatrix procs n)
          (twoLevelRestriction (a.R.block m n)) solve))).result = .throws "ExcTrilinosError" := by
  obtain ⟨rs, a, h1, h2, h3⟩ := C80_nullspace debug dynAdds matrixFree dim ap strat hap ep name hep procs hs hq gdiag hg n
    omitted hsol
  refine ⟨_, a, (rowsOf (rs.map Prod.snd).flatten).length, h1, ?_⟩
  intro rows solve
  refine (C112_direct debug timer p type k kind hk hk' n _ rows _ hA _ solve hlev hfast).2 ?_
  obtain ⟨y, hy⟩ := h3 w
  have hyw : (a.R.block (rowsOf (rs.map Prod.snd).flatten).length n).transpose.mulVec y = w := by
    funext i
    refine hy i ?_ ?_
    · rw [hg]
      exact (hA.diag i).ne'
    · intro b hb _
      obtain ⟨r, hr, hb'⟩ := List.mem_flatMap.1 hb
      obtain ⟨j, hj, rfl⟩ := List.mem_mapIdx.1 hb'
      exact patch_annihilates hw (List.of_mem_zip hr).1 fun c hc => Finset.mem_range.1 (Finset.mem_filter.1 hc).1
  refine ⟨y, ?_, by rw [hyw]; exact global_annihilates hw⟩
  rintro rfl
  rw [Matrix.mulVec_zero] at hyw
  exact hw0 hyw.symm

/-- With a coarse solver that returns a solution of every solvable coarse system the solver works for symmetric
positive semidefinite problems: construction succeeds and every standalone cycle for a system that has a solution
decreases the energy of the error, unless the right hand side is already attained.  Missing: the direct solver, with
which there is no hierarchy (`C112_neumann_violated`). -/
theorem C112_cycle_partial (debug timer : Bool) (p : Params) (type : Option (List Char))
    (htype : dealiiSmoother debug true type = .ok .symmetricGaussSeidel ∨
      dealiiSmoother debug true type = .ok .gaussSeidel) (n m : ℕ)
    (own : ∀ l, List (Fin (twoLevels n m l))) (hown : ListsAll (own 0))
    (A : Matrix (Fin n) (Fin n) K) (hA : IsSemidefinite A) (R : Matrix (Fin m) (Fin n) K)
    (solve : ∀ l, Matrix (Fin (twoLevels n m l)) (Fin (twoLevels n m l)) K → (Fin (twoLevels n m l) → K) →
      Fin (twoLevels n m l) → K)
    (G : Matrix (Fin m) (Fin m) K) (hG : IsGeneralisedInverse (galerkin R A) G)
    (hsolve : ∀ b : Fin m → K, solve 1 (galerkin R A) b = G.mulVec b) (hlev : p.maxLevels.getD 2 = 2)
    (hfast : p.fastAp.getD false = false) (hpre : p.isPreconditioner = some false)
    (hsteps : 0 < toUnsigned (p.nSmoothingSteps.getD 1)) :
    ∃ H, (buildHierarchy debug timer (some p)
        (.ok (matrixHelpers debug type (twoLevels n m) (fun l => [own l]) A (twoLevelRestriction R) solve))).result
          = .ok H ∧
      ∀ fresh (x b xs : Fin n → K), A.mulVec xs = b → A.mulVec x ≠ b →
        ∃ y : Fin n → K, (H.vmult fresh x b).result = .ok y ∧ energyOf A (xs - y) < energyOf A (xs - x) := by
  obtain ⟨k, kind, hk, hk', hs⟩ : ∃ k kind, dealiiSmoother debug true type = .ok k ∧
      k.relaxation = some kind ∧ IsSweep kind := by
    rcases htype with h | h
    · exact ⟨_, _, h, rfl, by simp [IsSweep]⟩
    · exact ⟨_, _, h, rfl, by simp [IsSweep]⟩
  have hb := two_build debug timer p type k kind hk hk' (fun l => [own l]) A R solve
    (matrixHelpers debug type (twoLevels n m) (fun l => [own l]) A (twoLevelRestriction R) solve)
    (fun M => .ok fun b _ => solve 1 M b) rfl (fun a => rfl) hlev hfast
  have hlin := two_linear timer p kind (fun l => [own l]) A R G (fun b _ => solve 1 (galerkin R A) b) hsolve
  obtain ⟨H, hH⟩ : ∃ H, H = twoLevelHierarchy (V := fun l => Fin (twoLevels n m l) → K) timer p (matrixOp A)
        (dealiiSmootherApply kind [own 0] (matrixOp A)) (matrixOp R)
        ((matrixOp R).mul ((matrixOp A).mulTranspose (matrixOp R))) (fun b _ => solve 1 (galerkin R A) b) := ⟨_, rfl⟩
  refine ⟨H, by rw [hb, hH]; rfl, ?_⟩
  have hlin : IsLinear H (semiData kind (fun l => [own l]) A R G) := by
    rw [hH]
    exact hlin
  have hp : H.isPreconditioner = false := by rw [hH]; simp [twoLevelHierarchy, hpre]
  have hL : H.numLevels = 2 := by rw [hH]; rfl
  have hn : 0 < H.nSmoothingSteps := by rw [hH]; exact hsteps
  intro fresh x b xs hxs hx
  obtain ⟨y, hy⟩ : ∃ y : Fin n → K, cycle (semiData kind (fun l => [own l]) A R G) H.nSmoothingSteps 1 0 b x = y :=
    ⟨_, rfl⟩
  have hc := C04_cycle_is_textbook H _ hlin fresh x b (Or.inr (by omega))
  rw [hp, hL] at hc
  refine ⟨y, hc.trans (congrArg Outcome.ok hy), ?_⟩
  rw [semi_cycle_err kind _ A R G _ b x xs y hxs hy]
  have herr : (fun e : Fin n → K => e - relaxVmult kind A [own 0] (A.mulVec e))
      = fun e => (sweepRows kind (own 0)).foldl (errRow A) e := by
    funext e
    exact err_relax hs A hown e
  have hne : A.mulVec (xs - x) ≠ 0 := by
    rw [Matrix.mulVec_sub, hxs]
    exact sub_ne_zero.2 (Ne.symm hx)
  have hfin : ∀ T : (Fin n → K) → Fin n → K, (T = fun e => (sweepRows kind (own 0)).foldl (errRow A) e) →
      energyOf A (T^[H.nSmoothingSteps] ((fun e => e - R.transpose.mulVec (G.mulVec (R.mulVec (A.mulVec e))))
        (T^[H.nSmoothingSteps] (xs - x)))) < energyOf A (xs - x) := by
    rintro T rfl
    exact ((semi_iterate hA _ _ _).1.trans (semi_correction hA R hG _)).trans_lt
      ((semi_iterate hA _ _ _).2 hn (sweepRows_all kind hown) hne)
  exact hfin _ herr

end

/-- The Laplacian on four cells without boundary conditions. -/
theorem lap_semidefinite : IsSemidefinite (globalMatrix [rowFem lapMat 0] 5) := by
  have e : globalMatrix [rowFem lapMat 0] 5
      = !![1, -1, 0, 0, 0; -1, 2, -1, 0, 0; 0, -1, 2, -1, 0; 0, 0, -1, 2, -1; 0, 0, 0, -1, 1] := by
    decide +kernel
  rw [e]
  refine ⟨by decide +kernel, ?_, by decide +kernel⟩
  intro v
  have h : v ⬝ᵥ (!![1, -1, 0, 0, 0; -1, 2, -1, 0, 0; 0, -1, 2, -1, 0; 0, 0, -1, 2, -1; 0, 0, 0, -1, 1] :
      Matrix (Fin 5) (Fin 5) ℚ).mulVec v
      = (v 0 - v 1) ^ 2 + (v 1 - v 2) ^ 2 + (v 2 - v 3) ^ 2 + (v 3 - v 4) ^ 2 := by
    simp [Matrix.mulVec, dotProduct, Fin.sum_univ_five]
    ring
  rw [h]
  positivity

/-- The constants are annihilated by every cell matrix, so there is no hierarchy. -/
example (dynAdds : Bool) :=
  C112_neumann_violated true false dynAdds false 2 ⟨some "block", none, some 2, some 1, none⟩ (.block 2 1 1)
    (by decide +kernel) ⟨some "lanczos", false⟩ "lanczos" ⟨rfl, Or.inl rfl, by simp⟩ [rowFem lapMat 0]
    (by simpa using rowFem_sound lapMat 0) (by simpa using rowFem_faithful lapMat 0 lapMat_support)
    (fun x => globalEntry [rowFem lapMat 0] x x) (fun _ => rfl) 5
    (fun _ _ => 1) (by simpa using rowFem_solved lapMat 0 1 (by norm_num) lap_solved) lap_semidefinite (fun _ => 1)
    (by
      have h : ∀ c < 4, ∀ x : Fin 5, ∑ y : Fin 5, lapMat c x.val y.val * (1 : ℚ) = 0 := by decide +kernel
      intro q hq c hc x
      obtain rfl := List.mem_singleton.1 hq
      exact h c hc x) (fun h => by simpa using congrFun h 0)
    {} rfl rfl none .symmetricGaussSeidel _ rfl rfl

/-- Three dofs without boundary conditions. -/
def neumann3 : Matrix (Fin 3) (Fin 3) ℚ := !![1, -1, 0; -1, 2, -1; 0, -1, 1]

theorem neumann3_semidefinite : IsSemidefinite neumann3 := by
  refine ⟨by decide +kernel, ?_, by decide +kernel⟩
  intro v
  have h : v ⬝ᵥ neumann3.mulVec v = (v 0 - v 1) ^ 2 + (v 1 - v 2) ^ 2 := by
    simp [neumann3, Matrix.mulVec, dotProduct, Fin.sum_univ_three]
    ring
  rw [h]
  positivity

/-- With one coarse vector that is not constant the factorisation succeeds, with the constant it does not. -/
example (rows : ∀ l, List (List (Fin (twoLevels 3 1 l))))
    (solve : ∀ l, Matrix (Fin (twoLevels 3 1 l)) (Fin (twoLevels 3 1 l)) ℚ → (Fin (twoLevels 3 1 l) → ℚ) →
      Fin (twoLevels 3 1 l) → ℚ) :
    (∃ H, (buildHierarchy false true (some {}) (.ok (directHelpers false none (twoLevels 3 1) rows neumann3
        (twoLevelRestriction !![1, 0, 0]) solve))).result = .ok H) ∧
      (buildHierarchy false true (some {}) (.ok (directHelpers false none (twoLevels 3 1) rows neumann3
        (twoLevelRestriction !![1, 1, 1]) solve))).result = .throws "ExcTrilinosError" := by
  refine ⟨(C112_direct false true {} none .symmetricGaussSeidel _ rfl rfl 3 1 rows neumann3 neumann3_semidefinite
    !![1, 0, 0] solve rfl rfl).1.2 ?_, (C112_direct false true {} none .symmetricGaussSeidel _ rfl rfl 3 1 rows neumann3
      neumann3_semidefinite !![1, 1, 1] solve rfl rfl).2 ⟨fun _ => 1, fun h => by simpa using congrFun h 0, by decide +kernel⟩⟩
  intro y hy
  have := congrFun hy 0
  funext i
  fin_cases i
  simpa [neumann3, Matrix.mulVec, dotProduct, Fin.sum_univ_three] using this

/-- The restriction of the first two dofs and of the third. -/
def neumannR : Matrix (Fin 2) (Fin 3) ℚ := !![1, 1, 0; 0, 0, 1]

/-- A generalised inverse of the coarse matrix, which is singular. -/
def neumannG : Matrix (Fin 2) (Fin 2) ℚ := !![1, 0; 0, 0]

example : galerkin neumannR neumann3 = !![1, -1; -1, 1] := by decide +kernel

/-- A coarse solver that applies the generalised inverse. -/
def neumannSolve : ∀ l, Matrix (Fin (twoLevels 3 2 l)) (Fin (twoLevels 3 2 l)) ℚ → (Fin (twoLevels 3 2 l) → ℚ) →
    Fin (twoLevels 3 2 l) → ℚ
  | 0, _, b => b
  | _ + 1, _, b => neumannG.mulVec b

example (own : ∀ l, List (Fin (twoLevels 3 2 l))) (hown : ListsAll (own 0)) :=
  C112_cycle_partial true true { isPreconditioner := some false } none (Or.inl rfl) 3 2 own hown neumann3
    neumann3_semidefinite neumannR neumannSolve neumannG
    (by
      change galerkin neumannR neumann3 * neumannG * galerkin neumannR neumann3 = galerkin neumannR neumann3
      decide +kernel) (fun _ => rfl) rfl rfl rfl (by decide)

/-- A system that has solutions and a start that is none of them. -/
example : neumann3.mulVec ![1, 0, 0] = ![1, -1, 0] ∧ neumann3.mulVec 0 ≠ ![1, -1, 0] := by
  constructor <;> decide +kernel

end Mfmg
