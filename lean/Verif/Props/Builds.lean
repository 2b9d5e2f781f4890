import Verif.Lemmas.Builds
import Verif.Examples.DirectSolver
import Verif.Props.HostOperator
import Verif.Props.LevelSizes
import Verif.Props.Lifetime
import Verif.Props.LocalEig
import Verif.Props.MultiVector
import Verif.Props.Diagonal
import Verif.Props.DeviceFree
import Verif.Props.DeviceMemory
import Verif.Props.DeviceOperator
import Verif.Props.DeviceSetup
import Verif.Props.Construction
import Verif.Props.SetupAll
import Verif.Props.Relaxation

/-!
# A release build computes what a debug build computes (C85)

Every function of the model that depends on the build is compared with itself in the other build.
Debug builds may stop earlier, by an assertion; block agglomeration has one exception of its own,
`"Mesh locally refined"`.  In every other case the outcome is the same.
-/

set_option autoImplicit false

namespace Mfmg

open SameUnlessStopped

/-! ## Hierarchies -/

section

variable {V : ℕ → Type} {only : List String} {d r : Helpers V}

/-- **C85**, construction.  If the set-up functions give the same in both builds unless the debug build
stops, then so does the constructor, whatever the parameters and with the same timer events: the
release build then has the same hierarchy. -/
theorem C85_construction (h : SameHelpers only d r) (timer : Bool) (params : Option Params) :
    SameRunUnlessStopped only (buildHierarchy true timer params (.ok d))
      (buildHierarchy false timer params (.ok r)) :=
  buildHierarchy_builds h timer params

/-- **C85**, parameter tree.  The tree the caller gets back is the same too. -/
theorem C85_tree {md mr : PForest → Helpers V} (h : ∀ t, SameHelpers only (md t) (mr t))
    (timer : Bool) (sc : Scan) (t : PForest) :
    (construct true timer sc md t).1.result = .aborted ∨
    (∃ m ∈ only, (construct true timer sc md t).1.result = .throws m) ∨
    construct false timer sc mr t = construct true timer sc md t := by
  have hh : SameHelpers only (treeHelpers md t) (treeHelpers mr t) :=
    { globalOperator := (h t).globalOperator
      buildSmoother := (h t).buildSmoother
      buildRestrictor := (h t).buildRestrictor
      fastMultiplyTranspose := (h t).fastMultiplyTranspose
      multiplyTranspose := (h t).multiplyTranspose
      multiply := (h t).multiply
      buildCoarseSolver := fun l a p => (h _).buildCoarseSolver l a p }
  rcases buildHierarchy_builds hh timer (some (treeParams sc t)) with e | e | e
  · exact .inl e
  · exact .inr (.inl e)
  · refine .inr (.inr ?_)
    unfold construct
    rw [e]

end

section

variable {K : Type} [Field K]

/-- **C85**, assembled hierarchies.  For every matrix, restriction, smoother name and parameters a
hierarchy constructed in a debug build is the one constructed in a release build. -/
theorem C85_matrix_hierarchy (timer : Bool) (params : Option Params) (type : Option (List Char))
    (dims : ℕ → ℕ) (procs : ∀ l, List (List (Fin (dims l))))
    (A : Matrix (Fin (dims 0)) (Fin (dims 0)) K)
    (R : ∀ l, Matrix (Fin (dims (l + 1))) (Fin (dims l)) K)
    (solve : ∀ l, Matrix (Fin (dims l)) (Fin (dims l)) K → (Fin (dims l) → K) → Fin (dims l) → K) :
    SameRunUnlessStopped []
      (buildHierarchy true timer params (.ok (matrixHelpers true type dims procs A R solve)))
      (buildHierarchy false timer params (.ok (matrixHelpers false type dims procs A R solve))) :=
  buildHierarchy_builds
    { globalOperator := refl _
      buildSmoother := fun _ _ _ => .bind (dealiiSmoother_builds ..) fun _ => refl _
      buildRestrictor := fun _ _ => refl _
      fastMultiplyTranspose := fun _ => refl _
      multiplyTranspose := fun _ _ _ => refl _
      multiply := fun _ _ _ => refl _
      buildCoarseSolver := fun _ _ _ => refl _ } timer params

/-- **C85**, matrix-free hierarchies. -/
theorem C85_matrix_free_hierarchy [LinearOrder K] (timer : Bool) (params : Option Params)
    (type : Option (List Char)) (degree : Option ℤ) (range maxEigenvalue : Option K) (auto : ℕ)
    (dims : ℕ → ℕ) (dinv : ∀ l, Fin (dims l) → K)
    (estimate : ∀ l, ((Fin (dims l) → K) → Fin (dims l) → K) → (Fin (dims l) → K) → List K)
    (A : Matrix (Fin (dims 0)) (Fin (dims 0)) K)
    (R : ∀ l, Matrix (Fin (dims (l + 1))) (Fin (dims l)) K)
    (solve : ∀ l, Matrix (Fin (dims l)) (Fin (dims l)) K → (Fin (dims l) → K) → Fin (dims l) → K) :
    SameRunUnlessStopped []
      (buildHierarchy true timer params (.ok (matrixFreeHelpers true type degree range maxEigenvalue
        auto dims dinv estimate A R solve)))
      (buildHierarchy false timer params (.ok (matrixFreeHelpers false type degree range maxEigenvalue
        auto dims dinv estimate A R solve))) :=
  buildHierarchy_builds (d := matrixFreeHelpers true type degree range maxEigenvalue auto dims dinv
      estimate A R solve)
    (r := matrixFreeHelpers false type degree range maxEigenvalue auto dims dinv estimate A R solve)
    { globalOperator := refl _
      buildSmoother := fun _ _ _ => .bind (matrixFreeSmoother_builds ..) fun _ => refl _
      buildRestrictor := fun _ _ => refl _
      fastMultiplyTranspose := fun _ => refl _
      multiplyTranspose := fun _ _ _ => refl _
      multiply := fun _ _ _ => refl _
      buildCoarseSolver := fun _ _ _ => refl _ } timer params

/-- **C85**, device smoother. -/
theorem C85_device_smoother (isCuda square : Bool) (type : Option (List Char)) :
    SameUnlessStopped [] (cudaSmoother true isCuda square type)
      (cudaSmoother false isCuda square type) :=
  cudaSmoother_builds ..

/-- **C85**, sizes of the levels: the construction of the operators of any number of levels. -/
theorem C85_levels [LinearOrder K] (fast : Bool) (eps : K)
    (mm : GMat K → GMat K → Outcome (HostOp K)) (ev : Evaluator K) (numLevels : ℕ) :
    SameUnlessStopped [] (sizedHierarchy true fast eps mm ev numLevels)
      (sizedHierarchy false fast eps mm ev numLevels) :=
  sizedLoop_builds ..

/-- **C85**, products and transposes of operators on the host. -/
theorem C85_operators [LinearOrder K] (eps : K) (mm : GMat K → GMat K → Outcome (HostOp K))
    (e : OpExpr K) : SameUnlessStopped [] (e.build true eps mm) (e.build false eps mm) :=
  e.build_builds eps mm

end

/-- **C85**, programs: creation, sharing and destruction of the objects of a program, the construction
of hierarchies and their application. -/
theorem C85_programs (m : Mem) (ss : List UseStmt) :
    SameUnlessStopped [] (m.run true ss) (m.run false ss) :=
  m.run_builds ss

/-! ## Setting up the restriction -/

/-- **C85**, agglomerates.  The user indices and the number of agglomerates are the same unless the
debug build throws `"Mesh locally refined"`. -/
theorem C85_agglomerates (m : Mesh) (dim nx ny nz : ℕ) (u : UserIndex) :
    SameUnlessStopped ["Mesh locally refined"] (buildAgglomeratesBlock m true dim nx ny nz u)
      (buildAgglomeratesBlock m false dim nx ny nz u) :=
  buildAgglomeratesBlock_builds (by simp) ..

section

variable {K : Type} [Field K]

/-- **C85**, restriction.  On any number of processes, with every partitioner and eigensolver and for
all schedules of the threads. -/
theorem C85_restriction (dynAdds matrixFree : Bool) (dim : ℕ) (ap : AggParams) (ep : EigParams)
    (gdiag : ℕ → K) (l : List (Share K × UserIndex)) :
    SameUnlessStopped ["Mesh locally refined"]
      (setupRestrictor true dynAdds matrixFree dim ap ep gdiag l)
      (setupRestrictor false dynAdds matrixFree dim ap ep gdiag l) :=
  .bind (setupShares_builds (by simp) ..) fun _ => .bind (assembleAll_builds ..) fun _ => refl _

/-- **C85**, the matrices of `fast_ap`. -/
theorem C85_fast_ap (wide dynAdds : Bool) (nCells : ℕ) (owned : ℕ → Bool) (u : UserIndex)
    (nAgg : ℕ) (conn : ℕ → List ℕ) (pe : PatchEval K) (gdiag : ℕ → K) (first : ℕ)
    (s : Collected K) (es esH : List WSEvent) :
    SameUnlessStopped []
      (fastAP wide true dynAdds nCells owned u nAgg conn pe gdiag first s es esH)
      (fastAP wide false dynAdds nCells owned u nAgg conn pe gdiag first s es esH) :=
  fastAP_builds ..

/-- **C85**, assembly with the distributed diagonal. -/
theorem C85_assembly [DecidableEq K] (ps : List (RankVector K × Collected K)) :
    SameUnlessStopped [] (restrictionProcs true ps) (restrictionProcs false ps) :=
  assembleProcs_builds ..

/-- **C85**, local eigenproblems, matrix-based and matrix-free. -/
theorem C85_local [LinearOrder K] (type : Option (List Char)) (n size : ℕ) (A : ℕ → ℕ → K)
    (constrained : List ℕ) (diag : List K) (S : EigenSolvers K) :
    SameUnlessStopped [] (localMatrixBased true type n size A constrained S)
      (localMatrixBased false type n size A constrained S) ∧
    SameUnlessStopped [] (localMatrixFree true type n size A diag S)
      (localMatrixFree false type n size A diag S) :=
  ⟨localMatrixBased_builds .., localMatrixFree_builds ..⟩

/-- **C85**, the vector operations Anasazi works with. -/
theorem C85_multivectors (alpha beta : K) (A B mv : MV) (rows cols : ℕ) (M : ℕ → ℕ → K)
    (index : List ℕ) (h : Heap K) :
    SameUnlessStopped [] (mvTimesMatAddMv true alpha A rows cols M beta mv h)
      (mvTimesMatAddMv false alpha A rows cols M beta mv h) ∧
    SameUnlessStopped [] (mvAddMv true alpha A beta B mv h) (mvAddMv false alpha A beta B mv h) ∧
    SameUnlessStopped [] (setBlock true A index mv h) (setBlock false A index mv h) :=
  ⟨mvTimesMatAddMv_builds .., mvAddMv_builds .., setBlock_builds ..⟩

end

/-- **C85**, Lanczos iteration: the eigenpairs returned, with or without deflation. -/
theorem C85_lanczos {E : Type} [NormedAddCommGroup E] [InnerProductSpace ℝ E] (A : E → E)
    (tridiag : List ℝ → List ℝ → ℕ → List ℝ × List ℝ) (sortPerm : List ℝ → List ℕ)
    (perturb : ℕ → E → E) (emptyVec : E) (n : ℕ) (deflated : Option (ℕ × ℕ)) (p : LanczosParams)
    (guess : E) :
    SameUnlessStopped []
      (lanczosSolve true A tridiag sortPerm perturb emptyVec n deflated p guess)
      (lanczosSolve false A tridiag sortPerm perturb emptyVec n deflated p guess) :=
  lanczosSolve_builds ..

/-! ## The device -/

section

variable {K : Type}

/-- **C85**, device matrices: the three conversions to the device, and the form AMGX needs. -/
theorem C85_device_matrices (read : List ℕ → ℕ → Outcome ℕ) (nCols nGlobal : ℕ) (gid : ℕ → ℕ)
    (rows : List (List (ℕ × K))) (data : Csr K) (sort : (ℕ → ℕ → Bool) → List ℕ → List ℕ)
    (owned sent : List ℕ) :
    SameUnlessStopped [] (convertDealii read true nCols rows) (convertDealii read false nCols rows) ∧
    SameUnlessStopped [] (convertTrilinos true gid rows) (convertTrilinos false gid rows) ∧
    SameUnlessStopped [] (convertEpetra true gid data) (convertEpetra false gid data) ∧
    SameUnlessStopped [] (csrToAmgx true sort nGlobal owned sent data)
      (csrToAmgx false sort nGlobal owned sent data) :=
  ⟨convertDealii_builds .., convertTrilinos_builds .., convertEpetra_builds .., csrToAmgx_builds ..⟩

/-- **C85**, device operators: every history of calls. -/
theorem C85_device_operators [NonUnitalNonAssocSemiring K] (procs : ℕ) (ops : List (CudaOp K))
    (cs : List (OpCall K)) :
    SameUnlessStopped [] (opRun procs true ops cs) (opRun procs false ops cs) :=
  opRun_builds ..

/-- **C85**, device memory: every history of calls makes the same allocations and frees. -/
theorem C85_device_memory (s : MemState) (cs : List MemCall) :
    SameUnlessStopped [] (memRun true s cs) (memRun false s cs) :=
  memRun_builds ..

/-- **C85**, restriction built on the device. -/
theorem C85_device_restriction [Field K] (dynAdds : Bool) (junk : K)
    (sygvd : ℕ → List K → List K → List K × List K × Bool) (nEig : ℕ) (gdiag : ℕ → K)
    (ranks : List (DevHeap × List (DevAgg K))) :
    SameUnlessStopped [] (deviceRestrictor true dynAdds junk sygvd nEig gdiag ranks)
      (deviceRestrictor false dynAdds junk sygvd nEig gdiag ranks) :=
  deviceRestrictor_builds ..

/-- **C85**, matrix-free operator on the device: the product with the transposed restriction and the
application of the result. -/
theorem C85_device_free [Field K] [LinearOrder K] (eps : K)
    (order : List (ℕ × K) → List (ℕ × K)) (nRows : ℕ) (ownedA : List (List ℕ))
    (apply : (ℕ → K) → (ℕ → K)) (rowsB : ℕ) (ownedB : List (List ℕ))
    (bs : Option (List (DevPart K))) (schedule : List ℕ) (size : ℕ) (owned : List (List ℕ))
    (values : List (List K)) (junk : K) (y : List K) (a : DevPart K) :
    SameUnlessStopped []
      (freeMultiplyTranspose true eps order nRows ownedA apply rowsB ownedB bs)
      (freeMultiplyTranspose false eps order nRows ownedA apply rowsB ownedB bs) ∧
    SameUnlessStopped [] (applyPart true schedule size owned values junk y a)
      (applyPart false schedule size owned values junk y a) :=
  ⟨freeMultiplyTranspose_builds .., applyPart_builds ..⟩

/-- **C85**, coarse solvers on the device. -/
theorem C85_device_solver [Zero K] (host : Bool) (lib : CuSolver K) (name : List Char)
    (op : Option (SolverMatrix K)) (b x : List K) (h : DevHeap) :
    SameUnlessStopped [] (directSolverApply true host lib name op b x h)
      (directSolverApply false host lib name op b x h) :=
  directSolverApply_builds ..

end

/-! ## Examples

Each pair of cases: the debug build gives a result, which is then the result of the release build;
and the debug build stops where the release build goes on. -/

theorem exHelpers_same : SameHelpers [] exHelpers exHelpers :=
  ⟨refl _, fun _ _ _ => refl _, fun _ _ => refl _, fun _ => refl _, fun _ _ _ => refl _,
    fun _ _ _ => refl _, fun _ _ _ => refl _⟩

/-- A hierarchy of four levels built in a debug build. -/
example : ∃ H, (buildHierarchy true true (some { maxLevels := some 4 }) (.ok exHelpers)).result = .ok H ∧
    (buildHierarchy false true (some { maxLevels := some 4 }) (.ok exHelpers)).result = .ok H := by
  have h := C85_construction exHelpers_same true (some { maxLevels := some 4 })
  obtain ⟨H, hH⟩ := exBuild 4 (by decide) true
  rcases h with e | ⟨m, hm, -⟩ | e
  · rw [hH] at e; cases e
  · simp at hm
  · exact ⟨H, hH, by rw [e, hH]⟩

/-- No levels: the debug build stops, the release build does what it does. -/
example : (buildHierarchy true true (some { maxLevels := some 0 }) (.ok exHelpers)).result = .aborted ∧
    (buildHierarchy false true (some { maxLevels := some 0 }) (.ok exHelpers)).result
      = .ub "_levels[0] on an empty vector" := ⟨rfl, rfl⟩

/-- A smoother that is not there: the exception is the same. -/
example : (dealiiSmoother true true (some (chars! "sor"))) = dealiiSmoother false true (some (chars! "sor")) ∧
    dealiiSmoother true false none = .aborted ∧
    dealiiSmoother false false none = .ub "trilinos_operator is null" := by decide +kernel

/-- The second level of a matrix-free hierarchy. -/
example : matrixFreeSmoother true false none none (none : Option ℚ) none = .aborted := rfl

example : cudaSmoother true true true none = .ok .jacobi ∧ cudaSmoother false true false none = .ok .jacobi ∧
    cudaSmoother true true false none = .aborted := by decide +kernel

/-- Two levels, from the debug build. -/
example : ∃ levels, sizedHierarchy false false (1 / 10 ^ 14) (fun _ _ => .ub "") exEvaluator 2 = .ok levels ∧
    levels.length = 2 := by
  obtain ⟨levels, h, hl, -⟩ := C65_two_levels_partial true false true (1 / 10 ^ 14) (fun _ _ => .ub "")
    exEvaluator 2 (by norm_num) (by norm_num) (fun _ _ x => x) (fun _ _ x => x) (by simp) (by simp)
    [1, 2, 3] [0, 0, 0] rfl rfl
  exact ⟨levels, (C85_levels ..).result h, hl⟩

/-- The coarse operator of the example. -/
example : ∃ o, exGalerkin.build false (0 : ℚ) (fun _ _ => .ub "") = .ok o := by
  obtain ⟨o, h, -⟩ := C66_compose_partial true (0 : ℚ) (fun _ _ => .ub "") exGalerkin_fits
  exact ⟨o, (C85_operators ..).result h⟩

/-- A program that applies a hierarchy after everything else is gone. -/
example : ∃ m, Mem.run false {} (exSetup .matrixBased ++ [.build 4 5 (some 6) 3 false] ++ exGiveUp ++
    [.vmult 23, .vmult 23]) = .ok m ∧ m.held = [23] := by
  refine ⟨_, (C85_programs _ _).result (v := _) rfl, ?_⟩
  decide +kernel

/-- Two cells; the second one is refined. -/
def exRefinedMesh (same : Bool) : Mesh :=
  ⟨2, fun _ => true, fun d c => match d, c with | .xp, 0 => some 1 | _, _ => none, fun _ _ => same⟩

example : (∃ u n, buildAgglomeratesBlock (exRefinedMesh true) false 2 2 1 1 (fun _ => 0) = .ok (u, n) ∧ n = 1) ∧
    buildAgglomeratesBlock (exRefinedMesh false) true 2 2 1 1 (fun _ => 0)
      = .throws "Mesh locally refined" ∧
    ∃ u n, buildAgglomeratesBlock (exRefinedMesh false) false 2 2 1 1 (fun _ => 0) = .ok (u, n) ∧ n = 1 :=
  ⟨⟨_, _, (C85_agglomerates (exRefinedMesh true) 2 2 1 1 (fun _ => 0)).result rfl, rfl⟩, rfl, _, _, rfl, rfl⟩

/-- The set-up of `Props/SetupAll.lean`. -/
example : ∃ us a, setupRestrictor false false false 2 ⟨some "block", none, some 2, some 1, none⟩
      ⟨some "lanczos", false⟩ (fun _ => 1) [((rowFem lapMat 0).share, fun _ => 0)] = .ok (us, a) ∧
    a.R 1 3 = 2 := by
  refine ⟨_, _, (C85_restriction ..).result (v := (_, _)) rfl, ?_⟩
  decide +kernel

/-- An unknown eigensolver: the debug build stops, the release build carries on. -/
example : localMatrixBased true (some (chars! "Lanczos")) 1 3 exAgg [2] exSolvers = .aborted ∧
    localMatrixBased false (some (chars! "Lanczos")) 1 3 exAgg [2] exSolvers
      = .ok ([-1], [[0, 0, 0]], [1, 1, 1]) ∧
    localMatrixBased false (some (chars! "lanczos")) 2 3 exAgg [2] exSolvers
      = .ok ([0, 2], [[1, 1, 0], [1, -1, 0]], [1, 1, 1]) :=
  ⟨by decide +kernel, by decide +kernel,
    (C85_local (some (chars! "lanczos")) 2 3 exAgg [2] [] exSolvers).1.result exAgg_run⟩

/-- An element of the diagonal that the process does not store. -/
example : restrictionProcs true [((fun i => if i = 0 then some (2 : ℚ) else none),
      collect [⟨[0], [[1, 1]], [2, 1], [0, 1]⟩])] = .aborted ∧
    restrictionProcs false [((fun i => if i = 0 then some (2 : ℚ) else none),
      collect [⟨[0], [[1, 1]], [2, 1], [0, 1]⟩])] = .ub "element not stored on this process" ∧
    ∃ M, restrictionProcs false [((fun i => if i ≤ 1 then some (2 : ℚ) else none),
      collect [⟨[0], [[1, 1]], [2, 1], [0, 1]⟩])] = .ok M :=
  ⟨rfl, rfl, _, (C85_assembly _).result rfl⟩

/-- Sizes that do not agree. -/
example : mvAddMv true 2 [0, 1] 3 [2, 3] [0] exHeap = .aborted ∧
    mvAddMv false 2 [0, 1] 3 [2, 3] [0] exHeap = .ub "mv[i]" := ⟨rfl, rfl⟩

/-- The zero vector as first vector. -/
example (A : ℝ → ℝ) : lanczosStep true A (lanczosInit 0) = .aborted ∧
    lanczosStep false A (lanczosInit 0) = .ub "division by zero (NaN)" := by
  simp [lanczosStep, lanczosInit]

/-- A matrix without entries cannot be converted; one with entries is the same in both builds. -/
example : convertTrilinos true id ([[]] : List (List (ℕ × ℚ))) = .aborted ∧
    convertTrilinos false id ([[]] : List (List (ℕ × ℚ))) = .ub "val[0] of an empty vector" ∧
    convertTrilinos false id [[(0, (3 : ℚ))]] = .ok ⟨[3], [0], [0, 1]⟩ :=
  ⟨rfl, rfl, (C85_device_matrices (fun _ _ => .ok 0) 1 1 id [[(0, (3 : ℚ))]] ⟨[], [], []⟩ (fun _ l => l)
    [] []).2.1.result rfl⟩

/-- On two processes the product has no handle: applying it stops the debug build, the release build
leaves the destination as it was. -/
example : (∃ w, opRun 2 false [CudaOp.fresh exOpA, CudaOp.fresh exOpB]
      [.multiplyTranspose 0 1, .apply 2 false [1] [5, 6]] = .ok (w, [.created, .vector [5, 6]])) ∧
    opRun 2 true [CudaOp.fresh exOpA, CudaOp.fresh exOpB]
      [.multiplyTranspose 0 1, .apply 2 false [1] [5, 6]] = .aborted :=
  ⟨⟨_, rfl⟩, rfl⟩

example : ∃ s, memRun false MemState.init exMemHistory = .ok s :=
  ⟨_, (C85_device_memory _ _).result rfl⟩

example (b0 b1 : ℚ) : ∃ x' h', directSolverApply false true exCuSolver (chars! "cholesky")
    (some (exSerial exSpd)) [b0, b1] [0, 0] ⟨0, [], []⟩ = .ok (x', h') ∧ Solves exSpd x' [b0, b1] := by
  obtain ⟨x', h', h, hs, -⟩ := C69_solves_partial true true exCuSolver exCuSolver_correct _ exSpd
    exSpd_square _ (exSerial_serial exSpd) (Or.inl ⟨rfl, exSpd_pd⟩) [b0, b1] [0, 0] rfl rfl ⟨0, [], []⟩
  exact ⟨x', h', (C85_device_solver ..).result h, hs⟩

end Mfmg
