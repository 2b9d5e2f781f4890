import Verif.Model.DeviceSmoother
import Verif.Model.DirectSolver
import Verif.Model.Hierarchy
import Verif.Model.LevelSizes

/-!
# Model of a complete hierarchy on the device

The constructor and the cycle of `Hierarchy` (/repo/include/mfmg/common/hierarchy.hpp:159-309) with the
components made by `CudaHierarchyHelpers` (/repo/source/cuda/cuda_hierarchy_helpers.cu), on one process,
for both vector types.  Here the components are put together from their own models: matrices are the
CSR arrays on the device, vectors are lists, smoothers are the diagonal matrices computed by the kernels,
and the operators remember the transpose they compute on demand.  The device memory that the
applications allocate is followed; memory owned by the matrices of the set-up is not (see
`Model/DeviceMemory.lean`).  Not modelled: timers, AMGX (the build without it), failures of CUDA calls other
than those caused by a missing handle or descriptor, rounding.
-/

set_option autoImplicit false

namespace Mfmg

/-- A `SparseMatrixDevice` on one process: its arrays, `m()`, `n()`, and whether `cusparse_handle` and
`descr` are set, /repo/include/mfmg/cuda/sparse_matrix_device.cuh:92-103. -/
structure DevMat (K : Type) where
  csr : Csr K
  m : ℕ
  n : ℕ
  handle : Bool
  descr : Bool

/-- The members of `CudaMatrixOperator`, /repo/include/mfmg/cuda/cuda_matrix_operator.cuh:56-57. -/
structure DevOp (K : Type) where
  matrix : DevMat K
  transposed : Option (DevMat K)

/-- The libraries.  `gemm m n k a b` are the arrays that `cusparseXcsrgemmNnz` and `cusparseDcsrgemm` compute
(/repo/include/mfmg/cuda/sparse_matrix_device.templates.cuh:396-415) for an `m` by `k` and a `k` by `n`
matrix.  `transposer m n rows` is what `EpetraExt::RowMatrix_Transpose` makes
(/repo/source/cuda/cuda_matrix_operator.cu:107-109) of the `m` by `n` matrix filled with `rows` (calls of
`set`): the arrays of the result, with local column indices, and `GCID`. -/
structure DeviceLib (K : Type) where
  solver : CuSolver K
  gemm : ℕ → ℕ → ℕ → Csr K → Csr K → Csr K
  transposer : ℕ → ℕ → List (ℕ × List (ℕ × K)) → Csr K × (ℕ → ℕ)

/-- What the program does not determine: the order in which the threads of a kernel write and the content of
uninitialised memory.  A launch is named by the number of allocations made before, those of the smoother's
constructor by the level.
Not in the code; the kernels are launched in
/repo/include/mfmg/cuda/sparse_matrix_device.templates.cuh:135-136 and
/repo/source/cuda/cuda_smoother.cu:142-153. -/
structure Device (K : Type) where
  schedule : (launch size : ℕ) → List ℕ
  junk : (launch : ℕ) → K
  smootherSchedule : (level size nnz : ℕ) → SmootherSchedule
  smootherJunk : (level : ℕ) → ℕ → K

section

variable {K : Type} [Field K]

/-- The memory operations of a matrix-vector product,
/repo/include/mfmg/cuda/sparse_matrix_device.templates.cuh:359-363 and 113-137: `src_val_dev`, `dst_buffer`,
`indices_dev`; only the second is freed. -/
def vmultHeap (h : DevHeap) : Outcome DevHeap := do
  let (_, h) := h.allocWritten
  let (buffer, h) := h.allocWritten
  let (_, h) := h.allocWritten
  h.free (some buffer)

/-- `SparseMatrixDevice::vmult`, /repo/include/mfmg/cuda/sparse_matrix_device.templates.cuh:351-371: `x` is
the source, `y` the previous content of the destination, of which the first `m()` components are
overwritten.  Without handle or descriptor cuSPARSE returns an error and writes nothing; the error is
fatal in debug builds and ignored in release builds. -/
def devProduct (debug : Bool) (dev : Device K) (a : DevMat K) (x y : List K) (h : DevHeap) :
    Outcome (List K × DevHeap) :=
  if y.length < a.m then .ub "dst.get_values()"
  else do
    let h' ← vmultHeap h
    if a.handle && a.descr then do
      let z ← deviceVmult (dev.schedule h.next x.length) x.length [List.range x.length] [x]
        (dev.junk h.next) a.m a.csr
      pure (z ++ y.drop a.m, h')
    else if debug then .aborted
    else pure (y, h')

/-- `MatrixOperator::apply`, /repo/source/cuda/cuda_matrix_operator.cu:39-70.  With host vectors both are
copied to the device, and the result back; the device vectors are freed by their destructors. -/
def devProductFor (debug host : Bool) (dev : Device K) (a : DevMat K) (x y : List K) (h : DevHeap) :
    Outcome (List K × DevHeap) :=
  if host then do
    let (xp, h) := h.allocWritten
    let (yp, h) := h.allocWritten
    let (yDev, h) ← devProduct debug dev a x y h
    let yHost ← copyToHost yDev y.length
    let h ← h.free (some yp)
    let h ← h.free (some xp)
    pure (yHost, h)
  else devProduct debug dev a x y h

/-- The transpose of a device matrix, /repo/source/cuda/cuda_matrix_operator.cu:102-122 and 164-191: copy to
a Trilinos matrix, transpose, copy back; the handle is the given one, the descriptor new. -/
def devTranspose (debug : Bool) (lib : DeviceLib K) (a : DevMat K) (handle : Bool) :
    Outcome (DevMat K) := do
  let calls ← convertToTrilinos a.csr (List.range a.m)
  let t := lib.transposer a.m a.n calls
  let c ← convertEpetra debug t.2 t.1
  pure { csr := c, m := a.n, n := a.m, handle := handle, descr := true }

/-- `CudaMatrixOperator::apply`, /repo/source/cuda/cuda_matrix_operator.cu:80-91 and 93-123: the new state
of the operator, the destination and the memory.  The transposed matrix, computed by the first call with
`TRANS`, stays allocated (three arrays and a descriptor). -/
def devOpApply (debug host : Bool) (dev : Device K) (lib : DeviceLib K) (o : DevOp K) (tr : Bool)
    (x y : List K) (h : DevHeap) : Outcome (DevOp K × List K × DevHeap) :=
  if tr then
    match o.transposed with
    | some t => do
      let r ← devProductFor debug host dev t x y h
      pure (o, r.1, r.2)
    | none => do
      let t ← devTranspose debug lib o.matrix o.matrix.handle
      let r ← devProductFor debug host dev t x y (newArrays true h).2
      pure ({ o with transposed := some t }, r.1, r.2)
  else do
    let r ← devProductFor debug host dev o.matrix x y h
    pure (o, r.1, r.2)

/-- `mmult` into a copy of `a` on one process, /repo/source/cuda/cuda_matrix_operator.cu:143-146 and
/repo/include/mfmg/cuda/sparse_matrix_device.templates.cuh:373-415.  Without handle or descriptors cuSPARSE
returns an error, fatal in debug builds; in release builds the result is uninitialised. -/
def devMatMult (debug : Bool) (lib : DeviceLib K) (a b : DevMat K) : Outcome (DevMat K) := do
  Outcome.assert debug (b.m = a.n)
  if a.handle && a.descr && b.descr then
    if b.m = a.n then
      pure { csr := lib.gemm a.m b.n a.n a.csr b.csr, m := a.m, n := b.n, handle := a.handle, descr := true }
    else .ub "dimensions of the factors"
  else if debug then .aborted
  else .ub "uninitialised product"

/-- `multiply`, /repo/source/cuda/cuda_matrix_operator.cu:132-149. -/
def devMultiply (debug : Bool) (lib : DeviceLib K) (a b : DevOp K) : Outcome (DevOp K) := do
  let c ← devMatMult debug lib a.matrix b.matrix
  pure { matrix := c, transposed := none }

/-- `multiply_transpose` on one process, /repo/source/cuda/cuda_matrix_operator.cu:151-202: the transpose
gets the handle of `a` (line 182). -/
def devMultiplyTranspose (debug : Bool) (lib : DeviceLib K) (a b : DevOp K) : Outcome (DevOp K) := do
  let t ← devTranspose debug lib b.matrix a.matrix.handle
  let c ← devMatMult debug lib a.matrix t
  pure { matrix := c, transposed := none }

/-- The constructor of `CudaSmoother`, /repo/source/cuda/cuda_smoother.cu:100-161, for the operator of level
`level`: the diagonal matrix, with the handle of the operator's matrix and a new descriptor
(/repo/include/mfmg/cuda/sparse_matrix_device.templates.cuh:303-335).  Without a handle
`cusparseXcsr2coo` fails. -/
def devSmoother (debug : Bool) (dev : Device K) (level : ℕ) (type : Option (List Char)) (a : DevOp K) :
    Outcome (DevMat K) := do
  let _ ← cudaSmoother debug true (a.matrix.m == a.matrix.n) type
  if a.matrix.handle then do
    let s ← jacobiMatrix (dev.smootherSchedule level a.matrix.m a.matrix.csr.col.length)
      (dev.smootherJunk level) (List.range a.matrix.m) a.matrix.csr
    pure { csr := s, m := a.matrix.m, n := a.matrix.m, handle := true, descr := true }
  else if debug then .aborted
  else .ub "row_index_coo_dev"

/-- `SmootherOperator::apply` for device vectors, /repo/source/cuda/cuda_smoother.cu:39-60. -/
def devSmooth (debug : Bool) (dev : Device K) (a s : DevMat K) (b x : List K) (h : DevHeap) :
    Outcome (List K × DevHeap) := do
  let (r, h) ← devProduct debug dev a x b h
  let r ← vecSub r b
  let (tmp, h) ← devProduct debug dev s r x h
  let x ← vecSub x tmp
  pure (x, h)

/-- `SmootherOperator::apply` for both vector types, /repo/source/cuda/cuda_smoother.cu:39-84. -/
def devSmoothFor (debug host : Bool) (dev : Device K) (a s : DevMat K) (b x : List K) (h : DevHeap) :
    Outcome (List K × DevHeap) :=
  if host then do
    let (xp, h) := h.allocWritten
    let (bp, h) := h.allocWritten
    let (xDev, h) ← devSmooth debug dev a s b x h
    let xHost ← copyToHost xDev x.length
    let h ← h.free (some bp)
    let h ← h.free (some xp)
    pure (xHost, h)
  else devSmooth debug dev a s b x h

/-- `for (i = 0; i < n; ++i) smoother->apply(b, x)`, /repo/include/mfmg/common/hierarchy.hpp:278-279 and
305-306. -/
def devSmoothLoop (debug host : Bool) (dev : Device K) (a s : DevMat K) (b : List K) :
    ℕ → List K → DevHeap → Outcome (List K × DevHeap)
  | 0, x, h => .ok (x, h)
  | n + 1, x, h => do
    let (x, h) ← devSmoothFor debug host dev a s b x h
    devSmoothLoop debug host dev a s b n x h

/-- `Level`, /repo/include/mfmg/common/level.hpp; the solver is the name `CudaSolver` stores. -/
structure DevLevel (K : Type) where
  operator : DevOp K
  restrictor : Option (DevOp K)
  smoother : Option (DevMat K)
  solver : Option (List Char)

/-- What the helpers take from a mesh evaluator: its type and dimension, the matrix that the user's
`evaluate_global` fills (/repo/source/cuda/cuda_hierarchy_helpers.cu:38-46), and what the `k`-th call of
`AMGe_device::setup_restrictor` returns (66-76; modelled in `Model/DeviceSetup.lean`). -/
structure DevEvaluator (K : Type) where
  type : List Char
  dim : ℤ
  global : DevMat K
  restrictor : ℕ → Outcome (DevMat K)

/-- The parameters: those of `Params`, `smoother.type`, `solver.type`, and whether the children
`eigensolver` and `agglomeration` exist.
/repo/include/mfmg/common/hierarchy.hpp:166-175, /repo/source/cuda/cuda_smoother.cu:99-112,
/repo/source/cuda/cuda_solver.cu:204-233 and /repo/source/cuda/cuda_hierarchy_helpers.cu:64-70. -/
structure DevParams where
  base : Params
  smootherType : Option (List Char) := none
  solverType : Option (List Char) := none
  eigensolver : Bool := true
  agglomeration : Bool := true

/-- `build_restrictor`, /repo/source/cuda/cuda_hierarchy_helpers.cu:54-81; `ptree::get_child` throws if
there is no such child. -/
def devBuildRestrictor (p : DevParams) (ev : DevEvaluator K) (k : ℕ) : Outcome (DevOp K) := do
  Outcome.assertThrow p.eigensolver "No such node (eigensolver)"
  Outcome.assertThrow p.agglomeration "No such node (agglomeration)"
  let r ← ev.restrictor k
  pure { matrix := r, transposed := none }

/-- The level loop, /repo/include/mfmg/common/hierarchy.hpp:178-234, from level `l` with operator `a` and
restrictor `r` on, `more` levels following.  `fast_multiply_transpose` is not overridden by the CUDA
helpers and throws (/repo/include/mfmg/common/hierarchy_helpers.hpp:40-45). -/
def devBuildLoop (debug : Bool) (dev : Device K) (lib : DeviceLib K) (p : DevParams) (ev : DevEvaluator K) :
    ℕ → ℕ → DevOp K → Option (DevOp K) → Outcome (List (DevLevel K))
  | 0, _, a, r => do
    let name ← cudaSolver false false p.solverType
    pure [⟨a, r, none, some name⟩]
  | more + 1, l, a, r => do
    let s ← devSmoother debug dev l p.smootherType a
    let restrictor ← devBuildRestrictor p ev l
    let ap ← (if p.base.fastAp.getD false then .throws notImplemented
      else devMultiplyTranspose debug lib a restrictor)
    let ac ← devMultiply debug lib restrictor ap
    let rest ← devBuildLoop debug dev lib p ev more (l + 1) ac (some restrictor)
    pure (⟨a, r, some s, none⟩ :: rest)

/-- `Hierarchy`, /repo/include/mfmg/common/hierarchy.hpp:369-372. -/
structure DevHierarchy (K : Type) where
  levels : List (DevLevel K)
  isPreconditioner : Bool
  nSmoothingSteps : ℕ

/-- `create_hierarchy_helpers`, /repo/include/mfmg/common/hierarchy.hpp:49-152, for an evaluator that is not
one of the host evaluators. -/
def devHelpers (host : Bool) (ev : DevEvaluator K) : Outcome Unit := do
  let k ← (if host then createHelpers true ev.type ev.dim else createHelpersDevice ev.type ev.dim)
  match k.1 with
  | .cuda => pure ()
  | _ => .ub "cuda_mesh_evaluator is null"

/-- The constructor, /repo/include/mfmg/common/hierarchy.hpp:159-236. -/
def devBuild (debug host : Bool) (dev : Device K) (lib : DeviceLib K) (p : DevParams)
    (ev : DevEvaluator K) : Outcome (DevHierarchy K) := do
  devHelpers host ev
  let numLevels := p.base.maxLevels.getD 2
  Outcome.assert debug (numLevels > 0)
  if numLevels < 0 then .throws "std::length_error"
  else if numLevels = 0 then .ub "_levels[0] on an empty vector"
  else do
    let levels ← devBuildLoop debug dev lib p ev (numLevels.toNat - 1) 0 ⟨ev.global, none⟩ none
    pure { levels := levels, isPreconditioner := p.base.isPreconditioner.getD true,
           nSmoothingSteps := toUnsigned (p.base.nSmoothingSteps.getD 1) }

/-- The matrix of an operator as the direct solvers see it.
Its members `m()`, `n()` and `n_nonzero_elements()` are those of
/repo/include/mfmg/cuda/sparse_matrix_device.cuh:63-71. -/
def DevMat.forSolver (a : DevMat K) : SolverMatrix K := ⟨a.csr, a.m, a.n, a.csr.col.length⟩

/-- `Hierarchy::apply`, /repo/include/mfmg/common/hierarchy.hpp:246-309, on the levels that remain; `zero`
says whether `x` is set to zero first.  Vectors made by `build_vector`
(/repo/source/cuda/cuda_matrix_operator.cu:227-247) are zero.  The cycle on the coarser
levels does not use the restrictor stored on its first level, whose new state is put there at the end.
Returns the new levels, `x` and the memory. -/
def devCycle (debug host : Bool) (dev : Device K) (lib : DeviceLib K) (steps : ℕ) :
    Bool → List (DevLevel K) → List K → List K → DevHeap →
    Outcome (List (DevLevel K) × List K × DevHeap)
  | _, [], _, _, _ => .ub "_levels index out of range"
  | zero, [level], b, x, h => do
    let x := if zero then List.replicate x.length 0 else x
    let name ← Outcome.deref level.solver "null coarse solver"
    let (x, h) ← directSolverApply debug host lib.solver name (some level.operator.matrix.forSolver) b x h
    pure ([level], x, h)
  | zero, level :: next :: rest, b, x, h => do
    let x := if zero then List.replicate x.length 0 else x
    let r ← Outcome.deref next.restrictor "null restrictor"
    let s ← Outcome.deref level.smoother "null smoother"
    let (x, h) ← devSmoothLoop debug host dev level.operator.matrix s b steps x h
    let (a, res, h) ← devOpApply debug host dev lib level.operator false x
      (List.replicate level.operator.matrix.n 0) h
    let res ← vecSub res b
    let (r, bCoarse, h) ← devOpApply debug host dev lib r false res
      (List.replicate next.operator.matrix.n 0) h
    let (lower, xCoarse, h) ← devCycle debug host dev lib steps true (next :: rest)
      bCoarse (List.replicate next.operator.matrix.n 0) h
    let (r, correction, h) ← devOpApply debug host dev lib r true xCoarse
      (List.replicate level.operator.matrix.n 0) h
    let x ← vecSub x correction
    let (x, h) ← devSmoothLoop debug host dev a.matrix s b steps x h
    let lower := match lower with
      | [] => []
      | first :: others => { first with restrictor := some r } :: others
    pure ({ level with operator := a } :: lower, x, h)

/-- `Hierarchy::vmult`, /repo/include/mfmg/common/hierarchy.hpp:238-244. -/
def devVcycle (debug host : Bool) (dev : Device K) (lib : DeviceLib K) (H : DevHierarchy K)
    (b x : List K) (h : DevHeap) : Outcome (DevHierarchy K × List K × DevHeap) := do
  let r ← devCycle debug host dev lib H.nSmoothingSteps H.isPreconditioner H.levels b x h
  pure ({ H with levels := r.1 }, r.2.1, r.2.2)

/-- A history of applications, each with its right-hand side and the previous content of the result
vector: the hierarchy and the memory afterwards, and the results.
Repeated calls of /repo/include/mfmg/common/hierarchy.hpp:238-244 by the user. -/
def devHistory (debug host : Bool) (dev : Device K) (lib : DeviceLib K) :
    DevHierarchy K → List (List K × List K) → DevHeap →
    Outcome (DevHierarchy K × List (List K) × DevHeap)
  | H, [], h => .ok (H, [], h)
  | H, c :: cs, h => do
    let (H, y, h) ← devVcycle debug host dev lib H c.1 c.2 h
    let (H, ys, h) ← devHistory debug host dev lib H cs h
    pure (H, y :: ys, h)

end

end Mfmg
