import Verif.Model.DeviceSetup
import Verif.Model.DeviceCsr
import Verif.Model.Factory

/-!
# Model of the direct solvers on the device

`CudaSolver::apply` and `DirectSolver::apply`, /repo/source/cuda/cuda_solver.cu:42-93 and 496-517, and the
factorisations of /repo/source/cuda/dealii_operator_device_helpers.cu:20-257.  The routines of cuSOLVER are
parameters; what is assumed of them is in `Spec/DirectSolver.lean`.  The solver `amgx` is modelled in
`Model/Amgx.lean`.
-/

set_option autoImplicit false

namespace Mfmg

variable {K : Type}

/-- A `SparseMatrixDevice` as the direct solvers see it: the arrays of this process, and `m()`, `n()` and
`n_nonzero_elements()`, which are global (/repo/include/mfmg/cuda/sparse_matrix_device.cuh:63-71). -/
structure SolverMatrix (K : Type) where
  csr : Csr K
  m : ℕ
  n : ℕ
  nnz : ℕ

/-- The routines of cuSOLVER.  `chol` is `cusolverSpDcsrlsvchol`, `lu` is `cusolverSpDcsrlsvluHost`: number
of rows and of entries, matrix, right-hand side, to solution and `singularity`.  `getrf` is
`cusolverDnDgetrf`: size and matrix to factors, pivots and `info`; `getrs` is `cusolverDnDgetrs`: size,
factors, pivots and right-hand side to solution and `info`; `workspace` is
`cusolverDnDgetrf_bufferSize`.
They are called in /repo/source/cuda/dealii_operator_device_helpers.cu:52-60, 73-82, 96-106, 123-136 and
154-167. -/
structure CuSolver (K : Type) where
  chol : ℕ → ℕ → Csr K → List K → List K × ℤ
  lu : ℕ → ℕ → Csr K → List K → List K × ℤ
  getrf : ℕ → List K → List K × List ℕ × ℤ
  getrs : ℕ → List K → List ℕ → List K → List K × ℤ
  workspace : ℕ → ℤ

/-- The entries of row `i`.
The storage of the members /repo/include/mfmg/cuda/sparse_matrix_device.cuh:92-94. -/
def csrSlice (c : Csr K) (i : ℕ) : List (ℕ × K) :=
  ((c.col.zip c.val).drop (c.rowPtr.getD i 0)).take (c.rowPtr.getD (i + 1) 0 - c.rowPtr.getD i 0)

/-- `cusparseDcsr2dense`, called at /repo/source/cuda/dealii_operator_device_helpers.cu:31-40: the matrix
in column-major order.  Assumed of cuSPARSE; it reads `m + 1` row pointers and the entries up to the last of
them, and an entry in a column beyond the last is written outside.  If a column occurs twice in a row one
of the values is taken. -/
def csr2dense [Zero K] (c : Csr K) (m n : ℕ) : Outcome (List K) :=
  if c.rowPtr.length < m + 1 then .ub "row_ptr"
  else if c.val.length < c.rowPtr.getD m 0 ∨ c.col.length < c.rowPtr.getD m 0 then .ub "entries"
  else if ∃ i ∈ List.range m, ∃ e ∈ csrSlice c i, n ≤ e.1 then .ub "column"
  else .ok ((List.range n).map fun j =>
    (List.range m).map fun i => ((csrSlice c i).lookup j).getD 0).flatten

/-- `cholesky_factorization`, /repo/source/cuda/dealii_operator_device_helpers.cu:154-167.  The routine reads
`m + 1` row pointers, `nnz` entries and `m` components of `b`, and writes `m` components of `x`. -/
def choleskySolve (debug : Bool) (lib : CuSolver K) (a : SolverMatrix K) (b x : List K) :
    Outcome (List K) :=
  if a.csr.rowPtr.length < a.m + 1 then .ub "row_ptr"
  else if a.csr.val.length < a.nnz ∨ a.csr.col.length < a.nnz then .ub "entries"
  else if b.length < a.m ∨ x.length < a.m then .ub "vectors"
  else do
    let r := lib.chol a.m a.nnz a.csr b
    Outcome.assert debug (r.2 = -1)
    pure (r.1 ++ x.drop a.m)

/-- `lu_factorization` with a dense matrix, /repo/source/cuda/dealii_operator_device_helpers.cu:169-228, with
its allocations.  `info` is copied to the host only in debug builds. -/
def luDenseSolve [Zero K] (debug : Bool) (lib : CuSolver K) (a : SolverMatrix K) (b x : List K)
    (h : DevHeap) : Outcome (List K × DevHeap) := do
  Outcome.assert debug (a.m = a.n)
  let (dense, h) := h.allocWritten
  let mat ← csr2dense a.csr a.m a.n
  Outcome.assert debug (0 < lib.workspace a.m)
  let (work, h) := h.alloc
  let (pivot, h) := h.alloc
  let (info, h) := h.alloc
  let f := lib.getrf a.m mat
  Outcome.assert debug (f.2.2 = 0)
  if b.length < a.m ∨ x.length < a.m then .ub "vectors"
  else do
    let r := lib.getrs a.m f.1 f.2.1 (b.take a.m)
    Outcome.assert debug (r.2 = 0)
    let h ← h.free (some dense)
    let h ← h.free (some work)
    let h ← h.free (some pivot)
    let h ← h.free (some info)
    pure (r.1 ++ x.drop a.m, h)

/-- `lu_factorization` on the host, /repo/source/cuda/dealii_operator_device_helpers.cu:230-257 and
123-136. -/
def luSparseSolve (debug : Bool) (lib : CuSolver K) (a : SolverMatrix K) (b x : List K) :
    Outcome (List K) := do
  let val ← copyToHost a.csr.val a.nnz
  let col ← copyToHost a.csr.col a.nnz
  let rowPtr ← copyToHost a.csr.rowPtr (a.m + 1)
  let bHost ← copyToHost b a.m
  let _ ← copyToHost x a.m
  let r := lib.lu a.m a.nnz { val := val, col := col, rowPtr := rowPtr } bHost
  Outcome.assert debug (r.2 = -1)
  pure (r.1 ++ x.drop a.m)

/-- `DirectSolver::apply` with device vectors, /repo/source/cuda/cuda_solver.cu:52-72. -/
def directApply [Zero K] (debug : Bool) (lib : CuSolver K) (name : List Char) (a : SolverMatrix K)
    (b x : List K) (h : DevHeap) : Outcome (List K × DevHeap) :=
  if name = chars! "cholesky" then do
    let x ← choleskySolve debug lib a b x
    pure (x, h)
  else if name = chars! "lu_dense" then luDenseSolve debug lib a b x h
  else if name = chars! "lu_sparse_host" then do
    let x ← luSparseSolve debug lib a b x
    pure (x, h)
  else .throws ("The provided solver name " ++ String.ofList name ++ " is invalid.")

/-- `DirectSolver::apply` with host vectors, /repo/source/cuda/cuda_solver.cu:74-93: both vectors are copied
to the device (`copy_from_host`, /repo/source/cuda/utils.cu:484-496; these device vectors are freed by
their destructors) and the solution is copied back. -/
def directApplyHost [Zero K] (debug : Bool) (lib : CuSolver K) (name : List Char) (a : SolverMatrix K)
    (b x : List K) (h : DevHeap) : Outcome (List K × DevHeap) := do
  let (xp, h) := h.allocWritten
  let (bp, h) := h.allocWritten
  let (xDev, h) ← directApply debug lib name a b x h
  let xHost ← copyToHost xDev x.length
  let h ← h.free (some bp)
  let h ← h.free (some xp)
  pure (xHost, h)

/-- `CudaSolver::apply`, /repo/source/cuda/cuda_solver.cu:496-515, for solvers other than `amgx`.  `op` is
the matrix of the operator, `none` if it is not a `CudaMatrixOperator`. -/
def directSolverApply [Zero K] (debug host : Bool) (lib : CuSolver K) (name : List Char)
    (op : Option (SolverMatrix K)) (b x : List K) (h : DevHeap) : Outcome (List K × DevHeap) :=
  match op with
  | none => .ub "cuda_operator is null"
  | some a => if host then directApplyHost debug lib name a b x h
    else directApply debug lib name a b x h

end Mfmg
