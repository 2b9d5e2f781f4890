import Verif.Model.DirectSolver
import Verif.Model.DeviceSmoother
import Verif.Model.DeviceEigen
import Verif.Model.Amgx

/-!
# Model of failing calls of the device libraries

Every call of CUDA, cuSPARSE, cuSOLVER and AMGX may fail.  The other models take the calls as successful;
here the same functions are modelled again with the return codes and with what the code does about them:
`ASSERT_CUDA`, `ASSERT_CUSPARSE`, `ASSERT_CUSOLVER` (/repo/include/mfmg/common/exceptions.hpp:204-228) end the
program in debug builds and do nothing in release builds, kernel launches have no return code, and the return
codes of AMGX are not looked at.
-/

set_option autoImplicit false

namespace Mfmg

/-- What happens to a call: it succeeds; it returns an error; or it breaks the device (a kernel that is
started and fails), after which every call returns an error.
Not in the code: what the return codes checked in /repo/include/mfmg/common/exceptions.hpp:204-228 can
say. -/
inductive Fault where
  | none | fails | breaks
  deriving DecidableEq, Repr

/-- The build, and the device: the fault of the `n`-th call, what a failed call leaves of an array that it
should have written, and the content of newly allocated arrays.
Not in the code: it stands for the libraries behind the calls checked in
/repo/include/mfmg/common/exceptions.hpp:204-228; `debug` is `MFMG_DEBUG`. -/
structure Machine (K : Type) where
  debug : Bool
  fault : ℕ → Fault
  left : ℕ → List K → List K
  leftN : ℕ → List ℕ → List ℕ
  fresh : ℕ → ℕ → K
  freshN : ℕ → ℕ → ℕ

/-- The number of calls so far; whether an error is pending that `cudaGetLastError` would return; whether the
device is broken.
Not in the code: the state of the CUDA runtime that `cudaGetLastError` and `cudaDeviceSynchronize`
(/repo/include/mfmg/common/exceptions.hpp:210) report. -/
structure DevState where
  calls : ℕ
  pending : Bool
  broken : Bool
  deriving DecidableEq, Repr

/-- A program that uses the device.
Not in the code: the programs below pass the state of the runtime
(/repo/include/mfmg/common/exceptions.hpp:204-228) on. -/
def Dev (α : Type) : Type := DevState → Outcome (α × DevState)

/-- One program after the other. Not in the code: it is the sequence of statements, which ends at the first
one that throws or aborts (/repo/include/mfmg/common/exceptions.hpp:44-63). -/
def Dev.bind {α β : Type} (p : Dev α) (q : α → Dev β) : Dev β := fun s =>
  match p s with
  | .ok (a, s) => q a s
  | .throws m => .throws m
  | .aborted => .aborted
  | .ub w => .ub w

/-- The programs that use the device, written with `do`.  Not in the code (see `Dev.bind` for
/repo/include/mfmg/common/exceptions.hpp:44-63). -/
instance : Monad Dev where
  pure a := fun s => .ok (a, s)
  bind := Dev.bind

/-- Code without calls to the device.
Such as the checks /repo/include/mfmg/common/exceptions.hpp:44-63. -/
def Dev.of {α : Type} (o : Outcome α) : Dev α := fun s =>
  match o with
  | .ok a => .ok (a, s)
  | .throws m => .throws m
  | .aborted => .aborted
  | .ub w => .ub w

section

variable {K : Type} {α β : Type}

/-- Is the next call one that fails?  A broken device fails always.
The error codes of /repo/include/mfmg/common/exceptions.hpp:204-228 come from here. -/
def Machine.failing (m : Machine K) (s : DevState) : Bool :=
  s.broken || decide (m.fault s.calls ≠ .none)

/-- The state after a call that fails.
See /repo/include/mfmg/common/exceptions.hpp:204-228 for what the code does then. -/
def Machine.after (m : Machine K) (s : DevState) : DevState :=
  { calls := s.calls + 1, pending := true,
    broken := s.broken || decide (m.fault s.calls = .breaks) }

/-- A call followed by `ASSERT_CUDA`, `ASSERT_CUSPARSE` or `ASSERT_CUSOLVER`,
/repo/include/mfmg/common/exceptions.hpp:204-228.  `arg` is `none` if a pointer passed is null, which is an
error.  `bad n` is what call number `n` leaves if it fails. -/
def Machine.call (m : Machine K) (arg : Option α) (good : α → Outcome β) (bad : ℕ → β) : Dev β :=
  fun s =>
  match arg with
  | some a =>
    if m.failing s then
      if m.debug then .aborted else .ok (bad s.calls, m.after s)
    else Dev.of (good a) { s with calls := s.calls + 1 }
  | none => if m.debug then .aborted else .ok (bad s.calls, m.after s)

/-- A call of the CUDA runtime whose return code is not looked at.  The error stays pending.
Such as /repo/include/mfmg/cuda/amge_device.templates.cuh:148 and 282. -/
def Machine.unchecked (m : Machine K) (arg : Option α) (good : α → Outcome β) (bad : ℕ → β) : Dev β :=
  fun s =>
  match arg with
  | some a =>
    if m.failing s then .ok (bad s.calls, m.after s)
    else Dev.of (good a) { s with calls := s.calls + 1 }
  | none => .ok (bad s.calls, m.after s)

/-- A call of AMGX, whose return code is not looked at, and which `cudaGetLastError` does not know.
Such as /repo/source/cuda/cuda_solver.cu:132-141. -/
def Machine.amgx (m : Machine K) (good : Outcome β) (bad : ℕ → β) : Dev β := fun s =>
  if m.failing s then
    .ok (bad s.calls, { m.after s with pending := s.pending })
  else Dev.of good { s with calls := s.calls + 1 }

/-- A kernel launch `<<<…>>>`.  There is no return code: a launch that is refused leaves a pending error, a
kernel that fails breaks the device.  A null pointer among the arguments breaks the device when the kernel
uses it.  Simplification: the failure of a kernel shows in the next call (launches are asynchronous, so
that in truth it may show later; all later calls that wait for the device show it).
Such as /repo/include/mfmg/cuda/amge_device.templates.cuh:268-269, 275-276, 295-296 and 308-310. -/
def Machine.launch (m : Machine K) (arg : Option α) (good : α → Outcome β) (bad : ℕ → β) : Dev β :=
  fun s =>
  match arg with
  | some a =>
    if m.failing s then .ok (bad s.calls, m.after s)
    else Dev.of (good a) { s with calls := s.calls + 1 }
  | none => .ok (bad s.calls, { m.after s with broken := true })

/-- `ASSERT_CUDA(cudaGetLastError())`: returns the pending error and clears it (in release builds too, where
the argument is evaluated).  It does not fail by itself and is not counted as a call.
/repo/include/mfmg/cuda/amge_device.templates.cuh:298 and 312 with
/repo/include/mfmg/common/exceptions.hpp:204-208 and 224. -/
def Machine.lastError (m : Machine K) : Dev Unit := fun s =>
  if s.pending || s.broken then
    if m.debug then .aborted else .ok ((), { s with pending := false })
  else .ok ((), s)

/-- `ASSERT_CUDA_SYNCHRONIZE()`, which does not call the device in release builds.
/repo/include/mfmg/common/exceptions.hpp:210 and 225. -/
def Machine.synchronize (m : Machine K) : Dev Unit :=
  if m.debug then m.call (some ()) (fun _ => .ok ()) (fun _ => ()) else pure ()

/-- A pointer to device memory.  `at a`: allocated, with content `a`.
Such as the members /repo/include/mfmg/cuda/sparse_matrix_device.cuh:92-94 and the local variables
/repo/source/cuda/dealii_operator_device_helpers.cu:178, 189, 193 and 195. -/
inductive Ptr (α : Type) where
  | indeterminate | null | at (a : α)

/-- The value of a pointer passed to a call; using an indeterminate value is undefined.
Such as /repo/source/cuda/dealii_operator_device_helpers.cu:182-199. -/
def Ptr.arg (p : Ptr α) : Outcome (Option α) :=
  match p with
  | .indeterminate => .ub "indeterminate pointer"
  | .null => .ok none
  | .at a => .ok (some a)

/-- Two pointers passed to the same call.
Such as /repo/include/mfmg/cuda/sparse_matrix_device.templates.cuh:134-135. -/
def Ptr.args (p : Ptr α) (q : Ptr β) : Outcome (Option (α × β)) := do
  let a ← p.arg
  let b ← q.arg
  match a, b with
  | some a, some b => .ok (some (a, b))
  | _, _ => .ok none

/-- `cuda_malloc`, /repo/include/mfmg/cuda/utils.cuh:74-79: a failed `cudaMalloc` leaves the pointer as it
was. -/
def Machine.malloc (m : Machine K) (init : Ptr α) (content : ℕ → α) : Dev (Ptr α) := fun s =>
  m.call (some ()) (fun _ => .ok (.at (content s.calls))) (fun _ => init) s

/-- `cudaMalloc` without a check, /repo/include/mfmg/cuda/amge_device.templates.cuh:282. -/
def Machine.mallocUnchecked (m : Machine K) (init : Ptr α) (content : ℕ → α) : Dev (Ptr α) := fun s =>
  m.unchecked (some ()) (fun _ => .ok (.at (content s.calls))) (fun _ => init) s

/-- `cuda_free`, /repo/include/mfmg/cuda/utils.cuh:66-72.  Freeing a null pointer is not an error. -/
def Machine.free (m : Machine K) (p : Ptr α) : Dev Unit := do
  let _ ← Dev.of p.arg
  m.call (some ()) (fun _ => .ok ()) (fun _ => ())

/-- Newly allocated values.
By `cuda_malloc`, /repo/include/mfmg/cuda/utils.cuh:74-79, which does not write them. -/
def Machine.values (m : Machine K) (size n : ℕ) : List K := (List.range size).map (m.fresh n)

/-- Newly allocated indices.
By `cuda_malloc`, /repo/include/mfmg/cuda/utils.cuh:74-79, which does not write them. -/
def Machine.indices (m : Machine K) (size n : ℕ) : List ℕ := (List.range size).map (m.freshN n)

/-- A checked copy `cudaMemcpy` to an array with the content `old`, which must be as large.
`cuda_mem_copy_to_dev`, /repo/include/mfmg/cuda/utils.cuh:91-99, and
/repo/source/cuda/dealii_operator_device_helpers.cu:211-213. -/
def Machine.copy (m : Machine K) (left : ℕ → List α → List α) (src : List α) (old : List α) :
    Dev (List α) :=
  m.call (some ()) (fun _ => writeBlock old 0 src) (fun n => left n old)

/-- A checked copy to a pointer.
/repo/include/mfmg/cuda/utils.cuh:91-99 and
/repo/include/mfmg/cuda/sparse_matrix_device.templates.cuh:178-192. -/
def Machine.copyTo (m : Machine K) (left : ℕ → List α → List α) (src : List α) (dst : Ptr (List α)) :
    Dev (Ptr (List α)) := do
  let d ← Dev.of dst.arg
  m.call d (fun old => (writeBlock old 0 src).bind fun a => .ok (.at a))
    (fun n => match dst with
      | .at old => .at (left n old)
      | p => p)

/-- `cuda_mem_copy_to_host` into a new `std::vector` of `size` zeros, /repo/include/mfmg/cuda/utils.cuh:81-89. -/
def Machine.toHost (m : Machine K) (zero : α) (left : ℕ → List α → List α) (array : List α) (size : ℕ) :
    Dev (List α) :=
  m.call (some ()) (fun _ => copyToHost array size) (fun n => left n (List.replicate size zero))

/-- The parts under `#if MFMG_DEBUG` that copy `info` to the host and check it,
/repo/source/cuda/dealii_operator_device_helpers.cu:202-208, 216-221 and
/repo/include/mfmg/cuda/amge_device.templates.cuh:162-168. -/
def Machine.checkInfo (m : Machine K) (good : Bool) : Dev Unit :=
  if m.debug then m.call (some ()) (fun _ => Outcome.assert m.debug good) (fun _ => ()) else pure ()

/-! ## Direct solvers -/

/-- `cholesky_factorization`, /repo/source/cuda/dealii_operator_device_helpers.cu:154-167: a failed call leaves
`singularity` at 0. -/
def choleskyF (m : Machine K) (lib : CuSolver K) (a : SolverMatrix K) (b x : List K) : Dev (List K) :=
  if a.csr.rowPtr.length < a.m + 1 then Dev.of (.ub "row_ptr")
  else if a.csr.val.length < a.nnz ∨ a.csr.col.length < a.nnz then Dev.of (.ub "entries")
  else if b.length < a.m ∨ x.length < a.m then Dev.of (.ub "vectors")
  else do
    let r ← m.call (some ()) (fun _ => .ok (lib.chol a.m a.nnz a.csr b))
      (fun n => (m.left n (x.take a.m), 0))
    Dev.of (Outcome.assert m.debug (r.2 = -1))
    pure (r.1 ++ x.drop a.m)

/-- Factors, pivots and `info` of `cusolverDnDgetrf`.
/repo/source/cuda/dealii_operator_device_helpers.cu:73-82 and 193-199. -/
abbrev Factors (K : Type) := List K × List ℕ × ℤ

/-- `lu_factorization` with a dense matrix, /repo/source/cuda/dealii_operator_device_helpers.cu:169-228.  The
pointers are not initialised, `workspace_size` is 0.  What is left in `info_dev` by a failed call is taken as
0 (it is read in debug builds only, which end at a failed call). -/
def luDenseF [Zero K] (m : Machine K) (lib : CuSolver K) (a : SolverMatrix K) (b x : List K) :
    Dev (List K) := do
  Dev.of (Outcome.assert m.debug (a.m = a.n))
  let dense ← m.malloc .indeterminate (m.values (a.m * a.n))
  let d ← Dev.of dense.arg
  let dense ← m.call d (fun _ => csr2dense a.csr a.m a.n) (fun n => m.left n (d.getD []))
  let size ← m.call (some ()) (fun _ => .ok (lib.workspace a.m)) (fun _ => 0)
  Dev.of (Outcome.assert m.debug (0 < size))
  let work ← m.malloc .indeterminate (fun _ => ())
  let pivot ← m.malloc .indeterminate (m.indices a.m)
  let info ← m.malloc .indeterminate (fun _ => ())
  let w ← Dev.of work.arg
  let p ← Dev.of pivot.arg
  let _ ← Dev.of info.arg
  let f ← m.call w (fun _ => .ok (lib.getrf a.m dense))
    (fun n => ((m.left n dense, m.leftN n (p.getD []), 0) : Factors K))
  m.checkInfo (f.2.2 = 0)
  if b.length < a.m ∨ x.length < a.m then Dev.of (.ub "vectors")
  else do
    let y ← m.copy m.left (b.take a.m) (x.take a.m)
    let r ← m.call (some ()) (fun _ => .ok (lib.getrs a.m f.1 f.2.1 y)) (fun n => (m.left n y, 0))
    m.checkInfo (r.2 = 0)
    m.free (Ptr.at dense)
    m.free work
    m.free pivot
    m.free info
    pure (r.1 ++ x.drop a.m)

/-- `lu_factorization` on the host, /repo/source/cuda/dealii_operator_device_helpers.cu:230-257 and 123-136.
Simplification: the routine of cuSOLVER is a function of its arguments also if these are not a matrix. -/
def luSparseF [Zero K] (m : Machine K) (lib : CuSolver K) (a : SolverMatrix K) (b x : List K) :
    Dev (List K) := do
  let val ← m.toHost 0 m.left a.csr.val a.nnz
  let col ← m.toHost 0 m.leftN a.csr.col a.nnz
  let rowPtr ← m.toHost 0 m.leftN a.csr.rowPtr (a.m + 1)
  let bHost ← m.toHost 0 m.left b a.m
  let xHost ← m.toHost 0 m.left x a.m
  let r ← m.call (some ())
    (fun _ => .ok (lib.lu a.m a.nnz { val := val, col := col, rowPtr := rowPtr } bHost))
    (fun n => (m.left n xHost, 0))
  Dev.of (Outcome.assert m.debug (r.2 = -1))
  m.call (some ()) (fun _ => .ok (r.1 ++ x.drop a.m)) (fun n => m.left n x)

/-- `DirectSolver::apply` with device vectors, /repo/source/cuda/cuda_solver.cu:52-72. -/
def directF [Zero K] (m : Machine K) (lib : CuSolver K) (name : List Char) (a : SolverMatrix K)
    (b x : List K) : Dev (List K) :=
  if name = chars! "cholesky" then choleskyF m lib a b x
  else if name = chars! "lu_dense" then luDenseF m lib a b x
  else if name = chars! "lu_sparse_host" then luSparseF m lib a b x
  else Dev.of (.throws ("The provided solver name " ++ String.ofList name ++ " is invalid."))

/-- `DirectSolver::apply` with host vectors, /repo/source/cuda/cuda_solver.cu:74-93, with `copy_from_host`,
/repo/source/cuda/utils.cu:484-496.  The device vectors of deal.II are zero at first; their allocation is
deal.II's and is not modelled. -/
def directHostF [Zero K] (m : Machine K) (lib : CuSolver K) (name : List Char) (a : SolverMatrix K)
    (b x : List K) : Dev (List K) := do
  let xDev ← m.copy m.left x (List.replicate x.length 0)
  let bDev ← m.copy m.left b (List.replicate b.length 0)
  let y ← directF m lib name a bDev xDev
  m.toHost 0 m.left y x.length

/-- `CudaSolver::apply` for the direct solvers, /repo/source/cuda/cuda_solver.cu:496-515. -/
def directSolverF [Zero K] (m : Machine K) (host : Bool) (lib : CuSolver K) (name : List Char)
    (a : SolverMatrix K) (b x : List K) : Dev (List K) :=
  if host then directHostF m lib name a b x else directF m lib name a b x

/-! ## Matrices -/

/-- The arrays of a `SparseMatrixDevice` and its descriptor.
/repo/include/mfmg/cuda/sparse_matrix_device.cuh:92-97. -/
structure FaultyMatrix (K : Type) where
  val : Ptr (List K)
  col : Ptr (List ℕ)
  rowPtr : Ptr (List ℕ)
  descr : Ptr Unit

/-- The arrays passed to a call. /repo/include/mfmg/cuda/sparse_matrix_device.templates.cuh:53-70. -/
def FaultyMatrix.arrays (a : FaultyMatrix K) : Outcome (Option (Csr K)) := do
  let v ← a.val.arg
  let c ← a.col.arg
  let r ← a.rowPtr.arg
  let d ← a.descr.arg
  match v, c, r, d with
  | some v, some c, some r, some _ => .ok (some { val := v, col := c, rowPtr := r })
  | _, _, _, _ => .ok none

/-- The matrix stored with these arrays and a descriptor.
As the constructor, /repo/include/mfmg/cuda/sparse_matrix_device.templates.cuh:222-242, leaves it. -/
def FaultyMatrix.ofCsr (a : Csr K) : FaultyMatrix K :=
  { val := .at a.val, col := .at a.col, rowPtr := .at a.rowPtr, descr := .at () }

/-- `cusparseCreateMatDescr`, `cusparseSetMatType`, `cusparseSetMatIndexBase`,
/repo/include/mfmg/cuda/sparse_matrix_device.templates.cuh:197-204, 234-241, 320-327. -/
def descriptorF (m : Machine K) (init : Ptr Unit) : Dev (Ptr Unit) := do
  let d ← m.malloc init (fun _ => ())
  let p ← Dev.of d.arg
  m.call p (fun _ => .ok ()) (fun _ => ())
  m.call p (fun _ => .ok ()) (fun _ => ())
  pure d

/-- The copy constructor, /repo/include/mfmg/cuda/sparse_matrix_device.templates.cuh:170-205, of a matrix with
the arrays `a` on `size` rows.  The members are not initialised before. -/
def copyMatrixF (m : Machine K) (a : Csr K) (size : ℕ) : Dev (FaultyMatrix K) := do
  let val ← m.malloc .indeterminate (m.values a.val.length)
  let val ← m.copyTo m.left a.val val
  let col ← m.malloc .indeterminate (m.indices a.val.length)
  let col ← m.copyTo m.leftN a.col col
  let rowPtr ← m.malloc .indeterminate (m.indices (size + 1))
  let rowPtr ← m.copyTo m.leftN a.rowPtr rowPtr
  let descr ← descriptorF m .indeterminate
  pure { val := val, col := col, rowPtr := rowPtr, descr := descr }

/-- `all_gather_dev`, /repo/source/cuda/utils.cu:443-481 (without `MFMG_WITH_CUDA_MPI`), on the process `rank`;
`values` are what the processes send, `own` the part of this one.  What the other processes send is given. -/
def allGatherF [Zero K] (m : Machine K) (rank : ℕ) (values : List (List K)) (own : List K)
    (buf : List K) : Dev (List K) :=
  match values with
  | [_] => m.copy m.left own buf
  | _ => do
    let send ← m.toHost 0 m.left own own.length
    let recv ← Dev.of (allGather (values.set rank send) (List.replicate buf.length 0))
    m.copy m.left recv buf

/-- `SparseMatrixDevice::vmult` with `gather_vector`,
/repo/include/mfmg/cuda/sparse_matrix_device.templates.cuh:104-138 and 351-371.  `dst` is the content of the
destination before.  The two pointers that are never freed are modelled in `Model/DeviceMemory.lean`. -/
def vmultF [Zero K] [Add K] [Mul K] (m : Machine K) (schedule : List ℕ) (size rank : ℕ)
    (owned : List (List ℕ)) (values : List (List K)) (own : List K) (nRows : ℕ) (a : FaultyMatrix K)
    (dst : List K) : Dev (List K) := do
  let srcVal ← m.malloc .indeterminate (m.values size)
  let buffer ← m.malloc .indeterminate (m.values size)
  let buf ← Dev.of buffer.arg
  let gathered ← allGatherF m rank values own (buf.getD [])
  let indices ← Dev.of (allGather owned (List.replicate size 0))
  let indicesDev ← m.malloc .indeterminate (m.indices size)
  let indicesDev ← m.copyTo m.leftN indices indicesDev
  let args ← Dev.of (srcVal.args indicesDev)
  let x ← m.launch args (fun e => reorderVector schedule size gathered e.2 e.1)
    (fun n => m.left n ((args.map Prod.fst).getD []))
  m.free (Ptr.at gathered)
  let arrays ← Dev.of a.arrays
  m.call arrays (fun c => csrmv nRows c x) (fun n => m.left n dst)

/-! ## The smoother -/

/-- The constructor of `CudaSmoother` after its checks, /repo/source/cuda/cuda_smoother.cu:126-162. -/
def jacobiF [Field K] (m : Machine K) (sched : SmootherSchedule) (owned : List ℕ) (a : Csr K) :
    Dev (FaultyMatrix K) := do
  let size := owned.length
  let nnz := a.col.length
  let val ← m.malloc .null (m.values size)
  let col ← m.malloc .null (m.indices size)
  let rowPtr ← m.malloc .null (m.indices (size + 1))
  let cooDev ← m.malloc .null (m.indices nnz)
  let c ← Dev.of cooDev.arg
  let coo ← m.call c (fun _ => .ok (csr2coo size a.rowPtr)) (fun n => m.leftN n (c.getD []))
  let v ← Dev.of val.arg
  let val ← m.launch v
    (fun v => (sched.extract.foldlM (extractThread nnz a.val a.col coo) v).bind fun r => .ok (Ptr.at r))
    (fun n => (v.map fun v => Ptr.at (m.left n v)).getD .null)
  let first ← Dev.of (Outcome.get owned 0 "*locally_owned_range_indices().begin()")
  let v ← Dev.of col.arg
  let col ← m.launch v
    (fun v => (sched.columns.foldlM (iotaThread size first) v).bind fun r => .ok (Ptr.at r))
    (fun n => (v.map fun v => Ptr.at (m.leftN n v)).getD .null)
  let v ← Dev.of rowPtr.arg
  let rowPtr ← m.launch v
    (fun v => (sched.pointers.foldlM (iotaThread (size + 1) 0) v).bind fun r => .ok (Ptr.at r))
    (fun n => (v.map fun v => Ptr.at (m.leftN n v)).getD .null)
  let descr ← descriptorF m .null
  m.free cooDev
  pure { val := val, col := col, rowPtr := rowPtr, descr := descr }

/-! ## The eigenvectors of an agglomerate -/

/-- `internal::compute_local_eigenvectors`, /repo/include/mfmg/cuda/amge_device.templates.cuh:131-172.  The
matrix is copied to the host without a check (148) and the copy is not used. -/
def sygvdF (m : Machine K) (sygvd : ℕ → List K → List K → List K × List K × Bool) (n : ℕ)
    (dense mass : List K) (eigenvalues : Ptr (List K)) : Dev (Ptr (List K) × List K) := do
  let w ← Dev.of eigenvalues.arg
  let _ ← m.call w (fun _ => .ok ()) (fun _ => ())
  let _ ← m.unchecked (some ()) (fun _ => .ok ()) (fun _ => ())
  let work ← m.malloc .indeterminate (fun _ => ())
  let info ← m.malloc .indeterminate (fun _ => ())
  let _ ← Dev.of work.arg
  let _ ← Dev.of info.arg
  let r ← m.call w (fun _ => .ok (Ptr.at (sygvd n dense mass).1, (sygvd n dense mass).2.1,
      (sygvd n dense mass).2.2))
    (fun k => ((w.map fun w => Ptr.at (m.left k w)).getD .null, m.left k dense, false))
  m.checkInfo r.2.2
  m.free work
  m.free info
  pure (r.1, r.2.1)

/-- `AMGe_device::compute_local_eigenvectors`, /repo/include/mfmg/cuda/amge_device.templates.cuh:240-315, for the
agglomerate matrix with the arrays `a`, which has `nRows` rows and `nCols` columns.  The destruction of the
matrix (262) is modelled in `Model/DeviceMemory.lean`.  The allocation of the eigenvalues is not checked
(282). -/
def eigenvectorsF [Zero K] [One K] (m : Machine K) (sched : EigenSchedule)
    (sygvd : ℕ → List K → List K → List K × List K × Bool) (nEig nRows nCols : ℕ) (a : Csr K) :
    Dev (LocalEigDev K) := do
  let _ ← descriptorF m .indeterminate
  Dev.of (Outcome.assert m.debug (nCols = nRows))
  let dense ← m.malloc .null (m.values (nRows * nRows))
  let d ← Dev.of dense.arg
  let dense ← m.call d (fun _ => csr2dense a nRows nRows) (fun n => m.left n (d.getD []))
  if 2 ^ 31 ≤ nRows * nCols then Dev.of (.ub "overflow of n_rows * n_cols") else do
    let diag ← m.malloc .null (m.values nRows)
    let d ← Dev.of diag.arg
    let diag ← m.launch d (fun d => sched.diag.foldlM (extractDiagThread dense nRows nCols) d)
      (fun n => m.left n (d.getD []))
    let mass ← m.malloc .null (m.values (nRows * nCols))
    let d ← Dev.of mass.arg
    let massData ← m.launch d (fun d => sched.identity.foldlM (identityThread nRows nCols) d)
      (fun n => m.left n (d.getD []))
    let w ← m.mallocUnchecked .null (m.values nRows)
    let (w, vecs) ← sygvdF m sygvd nRows dense massData w
    m.free mass
    let small ← m.malloc .null (m.values nEig)
    let args ← Dev.of (w.args small)
    let values ← m.launch args (fun e => sched.values.foldlM (restrictThread e.1 (asInt32 nEig)) e.2)
      (fun n => m.left n ((args.map Prod.snd).getD []))
    m.lastError
    m.synchronize
    m.free w
    let size := nEig * nRows % 2 ^ 32
    let vectors ← m.malloc .null (m.values size)
    let d ← Dev.of vectors.arg
    let vectors ← m.launch d (fun d => sched.vectors.foldlM (restrictThread vecs (asInt32 size)) d)
      (fun n => m.left n (d.getD []))
    m.lastError
    m.synchronize
    m.free (Ptr.at vecs)
    pure { values := values, vectors := vectors, diag := diag }

/-! ## AMGX -/

/-- `amgx_solve` for device vectors, /repo/source/cuda/cuda_solver.cu:108-152: the final contents of `b` and
`x`.  `rhs` and `sol` are the contents of AMGX's own vectors before.  `solve b x` is the solution that AMGX
finds from the initial guess `x`. -/
def amgxF [Zero K] (m : Machine K) (rowMap : UMap) (solve : List K → List K → List K)
    (rhs sol b x : List K) : Dev (List K × List K) := do
  let host ← m.toHost 0 m.left b b.length
  let reordered ← Dev.of (amgxToSolver rowMap host)
  let b' ← m.copy m.left reordered b
  let rhs ← m.amgx (.ok b') (fun _ => rhs)
  let guess ← m.amgx (.ok x) (fun _ => sol)
  let sol ← m.amgx (.ok (solve rhs guess)) (fun n => m.left n guess)
  let xDev ← m.amgx (.ok sol) (fun n => m.left n x)
  let host ← m.toHost 0 m.left xDev xDev.length
  let result ← Dev.of (amgxFromSolver rowMap host host)
  let x' ← m.copy m.left result xDev
  pure (b', x')

/-! ## The handles -/

/-- The members of `CudaHandle`, /repo/include/mfmg/cuda/cuda_handle.cuh:25-48. -/
structure CudaHandles where
  dn : Option ℕ
  sp : Option ℕ
  sparse : Option ℕ
  deriving DecidableEq, Repr

/-- `cusolverDnCreate`, `cusolverSpCreate` or `cusparseCreate` with its check; `live` are the handles that
exist.  A failed creation leaves the null pointer. /repo/source/cuda/cuda_handle.cu:18-29. -/
def createHandle (m : Machine K) (live : List ℕ) : Dev (Option ℕ × List ℕ) := fun s =>
  m.call (some ()) (fun _ => .ok (some s.calls, s.calls :: live)) (fun _ => (none, live)) s

/-- The destruction of a handle that is not null, with its check.
/repo/source/cuda/cuda_handle.cu:34-55. -/
def destroyHandle (m : Machine K) (h : Option ℕ) (live : List ℕ) : Dev (List ℕ) :=
  match h with
  | none => pure live
  | some p =>
    if p ∈ live then m.call (some ()) (fun _ => .ok (live.erase p)) (fun _ => live)
    else Dev.of (.ub "destruction of a handle that does not exist")

/-- The constructor, /repo/source/cuda/cuda_handle.cu:17-30. -/
def constructHandles (m : Machine K) (live : List ℕ) : Dev (CudaHandles × List ℕ) := do
  let (dn, live) ← createHandle m live
  let (sp, live) ← createHandle m live
  let (sparse, live) ← createHandle m live
  pure ({ dn := dn, sp := sp, sparse := sparse }, live)

/-- The destructor, /repo/source/cuda/cuda_handle.cu:32-56. -/
def destructHandles (m : Machine K) (h : CudaHandles) (live : List ℕ) : Dev (List ℕ) := do
  let live ← destroyHandle m h.sparse live
  let live ← destroyHandle m h.sp live
  destroyHandle m h.dn live

end

end Mfmg
