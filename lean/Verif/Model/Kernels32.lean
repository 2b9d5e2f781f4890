import Verif.Model.DeviceSmoother
import Verif.Model.DeviceEigen

/-!
# The kernels with 32-bit thread numbers

`Model/DeviceGather.lean` and `Model/DeviceSmoother.lean` number the threads by natural numbers.  Here the
same kernels compute their index as the code does, `int i = threadIdx.x + blockIdx.x * blockDim.x`, compare
it with an `int` size, and use it, possibly negative, to address arrays.
-/

set_option autoImplicit false

namespace Mfmg

variable {K : Type}

/-- Thread `t` of the kernel `extract_inv_diag`, /repo/source/cuda/cuda_smoother.cu:86-96. -/
def extractThread32 [Field K] (size : ℤ) (vals : List K) (cols rows : List ℕ) (out : List K) (t : ℕ) :
    Outcome (List K) :=
  let idx := asInt32 t
  if idx < size then do
    let c ← readAt cols idx "matrix_column_index[idx]"
    let r ← readAt rows idx "matrix_row_index[idx]"
    if c = r then do
      let v ← readAt vals idx "matrix_value[idx]"
      writeAt out c (1 / v) "value[matrix_column_index[idx]]"
    else pure out
  else pure out

/-- Thread `t` of the kernel `iota`, /repo/source/cuda/dealii_operator_device_helpers.cu:259-264. -/
def iotaThread32 (size : ℤ) (value : ℕ) (data : List ℕ) (t : ℕ) : Outcome (List ℕ) :=
  let idx := asInt32 t
  if idx < size then writeAt data idx (idx + value).toNat "data[idx]" else pure data

/-- Thread `t` of the kernel `reorder_vector`,
/repo/include/mfmg/cuda/sparse_matrix_device.templates.cuh:25-32. -/
def reorderThread32 (size : ℤ) (src : List K) (indices : List ℕ) (dst : List K) (t : ℕ) :
    Outcome (List K) :=
  let i := asInt32 t
  if i < size then do
    let g ← readAt indices i "indices[i]"
    let v ← readAt src i "src[i]"
    writeAt dst g v "dst[indices[i]]"
  else pure dst

/-- The diagonal matrix built by the constructor, /repo/source/cuda/cuda_smoother.cu:127-161; as
`jacobiMatrix`, with 32-bit sizes and thread numbers. -/
def jacobiMatrix32 [Field K] (sched : SmootherSchedule) (junk : ℕ → K) (owned : List ℕ) (a : Csr K) :
    Outcome (Csr K) := do
  let size := owned.length
  let nnz := a.col.length
  let coo := csr2coo size a.rowPtr
  let val ← sched.extract.foldlM (extractThread32 (asInt32 nnz) a.val a.col coo)
    ((List.range size).map junk)
  let first ← Outcome.get owned 0 "*locally_owned_range_indices().begin()"
  let col ← sched.columns.foldlM (iotaThread32 (asInt32 size) first) (List.replicate size 0)
  let rowPtr ← sched.pointers.foldlM (iotaThread32 (asInt32 (size + 1)) 0)
    (List.replicate (size + 1) 0)
  .ok { val := val, col := col, rowPtr := rowPtr }

/-- `SparseMatrixDevice::vmult`, /repo/include/mfmg/cuda/sparse_matrix_device.templates.cuh:104-138,
351-371; as `deviceVmult`, with 32-bit sizes and thread numbers. -/
def deviceVmult32 [Add K] [Mul K] [Zero K] (schedule : List ℕ) (size : ℕ) (owned : List (List ℕ))
    (values : List (List K)) (junk : K) (m : ℕ) (a : Csr K) : Outcome (List K) := do
  let buffer ← allGatherDev values (List.replicate size junk)
  let indices ← allGather owned (List.replicate size 0)
  let x ← schedule.foldlM (reorderThread32 (asInt32 size) buffer indices) (List.replicate size junk)
  csrmv m a x

end Mfmg
