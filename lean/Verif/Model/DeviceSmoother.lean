import Verif.Model.DeviceGather
import Verif.Model.Amgx
import Mathlib.Algebra.Field.Defs

/-!
# Model of the device Jacobi smoother

/repo/source/cuda/cuda_smoother.cu.  The checks at the start of the constructor (107-124) are in
`Model/Factory.lean`.
-/

set_option autoImplicit false

namespace Mfmg

variable {K : Type}

/-- Thread `idx` of the kernel `extract_inv_diag`, /repo/source/cuda/cuda_smoother.cu:86-96.  The column
index is global, the row index local.  Division by zero, an infinity in C++, is the field's `1 / 0`; the
theorems ask for nonzero diagonal entries where it matters. -/
def extractThread [Field K] (size : ℕ) (vals : List K) (cols rows : List ℕ) (out : List K) (idx : ℕ) :
    Outcome (List K) :=
  if idx < size then do
    let c ← Outcome.get cols idx "matrix_column_index[idx]"
    let r ← Outcome.get rows idx "matrix_row_index[idx]"
    if c = r then do
      let v ← Outcome.get vals idx "matrix_value[idx]"
      if c < out.length then pure (out.set c (1 / v)) else .ub "value[matrix_column_index[idx]]"
    else pure out
  else pure out

/-- Thread `idx` of the kernel `iota`, /repo/source/cuda/dealii_operator_device_helpers.cu:259-264. -/
def iotaThread (size value : ℕ) (data : List ℕ) (idx : ℕ) : Outcome (List ℕ) :=
  if idx < size then
    if idx < data.length then pure (data.set idx (idx + value)) else .ub "data[idx]"
  else pure data

/-- The order in which the threads of the three kernels write.
The launches are in /repo/source/cuda/cuda_smoother.cu:142-153. -/
structure SmootherSchedule where
  extract : List ℕ
  columns : List ℕ
  pointers : List ℕ

/-- The diagonal matrix built by the constructor, /repo/source/cuda/cuda_smoother.cu:127-161, on a process
that owns the rows `owned` of the matrix `a`.  `junk` is the content of the newly allocated `val_dev`, which
is not initialised (the two index arrays are overwritten completely, their content is taken as 0). -/
def jacobiMatrix [Field K] (sched : SmootherSchedule) (junk : ℕ → K) (owned : List ℕ) (a : Csr K) :
    Outcome (Csr K) := do
  let size := owned.length
  let nnz := a.col.length
  let coo := csr2coo size a.rowPtr
  let val ← sched.extract.foldlM (extractThread nnz a.val a.col coo) ((List.range size).map junk)
  let first ← Outcome.get owned 0 "*locally_owned_range_indices().begin()"
  let col ← sched.columns.foldlM (iotaThread size first) (List.replicate size 0)
  let rowPtr ← sched.pointers.foldlM (iotaThread (size + 1) 0) (List.replicate (size + 1) 0)
  .ok { val := val, col := col, rowPtr := rowPtr }

/-- The parts of a distributed vector minus those of another.
The calls `r.add(-1., b)` and `x.add(-1., tmp)` of /repo/source/cuda/cuda_smoother.cu:53 and 59. -/
def subParts [Sub K] (u v : List (List K)) : List (List K) := List.zipWith (List.zipWith (· - ·)) u v

/-- `SmootherOperator::apply`, /repo/source/cuda/cuda_smoother.cu:39-60, on all processes: `r = A x - b`,
`tmp = S r`, `x = x - tmp`.  `scheduleA`, `scheduleS` are the thread orders in the two products.  The host
version (62-84) copies to the device and back. -/
def smootherApply [Field K] (scheduleA scheduleS : List ℕ) (size : ℕ) (owned : List (List ℕ)) (junk : K)
    (matrix smoother : List (Csr K)) (b x : List (List K)) : Outcome (List (List K)) := do
  let ax ← (owned.zip matrix).mapM fun e => deviceVmult scheduleA size owned x junk e.1.length e.2
  let r := subParts ax b
  let tmp ← (owned.zip smoother).mapM fun e => deviceVmult scheduleS size owned r junk e.1.length e.2
  .ok (subParts x tmp)

end Mfmg
