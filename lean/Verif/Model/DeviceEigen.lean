import Verif.Model.DeviceGather
import Mathlib.Algebra.Field.Basic
import Mathlib.Data.Int.Notation

/-!
# Model of the eigenvectors of an agglomerate on the device

`AMGe_device::compute_local_eigenvectors` and its kernels,
/repo/include/mfmg/cuda/amge_device.templates.cuh:28-323.  Device arrays are lists; reading or writing
outside of them is undefined.
-/

set_option autoImplicit false

namespace Mfmg

variable {K : Type}

/-- Conversion of a 32-bit `unsigned int` to `int`; also the value of
`int i = threadIdx.x + blockIdx.x * blockDim.x` in the thread with the number `t`,
/repo/include/mfmg/cuda/amge_device.templates.cuh:178. -/
def asInt32 (t : ℕ) : ℤ :=
  if t % 2 ^ 32 < 2 ^ 31 then (t % 2 ^ 32 : ℕ) else (t % 2 ^ 32 : ℕ) - 2 ^ 32

/-- `array[i]` for an `int i`. For example /repo/include/mfmg/cuda/amge_device.templates.cuh:181, 204. -/
def readAt (array : List K) (i : ℤ) (why : String) : Outcome K :=
  if 0 ≤ i then Outcome.get array i.toNat why else .ub why

/-- `array[i] = v` for an `int i`.
For example /repo/include/mfmg/cuda/amge_device.templates.cuh:181, 191, 204. -/
def writeAt (array : List K) (i : ℤ) (v : K) (why : String) : Outcome (List K) :=
  if 0 ≤ i ∧ i.toNat < array.length then .ok (array.set i.toNat v) else .ub why

/-- Thread `t` of the kernel `extract_diag`, /repo/include/mfmg/cuda/amge_device.templates.cuh:174-182.
C++ division truncates. -/
def extractDiagThread (matrix : List K) (nRows nCols : ℤ) (diag : List K) (t : ℕ) :
    Outcome (List K) :=
  let i := asInt32 t
  if i < nRows * nCols then
    if i.tdiv nRows = i.tmod nCols then do
      let v ← readAt matrix i "matrix[i]"
      writeAt diag (i.tmod nCols) v "diag_elements[i % n_cols]"
    else pure diag
  else pure diag

/-- Thread `t` of the kernel `fill_identity_matrix`,
/repo/include/mfmg/cuda/amge_device.templates.cuh:184-195. -/
def identityThread [Zero K] [One K] (nRows nCols : ℤ) (matrix : List K) (t : ℕ) : Outcome (List K) :=
  let i := asInt32 t
  if i < nRows * nCols then
    writeAt matrix i (if i.tdiv nRows = i.tmod nCols then 1 else 0) "matrix[i]"
  else pure matrix

/-- Thread `t` of the kernel `restrict_array`, /repo/include/mfmg/cuda/amge_device.templates.cuh:197-205. -/
def restrictThread (full : List K) (size : ℤ) (restricted : List K) (t : ℕ) : Outcome (List K) :=
  let i := asInt32 t
  if i < size then do
    let v ← readAt full i "full_array[i]"
    writeAt restricted i v "restricted_array[i]"
  else pure restricted

/-- The orders in which the threads of the four kernel launches run.
/repo/include/mfmg/cuda/amge_device.templates.cuh:268-269, 275-276, 295-296, 308-310. -/
structure EigenSchedule where
  diag : List ℕ
  identity : List ℕ
  values : List ℕ
  vectors : List ℕ

/-- The number of threads of a launch with `1 + (size - 1) / block_size` blocks, where `size` is a 32-bit
`unsigned int` (`block_size` is an `unsigned int`, /repo/include/mfmg/cuda/utils.cuh:35). -/
def launchThreads (size : ℕ) : ℕ := nBlocks (size % 2 ^ 32) * 512

/-- The arrays returned: eigenvalues, eigenvectors one after the other, diagonal.
/repo/include/mfmg/cuda/amge_device.templates.cuh:321-322. -/
structure LocalEigDev (K : Type) where
  values : List K
  vectors : List K
  diag : List K

/-- `compute_local_eigenvectors`, /repo/include/mfmg/cuda/amge_device.templates.cuh:217-323, for the
dense matrix `dense` (in column-major order, as `cusparseDcsr2dense` makes it; 256-260).  `sygvd` stands
for `cusolverDnDsygvd` (131-172): eigenvalues, the eigenvectors that replace the matrix, and whether
`info` is 0.  `junk` is the content of new device arrays.  The map of dof indices is modelled in
`Model/Agglomerate.lean`. -/
def deviceEigenvectors [Zero K] [One K] (debug : Bool) (sched : EigenSchedule) (junk : K)
    (sygvd : ℕ → List K → List K → List K × List K × Bool) (nEig nRows nCols : ℕ) (dense : List K) :
    Outcome (LocalEigDev K) := do
  let _ ← Outcome.assert debug (nCols = nRows)
  if 2 ^ 31 ≤ nRows * nCols then .ub "overflow of n_rows * n_cols" else do
    let diag ← sched.diag.foldlM (extractDiagThread dense nRows nCols) (List.replicate nRows junk)
    let mass ← sched.identity.foldlM (identityThread nRows nCols)
      (List.replicate (nRows * nCols) junk)
    let (w, v, converged) := sygvd nRows dense mass
    let _ ← Outcome.assert debug (converged = true)
    let values ← sched.values.foldlM (restrictThread w (asInt32 nEig)) (List.replicate nEig junk)
    let size := nEig * nRows % 2 ^ 32
    let vectors ← sched.vectors.foldlM (restrictThread v (asInt32 size)) (List.replicate size junk)
    pure { values := values, vectors := vectors, diag := diag }

end Mfmg
