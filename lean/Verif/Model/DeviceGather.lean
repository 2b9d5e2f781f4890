import Verif.Model.DeviceCsr

/-!
# Model of gathering a distributed vector and of the device matrix-vector product

`all_gather`, `all_gather_dev`, /repo/source/cuda/utils.cu:305-482, and `gather_vector`,
`SparseMatrixDevice::vmult`, /repo/include/mfmg/cuda/sparse_matrix_device.templates.cuh:25-32,
104-138, 351-371.

A distributed object is the list, by rank, of the local parts.  All collective calls are modelled as
one function of the data of all processes.
-/

set_option autoImplicit false

namespace Mfmg

section

variable {α : Type}

/-- The displacements, /repo/source/cuda/utils.cu:318-320: `displs[0] = 0`,
`displs[i] = displs[i-1] + n_elem_per_procs[i-1]`.  `acc` is the value for the first process of the
list.  Natural numbers: `int` overflow is not modelled. -/
def displacements : (acc : ℕ) → List ℕ → List ℕ
  | _, [] => []
  | acc, c :: cs => acc :: displacements (acc + c) cs

/-- Write `block` into `buf` from position `at` on; writing past the end is undefined.
The copies made by `MPI_Allgatherv`, /repo/source/cuda/utils.cu:321-322, and by `cudaMemcpy`, 401-402. -/
def writeBlock (buf : List α) (start : ℕ) (block : List α) : Outcome (List α) :=
  if start + block.length ≤ buf.length then
    .ok (buf.take start ++ block ++ buf.drop (start + block.length))
  else .ub "receive buffer"

/-- `MPI_Allgatherv`: the block of every process is written at its displacement into the receive
buffer, which is the same on every process. /repo/source/cuda/utils.cu:321-322, 338-340, 358-360. -/
def allgatherv (displs : List ℕ) (sends : List (List α)) (buf : List α) : Outcome (List α) :=
  (displs.zip sends).foldlM (fun b s => writeBlock b s.1 s.2) buf

/-- `all_gather`, /repo/source/cuda/utils.cu:305-361 (the three overloads are the same up to the
type).  The counts come from `MPI_Allgather`. -/
def allGather (sends : List (List α)) (buf : List α) : Outcome (List α) :=
  allgatherv (displacements 0 (sends.map List.length)) sends buf

/-- `all_gather_dev`, /repo/source/cuda/utils.cu:363-482 (both variants: with more than one process
the data goes through `all_gather`, possibly staged in host buffers; with one process it is copied).
-/
def allGatherDev (sends : List (List α)) (buf : List α) : Outcome (List α) :=
  match sends with
  | [send] => writeBlock buf 0 send
  | _ => allGather sends buf

/-- The number of blocks, /repo/include/mfmg/cuda/sparse_matrix_device.templates.cuh:134, with
`block_size = 512` (/repo/include/mfmg/cuda/utils.cuh:35) and `size - 1` in 32-bit unsigned
arithmetic. -/
def nBlocks (size : ℕ) : ℕ := 1 + (if size = 0 then 2 ^ 32 - 1 else size - 1) / 512

/-- Thread `i` of the kernel `reorder_vector`,
/repo/include/mfmg/cuda/sparse_matrix_device.templates.cuh:25-32. -/
def reorderThread (size : ℕ) (src : List α) (indices : List ℕ) (dst : List α) (i : ℕ) :
    Outcome (List α) :=
  if i < size then do
    let g ← Outcome.get indices i "indices[i]"
    let v ← Outcome.get src i "src[i]"
    if g < dst.length then pure (dst.set g v) else .ub "dst[indices[i]]"
  else pure dst

/-- The kernel `reorder_vector`; `schedule` is the order in which the threads write (any interleaving
of the single writes is such an order).
Launched at /repo/include/mfmg/cuda/sparse_matrix_device.templates.cuh:134-136. -/
def reorderVector (schedule : List ℕ) (size : ℕ) (src : List α) (indices : List ℕ) (dst : List α) :
    Outcome (List α) :=
  schedule.foldlM (reorderThread size src indices) dst

/-- `gather_vector`, /repo/include/mfmg/cuda/sparse_matrix_device.templates.cuh:104-138, on one of the
processes.  `owned` and `values` are the locally owned indices (increasing) and values by rank, `junk`
the content of uninitialised device memory, `dst` the previous content of the destination.  The memory
management is modelled in `DeviceMemory`. -/
def gatherVector (schedule : List ℕ) (size : ℕ) (owned : List (List ℕ)) (values : List (List α))
    (junk : α) (dst : List α) : Outcome (List α) := do
  let buffer ← allGatherDev values (List.replicate size junk)
  let indices ← allGather owned (List.replicate size 0)
  reorderVector schedule size buffer indices dst

end

section

variable {K : Type} [Add K] [Mul K] [Zero K]

/-- `cusparseDcsrmv` with `alpha = 1`, `beta = 0`, not transposed
(/repo/include/mfmg/cuda/sparse_matrix_device.templates.cuh:53-70): `y_i` is the sum over the entries
of row `i`.  Reads past the end are undefined.  Assumed of cuSPARSE; the order of the summation is
not modelled (exact arithmetic). -/
def csrmv (m : ℕ) (a : Csr K) (x : List K) : Outcome (List K) :=
  (List.range m).mapM fun i => do
    let b ← Outcome.get a.rowPtr i "row_ptr"
    let e ← Outcome.get a.rowPtr (i + 1) "row_ptr"
    let terms ← (((a.col.zip a.val).drop b).take (e - b)).mapM fun (c : ℕ × K) => do
      let v ← Outcome.get x c.1 "x[column]"
      pure (c.2 * v)
    pure terms.sum

/-- `SparseMatrixDevice::vmult`, /repo/include/mfmg/cuda/sparse_matrix_device.templates.cuh:351-371,
on the process whose local matrix is `a` with `m` local rows. -/
def deviceVmult (schedule : List ℕ) (size : ℕ) (owned : List (List ℕ)) (values : List (List K))
    (junk : K) (m : ℕ) (a : Csr K) : Outcome (List K) := do
  let x ← gatherVector schedule size owned values junk (List.replicate size junk)
  csrmv m a x

end

end Mfmg
