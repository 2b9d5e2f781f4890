import Verif.Model.DeviceEigen
import Verif.Model.DeviceMemory
import Verif.Model.Restriction

/-!
# Model of the set-up of the restriction matrix on the device

`AMGe_device::compute_local_eigenvectors`, `setup_restrictor`,
/repo/include/mfmg/cuda/amge_device.templates.cuh:217-323 and 365-432.  The data are computed by
`deviceEigenvectors` (Model/DeviceEigen.lean); here the allocations are followed as well.  The
agglomerates and their triangulations are modelled in `Model/Agglomerate.lean`.  An exception in between
(debug builds) ends the program.
-/

set_option autoImplicit false

namespace Mfmg

variable {K : Type}

/-- What one agglomerate brings: the number of rows and columns of the matrix made by
`evaluate_agglomerate`, this matrix in dense form, the map of dof indices, whether the evaluator gave the
matrix a descriptor, and the order of the threads.
What /repo/include/mfmg/cuda/amge_device.templates.cuh:229-262 works on. -/
structure DevAgg (K : Type) where
  nRows : ℕ
  nCols : ℕ
  dense : List K
  dofMap : List ℕ
  descr : Bool
  sched : EigenSchedule

/-- The addresses of the three arrays returned by `compute_local_eigenvectors`.
/repo/include/mfmg/cuda/amge_device.templates.cuh:321-322. -/
structure EigPtrs where
  values : ℕ
  vectors : ℕ
  diag : ℕ
  deriving Repr, DecidableEq

/-- The workspace of `internal::compute_local_eigenvectors`,
/repo/include/mfmg/cuda/amge_device.templates.cuh:152-171. -/
def sygvdMem (h : DevHeap) : Outcome DevHeap := do
  let (work, h) := h.alloc
  let (info, h) := h.alloc
  let h ← h.free (some work)
  h.free (some info)

/-- The allocations of `compute_local_eigenvectors`,
/repo/include/mfmg/cuda/amge_device.templates.cuh:233-323, in the order of the code. -/
def eigMem (descr : Bool) (h : DevHeap) : Outcome (EigPtrs × DevHeap) := do
  -- 233-238: the matrix of the agglomerate
  let (mat, h) := newArrays descr h
  -- 242-250: `descr`, which is not destroyed
  let (_, h) := h.alloc
  -- 257-260
  let (dense, h) := h.allocWritten
  -- 262
  let h ← destroyObj h mat
  -- 265-276
  let (diag, h) := h.allocWritten
  let (mass, h) := h.allocWritten
  -- 280-285
  let (values, h) := h.allocWritten
  let h ← sygvdMem h
  -- 286
  let h ← h.free (some mass)
  -- 289-296
  let (smallest, h) := h.allocWritten
  h.use values
  -- 301
  let h ← h.free (some values)
  -- 303-310
  let (vectors, h) := h.allocWritten
  h.use dense
  -- 315
  let h ← h.free (some dense)
  pure ({ values := smallest, vectors := vectors, diag := diag }, h)

/-- `cuda_mem_copy_to_host` into a vector of size `size`, /repo/include/mfmg/cuda/utils.cuh:81-89. -/
def copyToHost (array : List K) (size : ℕ) : Outcome (List K) :=
  if size ≤ array.length then .ok (array.take size) else .ub "read past the end of a device array"

/-- The eigenvectors cut out of one array,
/repo/include/mfmg/cuda/amge_device.templates.cuh:406-412. -/
def cutVectors (host : List K) (n m : ℕ) : List (List K) :=
  (List.range m).map fun i => (host.take ((i + 1) * n)).drop (i * n)

/-- The body of the loop over agglomerates, /repo/include/mfmg/cuda/amge_device.templates.cuh:383-422;
the eigenvalues are ignored (392). -/
def deviceAggStep [Zero K] [One K] (debug : Bool) (junk : K)
    (sygvd : ℕ → List K → List K → List K × List K × Bool) (nEig : ℕ)
    (s : Collected K × DevHeap) (agg : DevAgg K) : Outcome (Collected K × DevHeap) := do
  let r ← deviceEigenvectors debug agg.sched junk sygvd nEig agg.nRows agg.nCols agg.dense
  let (ptrs, h) ← eigMem agg.descr s.2
  let n := agg.dofMap.length
  h.use ptrs.vectors
  let host ← copyToHost r.vectors (nEig * n)
  let h ← h.free (some ptrs.vectors)
  h.use ptrs.diag
  let diag ← copyToHost r.diag n
  let h ← h.free (some ptrs.diag)
  pure ({ eigenvalues := s.1.eigenvalues
          eigenvectors := s.1.eigenvectors ++ cutVectors host n nEig
          diag := s.1.diag ++ [diag]
          dofMaps := s.1.dofMaps ++ [agg.dofMap]
          nLocal := s.1.nLocal ++ [nEig] }, h)

/-- The loop of `setup_restrictor`, /repo/include/mfmg/cuda/amge_device.templates.cuh:373-423. -/
def deviceSetup [Zero K] [One K] (debug : Bool) (junk : K)
    (sygvd : ℕ → List K → List K → List K × List K × Bool) (nEig : ℕ) (h : DevHeap)
    (aggs : List (DevAgg K)) : Outcome (Collected K × DevHeap) :=
  aggs.foldlM (deviceAggStep debug junk sygvd nEig) (⟨[], [], [], [], []⟩, h)

/-- `setup_restrictor` on all processes, /repo/include/mfmg/cuda/amge_device.templates.cuh:365-432: each
process has its own device memory `heaps`; the matrix is assembled as on the host (425-431, 327-352).
The conversion of the result to a device matrix is modelled in `Model/DeviceCsr.lean`. -/
def deviceRestrictor [Field K] (debug dynAdds : Bool) (junk : K)
    (sygvd : ℕ → List K → List K → List K × List K × Bool) (nEig : ℕ) (gdiag : ℕ → K)
    (ranks : List (DevHeap × List (DevAgg K))) : Outcome (Assembled K × List DevHeap) := do
  let rs ← ranks.mapM fun r => deviceSetup debug junk sygvd nEig r.1 r.2
  let a ← assembleAll debug dynAdds gdiag (rs.map (·.1))
  pure (a, rs.map (·.2))

end Mfmg
