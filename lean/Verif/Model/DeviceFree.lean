import Verif.Model.MatMult
import Verif.Model.DeviceGather

/-!
# Model of the matrix-free operator on the device

`CudaMatrixFreeOperator`, /repo/source/cuda/cuda_matrix_free_operator.cu:32-132, on all processes at
once.  The operator itself is a function on global vectors; the copies between host and device in the
overload of `apply` for host vectors (lines 39-58) keep the values and are not repeated here.  The
operations that always throw (`transpose`, `multiply`, `apply` in transposed mode: lines 47-50, 65-68,
72-89) have no definition here.
-/

set_option autoImplicit false

namespace Mfmg

/-- A matrix on the device as one process sees it: the local arrays and whether the cuSPARSE handle and
the matrix descriptor are set (/repo/include/mfmg/cuda/sparse_matrix_device.cuh:92-97). -/
structure DevPart (K : Type) where
  csr : Csr K
  handle : Bool
  descr : Bool
  deriving Repr, DecidableEq

section

variable {K : Type}

/-- The process whose index list contains `i` (`IndexSet`s of the distributed vectors).
/repo/source/cuda/utils.cu:185-189. -/
def ownerIn (owned : List (List ℕ)) (i : ℕ) : ℕ := owned.findIdx fun l => l.contains i

/-- The Trilinos matrix that `convert_to_trilinos_matrix` makes, /repo/source/cuda/utils.cu:170-204,
from the calls of `set` on every process.  A row is set once, by its owner. -/
def trilinosOf (rows : ℕ) (owned : List (List ℕ)) (calls : List (List (ℕ × List (ℕ × K)))) :
    DistMatrix K where
  rows := rows
  rowOwner := ownerIn owned
  entries j := (calls.flatten.lookup j).getD []

/-- The locally owned rows of the Trilinos matrix made by the given calls of `C->set(i, j, value)`
followed by `compress` (/repo/include/mfmg/dealii/dealii_utils.hpp:74-79), with global columns.  No
entry is set twice. -/
def storedRows (owned : List ℕ) (sets : List (ℕ × ℕ × K)) : List (List (ℕ × K)) :=
  owned.map fun i => (sets.filter fun s => s.1 == i).map Prod.snd

variable [Field K] [LinearOrder K]

/-- `multiply_transpose`, /repo/source/cuda/cuda_matrix_free_operator.cu:91-132, on all processes.
`bs` are the local parts of the matrix of `b`, `none` if `b` is not a `CudaMatrixOperator` (the
downcast in line 99 gives a null pointer, dereferenced in line 102); `rowsB` and `ownedB` are its
number of rows and their distribution, `nRows` and `ownedA` those of the operator, `apply` the operator
on global vectors.  `order` is the order in which Trilinos stores the entries of a row of the product
(by local column number, which depends on the process layout). -/
def freeMultiplyTranspose (debug : Bool) (eps : K) (order : List (ℕ × K) → List (ℕ × K))
    (nRows : ℕ) (ownedA : List (List ℕ)) (apply : (ℕ → K) → (ℕ → K)) (rowsB : ℕ)
    (ownedB : List (List ℕ)) (bs : Option (List (DevPart K))) : Outcome (List (DevPart K)) :=
  match bs with
  | none => .ub "downcast_b is null"
  | some bs => do
    let calls ← (bs.zip ownedB).mapM fun b => convertToTrilinos b.1.csr b.2
    let b := trilinosOf rowsB ownedB calls
    (bs.zip (ownedA.zip (List.range ownedA.length))).mapM fun p => do
      let sets := transposeMultiply ownedA.length eps b nRows (ownerIn ownedA) apply p.2.2
      let c ← convertTrilinos debug id ((storedRows p.2.1 sets).map order)
      -- `convert_matrix` sets neither: lines 117-126 do
      pure { csr := c, handle := p.1.handle, descr := true }

/-- Applying the product on one process: `SparseMatrixDevice::vmult` as in `deviceVmult`; with a null
handle or descriptor cuSPARSE returns an error and writes nothing, which `ASSERT_CUSPARSE`
(/repo/include/mfmg/common/exceptions.hpp:212-226) turns into an abort in debug builds and ignores
otherwise.  `y` is the previous content of the destination. -/
def applyPart (debug : Bool) (schedule : List ℕ) (size : ℕ) (owned : List (List ℕ))
    (values : List (List K)) (junk : K) (y : List K) (a : DevPart K) : Outcome (List K) :=
  if a.handle && a.descr then deviceVmult schedule size owned values junk y.length a.csr
  else if debug then .aborted else .ok y

end

end Mfmg
