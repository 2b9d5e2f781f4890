import Verif.Model.Basic
import Mathlib.Data.Matrix.Mul
import Mathlib.Algebra.BigOperators.Fin

/-!
# Model of the device matrix operator and its call histories

`CudaMatrixOperator`, /repo/source/cuda/cuda_matrix_operator.cu:73-225.  The state of a program is the
list of the operators that exist; each call works on operators named by their position and may append
one.  A device matrix is represented by the matrix it stores (how, and that products are right, is
modelled in `DeviceCsr` and `DeviceGather`) and by whether its cuSPARSE handle and descriptor are set.

Matrices are shared between operators through `std::shared_ptr`; none of the functions below writes to
a matrix that exists already, so values instead of pointers lose nothing.
-/

set_option autoImplicit false

namespace Mfmg

/-- A matrix with its dimensions.
What a `SparseMatrixDevice`, /repo/include/mfmg/cuda/sparse_matrix_device.cuh:92-103, stores. -/
structure GMat (K : Type) where
  rows : ℕ
  cols : ℕ
  entry : Matrix (Fin rows) (Fin cols) K

namespace GMat

variable {K : Type}

/-- The transpose.  `EpetraExt::RowMatrix_Transpose`,
/repo/source/cuda/cuda_matrix_operator.cu:107-109, is assumed to compute it. -/
def transpose (A : GMat K) : GMat K := ⟨A.cols, A.rows, A.entry.transpose⟩

variable [NonUnitalNonAssocSemiring K]

/-- The product, if the dimensions agree.  `cusparseDcsrgemm` and `EpetraExt::MatrixMatrix::Multiply`
are assumed to compute it.
/repo/include/mfmg/cuda/sparse_matrix_device.templates.cuh:88-102 and
/repo/source/cuda/cuda_matrix_operator.cu:212-214. -/
def mul (A B : GMat K) : Option (GMat K) :=
  if h : A.cols = B.rows then
    some ⟨A.rows, B.cols, A.entry * B.entry.submatrix (Fin.cast h) id⟩
  else none

/-- The product with a vector, if the dimensions agree.
/repo/include/mfmg/cuda/sparse_matrix_device.templates.cuh:53-70. -/
def mulVec (A : GMat K) (x : List K) : Option (List K) :=
  if h : A.cols = x.length then
    some (List.ofFn (A.entry.mulVec fun j => x[Fin.cast h j]))
  else none

end GMat

/-- A `SparseMatrixDevice` as far as `CudaMatrixOperator` is concerned: what it stores and whether
`cusparse_handle` and `descr` are not null. /repo/include/mfmg/cuda/sparse_matrix_device.cuh:92-103. -/
structure DevMatrix (K : Type) where
  mat : GMat K
  handle : Bool
  descr : Bool

/-- The members of `CudaMatrixOperator`, /repo/include/mfmg/cuda/cuda_matrix_operator.cuh:56-57; both
are `mutable`. -/
structure CudaOp (K : Type) where
  matrix : DevMatrix K
  transposed : Option (DevMatrix K)

/-- A call; `i` and `j` are positions of operators.  `apply` gets the source vector and the previous
content of the destination vector.
The member functions /repo/include/mfmg/cuda/cuda_matrix_operator.cuh:34-43. -/
inductive OpCall (K : Type) where
  | apply (i : ℕ) (tr : Bool) (x y : List K)
  | transpose (i : ℕ)
  | multiply (i j : ℕ)
  | multiplyTranspose (i j : ℕ)

/-- What the caller sees: the destination vector, or a new operator (appended to the list).
The return values of /repo/include/mfmg/cuda/cuda_matrix_operator.cuh:34-43. -/
inductive OpResult (K : Type) where
  | vector (y : List K)
  | created
  deriving DecidableEq

section

variable {K : Type} [NonUnitalNonAssocSemiring K]

/-- `SparseMatrixDevice::vmult`, /repo/include/mfmg/cuda/sparse_matrix_device.templates.cuh:351-371,
through `MatrixOperator::apply`, /repo/source/cuda/cuda_matrix_operator.cu:39-70 (both vector types
give the same values).  With a null handle or descriptor cuSPARSE returns an error and writes nothing:
`ASSERT_CUSPARSE` (/repo/include/mfmg/common/exceptions.hpp:212-226) aborts in debug builds and ignores
it in release builds.  Vectors of a wrong size are undefined. -/
def devVmult (debug : Bool) (a : DevMatrix K) (x y : List K) : Outcome (List K) :=
  if a.handle && a.descr then
    match a.mat.mulVec x with
    | some z => if y.length = a.mat.rows then .ok z else .ub "size of the destination"
    | none => .ub "size of the source"
  else if debug then .aborted else .ok y

/-- The new transposed matrix of /repo/source/cuda/cuda_matrix_operator.cu:102-122: same handle, new
descriptor. -/
def newTransposed (a : DevMatrix K) : DevMatrix K :=
  { mat := a.mat.transpose, handle := a.handle, descr := true }

/-- `transpose`, /repo/source/cuda/cuda_matrix_operator.cu:93-130: the new state of the operator and the
operator returned. -/
def cudaTranspose (o : CudaOp K) : CudaOp K × CudaOp K :=
  match o.transposed with
  | none =>
    let t := newTransposed o.matrix
    ({ o with transposed := some t }, { matrix := t, transposed := none })
  | some t =>
    -- `_matrix.swap(_transposed_matrix)`, then the operator of `_transposed_matrix`
    ({ matrix := t, transposed := some o.matrix }, { matrix := o.matrix, transposed := none })

/-- `apply`, /repo/source/cuda/cuda_matrix_operator.cu:80-91: the new state and the destination. -/
def cudaApply (debug : Bool) (o : CudaOp K) (tr : Bool) (x y : List K) :
    Outcome (CudaOp K × List K) := do
  let o' := if tr && o.transposed.isNone then (cudaTranspose o).1 else o
  if tr then do
    let t ← Outcome.deref o'.transposed "_transposed_matrix"
    let z ← devVmult debug t x y
    pure (o', z)
  else do
    let z ← devVmult debug o'.matrix x y
    pure (o', z)

/-- `mmult` into a copy of `a`, /repo/source/cuda/cuda_matrix_operator.cu:143-146 with
/repo/include/mfmg/cuda/sparse_matrix_device.templates.cuh:373-434.  The copy has the handle of `a` and
a new descriptor, and keeps both.  On one process the product is computed by cuSPARSE with the handle
of `a` and the descriptors of both factors; an error is fatal in debug builds, in release builds the
arrays of the result stay uninitialised.  The other branch goes through Trilinos. -/
def devMmult (procs : ℕ) (debug : Bool) (a b : DevMatrix K) : Outcome (DevMatrix K) :=
  match a.mat.mul b.mat with
  | none => if debug then .aborted else .ub "dimensions of the factors"
  | some c =>
    if procs = 1 ∧ ¬ (a.handle && a.descr && b.descr) then
      if debug then .aborted else .ub "uninitialised product"
    else .ok { mat := c, handle := a.handle, descr := true }

/-- `multiply`, /repo/source/cuda/cuda_matrix_operator.cu:132-149. -/
def cudaMultiply (procs : ℕ) (debug : Bool) (a b : CudaOp K) : Outcome (CudaOp K) := do
  let c ← devMmult procs debug a.matrix b.matrix
  pure { matrix := c, transposed := none }

/-- `multiply_transpose`, /repo/source/cuda/cuda_matrix_operator.cu:151-225.  On one process the
transpose of `b` gets the handle of `a` (line 182) and a descriptor; on several processes the product
comes from `convert_matrix` (line 221), which sets neither. -/
def cudaMultiplyTranspose (procs : ℕ) (debug : Bool) (a b : CudaOp K) : Outcome (CudaOp K) :=
  if procs = 1 then do
    let c ← devMmult procs debug a.matrix
      { mat := b.matrix.mat.transpose, handle := a.matrix.handle, descr := true }
    pure { matrix := c, transposed := none }
  else
    match a.matrix.mat.mul b.matrix.mat.transpose with
    | none => if debug then .aborted else .ub "dimensions of the factors"
    | some c => .ok { matrix := { mat := c, handle := false, descr := false }, transposed := none }

/-- One call on a list of operators; a position without operator is not a C++ program.
The calls are those of /repo/include/mfmg/cuda/cuda_matrix_operator.cuh:34-43. -/
def opStep (procs : ℕ) (debug : Bool) (ops : List (CudaOp K)) :
    OpCall K → Outcome (List (CudaOp K) × OpResult K)
  | .apply i tr x y => do
    let o ← Outcome.get ops i "no such operator"
    let r ← cudaApply debug o tr x y
    pure (ops.set i r.1, .vector r.2)
  | .transpose i => do
    let o ← Outcome.get ops i "no such operator"
    pure (ops.set i (cudaTranspose o).1 ++ [(cudaTranspose o).2], .created)
  | .multiply i j => do
    let a ← Outcome.get ops i "no such operator"
    let b ← Outcome.get ops j "no such operator"
    let c ← cudaMultiply procs debug a b
    pure (ops ++ [c], .created)
  | .multiplyTranspose i j => do
    let a ← Outcome.get ops i "no such operator"
    let b ← Outcome.get ops j "no such operator"
    let c ← cudaMultiplyTranspose procs debug a b
    pure (ops ++ [c], .created)

/-- A history: the final operators and the results of the calls.
Not in the code: any sequence of calls of /repo/include/mfmg/cuda/cuda_matrix_operator.cuh:34-43. -/
def opRun (procs : ℕ) (debug : Bool) : List (CudaOp K) → List (OpCall K) →
    Outcome (List (CudaOp K) × List (OpResult K))
  | ops, [] => .ok (ops, [])
  | ops, c :: cs => do
    let s ← opStep procs debug ops c
    let r ← opRun procs debug s.1 cs
    pure (r.1, s.2 :: r.2)

end

end Mfmg
