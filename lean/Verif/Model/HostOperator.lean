import Verif.Model.DeviceOperator
import Verif.Model.MatMult

/-!
# Model of the host operators

`DealIITrilinosMatrixOperator`, /repo/source/dealii/dealii_trilinos_matrix_operator.cc:20-126, and
`DealIIMatrixFreeOperator`, /repo/source/dealii/dealii_matrix_free_operator.cc:20-150.  Matrices are
global; how they are distributed is not modelled here.  A vector is the list of its components.
-/

set_option autoImplicit false

namespace Mfmg

/-- An object behind `std::shared_ptr<Operator<VectorType>>`: a `DealIITrilinosMatrixOperator` with its
matrix and whether `FillComplete` has been called for it, or a `DealIIMatrixFreeOperator` with the
size `n` of its range vector and the evaluator's `matrix_free_evaluate_global`.
The classes of /repo/source/dealii/dealii_trilinos_matrix_operator.cc:20-126 and
/repo/source/dealii/dealii_matrix_free_operator.cc:20-150. -/
inductive HostOp (K : Type) where
  | assembled (A : GMat K) (filled : Bool)
  | matrixFree (n : ℕ) (evaluate : List K → List K)

/-- `ASSERT_THROW_NOT_IMPLEMENTED`, /repo/include/mfmg/common/exceptions.hpp:65-84. -/
def hostNotImplemented {α : Type} : Outcome α := .throws "not implemented"

section

variable {K : Type} [Field K]

/-- `apply(x, y, mode)`; `ny` is the size of `y`, which is overwritten.
/repo/source/dealii/dealii_trilinos_matrix_operator.cc:28-35 and
/repo/source/dealii/dealii_matrix_free_operator.cc:64-74.  Vectors of a wrong size and matrices that
are not filled violate the preconditions of deal.II (checked only in its debug builds). -/
def hostApply (o : HostOp K) (tr : Bool) (x : List K) (ny : ℕ) : Outcome (List K) :=
  match o with
  | .assembled A filled =>
    if filled then
      match (if tr then A.transpose else A).mulVec x with
      | some z => if ny = z.length then .ok z else .ub "size of the destination"
      | none => .ub "size of the source"
    else .ub "matrix is not filled"
  | .matrixFree n evaluate =>
    if tr then hostNotImplemented
    else if x.length = n ∧ ny = n then .ok (evaluate x) else .ub "size of the source"

/-- `transpose()`, /repo/source/dealii/dealii_trilinos_matrix_operator.cc:37-53 and
/repo/source/dealii/dealii_matrix_free_operator.cc:76-83. -/
def hostTranspose : HostOp K → Outcome (HostOp K)
  | .assembled A filled =>
    if filled then .ok (.assembled A.transpose true) else .ub "matrix is not filled"
  | .matrixFree _ _ => hostNotImplemented

/-- `multiply(b)`, /repo/source/dealii/dealii_trilinos_matrix_operator.cc:55-72 and
/repo/source/dealii/dealii_matrix_free_operator.cc:85-93.  The `dynamic_pointer_cast` of another kind of
operator gives a null pointer, which is dereferenced.  `mm` is what deal.II's `mmult` does when the
dimensions do not agree or an argument is not filled. -/
def hostMultiply (mm : GMat K → GMat K → Outcome (HostOp K)) : HostOp K → HostOp K →
    Outcome (HostOp K)
  | .matrixFree _ _, _ => hostNotImplemented
  | .assembled _ _, .matrixFree _ _ => .ub "downcast_b->get_matrix()"
  | .assembled A fa, .assembled B fb =>
    match A.mul B with
    | some C => if fa && fb then .ok (.assembled C true) else mm A B
    | none => mm A B

/-- The rows of a matrix as a `DistMatrix` owned by one process, all entries stored.
The matrices of /repo/source/dealii/dealii_trilinos_matrix_operator.cc:55-96. -/
def GMat.dist (B : GMat K) : DistMatrix K where
  rows := B.rows
  rowOwner := fun _ => 0
  entries := fun j =>
    if h : j < B.rows then (List.finRange B.cols).map (fun k => (k.val, B.entry ⟨j, h⟩ k)) else []

/-- The first `n` components as a list.
Not in the code: the vectors of /repo/include/mfmg/dealii/dealii_utils.hpp:32-82 as functions of the
index. -/
def toVec (n : ℕ) (v : ℕ → K) : List K := (List.range n).map v

/-- The components of a list, zero beyond its end.
Not in the code: the vectors of /repo/include/mfmg/dealii/dealii_utils.hpp:32-82 as lists. -/
def ofVec (l : List K) (i : ℕ) : K := l.getD i 0

variable [LinearOrder K]

/-- `multiply_transpose(b)`, /repo/source/dealii/dealii_trilinos_matrix_operator.cc:74-96 and
/repo/source/dealii/dealii_matrix_free_operator.cc:95-113.  For assembled operators
`EpetraExt::MatrixMatrix::Multiply` returns an error if the dimensions do not agree or an argument is
not filled; then the debug build aborts, and the release build returns the new matrix without entries,
not filled.  For a matrix-free operator the product is computed by `transposeMultiply`
(`Model/MatMult.lean`); here on one process. -/
def hostMultiplyTranspose (debug : Bool) (eps : K) : HostOp K → HostOp K → Outcome (HostOp K)
  | _, .matrixFree _ _ => .ub "downcast_b->get_matrix()"
  | .assembled A fa, .assembled B fb =>
    match A.mul B.transpose with
    | some C =>
      if fa && fb then .ok (.assembled C true)
      else if debug then .aborted else .ok (.assembled ⟨A.rows, B.rows, fun _ _ => 0⟩ false)
    | none => if debug then .aborted else .ok (.assembled ⟨A.rows, B.rows, fun _ _ => 0⟩ false)
  | .matrixFree n evaluate, .assembled B fb =>
    if fb && n = B.cols then
      .ok (.assembled ⟨n, B.rows, fun i j =>
        insertedValue (transposeMultiply 1 eps B.dist n (fun _ => 0)
          (fun v => ofVec (evaluate (toVec n v))) 0) i j⟩ true)
    else .ub "size of the source"

/-- A way of making operators from operators.
Not in the code: what can be built by /repo/source/dealii/dealii_trilinos_matrix_operator.cc:37-96 and
/repo/source/dealii/dealii_matrix_free_operator.cc:76-113. -/
inductive OpExpr (K : Type) where
  | leaf (o : HostOp K)
  | transpose (e : OpExpr K)
  | multiply (e f : OpExpr K)
  | multiplyTranspose (e f : OpExpr K)

/-- Carrying it out.
By the calls /repo/source/dealii/dealii_trilinos_matrix_operator.cc:37-96 and
/repo/source/dealii/dealii_matrix_free_operator.cc:76-113. -/
def OpExpr.build (debug : Bool) (eps : K) (mm : GMat K → GMat K → Outcome (HostOp K)) :
    OpExpr K → Outcome (HostOp K)
  | .leaf o => .ok o
  | .transpose e => do
    let a ← e.build debug eps mm
    hostTranspose a
  | .multiply e f => do
    let a ← e.build debug eps mm
    let b ← f.build debug eps mm
    hostMultiply mm a b
  | .multiplyTranspose e f => do
    let a ← e.build debug eps mm
    let b ← f.build debug eps mm
    hostMultiplyTranspose debug eps a b

end

end Mfmg
