import Verif.Model.Hierarchy
import Verif.Model.Factory
import Mathlib.Algebra.Field.Basic
import Mathlib.Data.Matrix.Mul

/-!
# Model of the relaxation smoothers and of the hierarchy made from matrices

`DealIISmoother` (/repo/source/dealii/dealii_smoother.cc) uses the Trilinos preconditioners `SSOR`, `SOR` and
`Jacobi` with their default data (relaxation factor 1, one sweep, no overlap).  Vectors and matrices are
functions on `Fin n`; exact arithmetic.  A zero diagonal element, for which Trilinos divides by zero, is not
modelled (`a / 0 = 0` in Lean): every theorem concerns matrices with nonzero diagonals.
-/

set_option autoImplicit false

namespace Mfmg

variable {K : Type} [Field K] {n : ℕ}

/-- The preconditioner that is relaxation, /repo/source/dealii/dealii_smoother.cc:39-56. -/
inductive Relaxation where
  | symmetricGaussSeidel | gaussSeidel | jacobi
  deriving DecidableEq, Repr

/-- Incomplete factorisation is in `Model/Ilu`. /repo/source/dealii/dealii_smoother.cc:39-62. -/
def SmootherKind.relaxation : SmootherKind → Option Relaxation
  | .symmetricGaussSeidel => some .symmetricGaussSeidel
  | .gaussSeidel => some .gaussSeidel
  | .jacobi => some .jacobi
  | .ilu => none

/-- Relaxation of row `i`: the unknown `i` is changed so that the equation `i` holds.  Without overlap a
process knows only the columns `own` of its rows.
Ifpack, behind /repo/source/dealii/dealii_smoother.cc:79. -/
def relaxRow (A : Matrix (Fin n) (Fin n) K) (own : List (Fin n)) (b x : Fin n → K) (i : Fin n) :
    Fin n → K :=
  Function.update x i (x i + (b i - (own.map fun j => A i j * x j).sum) / A i i)

/-- The preconditioner on the process that owns the rows `own`, started from zero: a sweep forward and a
sweep backward (`PreconditionSSOR`), a sweep forward (`PreconditionSOR`) or division by the diagonal
(`PreconditionJacobi`); the `vmult` of /repo/source/dealii/dealii_smoother.cc:79. -/
def localVmult (kind : Relaxation) (A : Matrix (Fin n) (Fin n) K) (own : List (Fin n))
    (r : Fin n → K) : Fin n → K :=
  match kind with
  | .symmetricGaussSeidel => (own ++ own.reverse).foldl (relaxRow A own r) 0
  | .gaussSeidel => own.foldl (relaxRow A own r) 0
  | .jacobi => fun i => if i ∈ own then r i / A i i else 0

/-- The preconditioner on all processes: every process relaxes its own rows, without communication.
`procs` lists the rows of each process. The `vmult` of /repo/source/dealii/dealii_smoother.cc:79. -/
def relaxVmult (kind : Relaxation) (A : Matrix (Fin n) (Fin n) K) (procs : List (List (Fin n)))
    (r : Fin n → K) : Fin n → K :=
  fun i => (procs.map fun own => localVmult kind A own r i).sum

/-- The matrix of an operator.
Not in the code: the matrix that `get_matrix` returns, /repo/source/dealii/dealii_smoother.cc:35. -/
def entriesOf (a : Op (Fin n → K) (Fin n → K)) : Matrix (Fin n) (Fin n) K :=
  Matrix.of fun i j => a.fwd (Pi.single j 1) i

/-- A matrix as an operator, /repo/source/dealii/dealii_trilinos_matrix_operator.cc:28-35. -/
def matrixOp {m n : ℕ} (M : Matrix (Fin m) (Fin n) K) : Op (Fin n → K) (Fin m → K) where
  fwd := M.mulVec
  trans := M.transpose.mulVec

/-- `DealIISmoother::apply`, /repo/source/dealii/dealii_smoother.cc:69-81. -/
def dealiiSmootherApply (kind : Relaxation) (procs : List (List (Fin n))) (a : Op (Fin n → K) (Fin n → K))
    (b x : Fin n → K) : Fin n → K :=
  -- r = -(b - Ax)
  let r := a.fwd x
  let r := r - b
  -- x = x + B^{-1} (-r)
  let tmp := relaxVmult kind (entriesOf a) procs r
  x - tmp

/-- The helpers of `DealIIHierarchyHelpers` (/repo/source/dealii/dealii_hierarchy_helpers.cc) for a problem
with matrix `A`: the smoother is chosen by name; `R l` is the restriction matrix built for level `l`; the
products are exact; the coarse solver is the direct solver `solve`
(/repo/source/dealii/dealii_solver.cc:40-48). -/
def matrixHelpers (debug : Bool) (type : Option (List Char)) (dims : ℕ → ℕ)
    (procs : ∀ l, List (List (Fin (dims l)))) (A : Matrix (Fin (dims 0)) (Fin (dims 0)) K)
    (R : ∀ l, Matrix (Fin (dims (l + 1))) (Fin (dims l)) K)
    (solve : ∀ l, Matrix (Fin (dims l)) (Fin (dims l)) K → (Fin (dims l) → K) → Fin (dims l) → K) :
    Helpers (fun l => Fin (dims l) → K) where
  globalOperator := .ok (matrixOp A)
  buildSmoother := fun l a _ => do
    let kind ← dealiiSmoother debug true type
    match kind.relaxation with
    | some kind => .ok (dealiiSmootherApply kind (procs l) a)
    | none => .throws "not modelled"
  buildRestrictor := fun l _ => .ok (matrixOp (R l))
  fastMultiplyTranspose := fun _ => .throws "not modelled"
  multiplyTranspose := fun _ a r => .ok (a.mulTranspose r)
  multiply := fun _ r ap => .ok (r.mul ap)
  buildCoarseSolver := fun l a _ => .ok fun b _ => solve l (entriesOf a) b

end Mfmg
