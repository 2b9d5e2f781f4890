import Verif.Model.Hierarchy
import Mathlib.Data.Real.Basic
import Mathlib.Algebra.Order.Archimedean.Real.Basic
import Mathlib.Data.Int.Log
import Mathlib.Algebra.Order.Round

/-!
# Model of the cycle in floating-point arithmetic

The other modules treat `double` as a field.  Here the vector operations of
/repo/include/mfmg/common/hierarchy.hpp:246-309 and the matrix-vector products below them are made of
rounded operations.  Values are real numbers; overflow, underflow and NaN are not modelled.
-/

set_option autoImplicit false

namespace Mfmg

/-- The operations of `double`: `sub a b` is `a + (-1.) * b` (`Vector::add(-1., b)`), `muladd s a x` is
`s += a * x`, whether or not the compiler fuses it.
Used in /repo/include/mfmg/common/hierarchy.hpp:246-309. -/
structure Arith where
  add : ℝ → ℝ → ℝ
  sub : ℝ → ℝ → ℝ
  mul : ℝ → ℝ → ℝ
  div : ℝ → ℝ → ℝ
  muladd : ℝ → ℝ → ℝ → ℝ

/-- Without rounding.
Not in the code: the reference for /repo/include/mfmg/common/hierarchy.hpp:246-309. -/
noncomputable def exactArith : Arith where
  add a b := a + b
  sub a b := a - b
  mul a b := a * b
  div a b := a / b
  muladd s a x := s + a * x

/-- Rounding to the nearest number with `p` binary digits after the leading one (`p = 52` for `double`),
for an unbounded range of exponents; ties are rounded up (IEEE 754 rounds them to even, which makes no
difference to the relative error).
The arithmetic in which /repo/include/mfmg/common/hierarchy.hpp:246-309 is executed. -/
noncomputable def roundTo (p : ℕ) (x : ℝ) : ℝ :=
  round (x * 2 ^ ((p : ℤ) - Int.log 2 |x|)) / 2 ^ ((p : ℤ) - Int.log 2 |x|)

/-- Every operation rounded to the nearest; `fused` tells whether `s += a * x` is one operation.
The arithmetic in which /repo/include/mfmg/common/hierarchy.hpp:246-309 is executed. -/
noncomputable def nearest (p : ℕ) (fused : Bool) : Arith where
  add a b := roundTo p (a + b)
  sub a b := roundTo p (a - b)
  mul a b := roundTo p (a * b)
  div a b := roundTo p (a / b)
  muladd s a x := if fused then roundTo p (s + a * x) else roundTo p (s + roundTo p (a * x))

namespace Hierarchy

variable {V : ℕ → Type} [∀ l, AddCommGroup (V l)]

/-- `Hierarchy::apply`, /repo/include/mfmg/common/hierarchy.hpp:246-309, where `sub l x y` is the
result of `x.add(-1., y)` on level `l` (lines 286 and 302) in the arithmetic used. -/
def applyWith (sub : ∀ l, V l → V l → V l) (H : Hierarchy V) (fresh : ∀ l, V l) (l : ℕ) (b x : V l) :
    Run (V l) :=
  if _hl : l < H.numLevels then do
    let x := if l > 0 ∨ H.isPreconditioner then 0 else x
    if l = H.numLevels - 1 then do
      let _ ← timerEnter H.timer "Apply: coarsest level"
      let coarseSolver ← Run.lift (Outcome.deref (H.level l).solver "null coarse solver")
      let _ ← (Run.emit (.coarse l) : Run PUnit)
      let x := coarseSolver b x
      let _ ← timerLeave H.timer
      pure x
    else do
      let _ ← timerEnter H.timer "Apply: fine levels"
      let r ← Run.lift (Outcome.deref (H.level (l + 1)).restrictor "null restrictor")
      let s ← Run.lift (Outcome.deref (H.level l).smoother "null smoother")
      let x ← smoothLoop l s b H.nSmoothingSteps x
      let a ← Run.lift (Outcome.deref (H.level l).operator "null operator")
      let res := sub l (a.fwd x) b
      let bCoarse := r.fwd res
      let xCoarse ← applyWith sub H fresh (l + 1) bCoarse (fresh (l + 1))
      let xCorrection : V l := r.trans xCoarse
      let x := sub l x xCorrection
      let x ← smoothLoop l s b H.nSmoothingSteps x
      let _ ← timerLeave H.timer
      pure x
  else Run.lift (.ub "_levels index out of range")
termination_by H.numLevels - l

/-- `Hierarchy::vmult`, /repo/include/mfmg/common/hierarchy.hpp:238-244, in the arithmetic used. -/
def vmultWith (sub : ∀ l, V l → V l → V l) (H : Hierarchy V) (fresh : ∀ l, V l) (x b : V 0) :
    Run (V 0) := do
  let _ ← timerEnter H.timer "Apply"
  let x ← applyWith sub H fresh 0 b x
  let _ ← timerLeave H.timer
  pure x

end Hierarchy

namespace Arith

/-- The entries of one row of a sparse matrix, in the order in which they are stored.
Of the matrix applied in /repo/source/dealii/dealii_trilinos_matrix_operator.cc:28-35. -/
abbrev Row (n : ℕ) := List (Fin n × ℝ)

/-- `Epetra_CrsMatrix::Multiply` for one row, behind
/repo/source/dealii/dealii_trilinos_matrix_operator.cc:28-35: `sum = 0; sum += value * x[column]`. -/
def dotRow (ar : Arith) {n : ℕ} (row : Row n) (x : Fin n → ℝ) : ℝ :=
  row.foldl (fun s e => ar.muladd s e.2 (x e.1)) 0

/-- `SparseMatrix::vmult`. Called in /repo/source/dealii/dealii_trilinos_matrix_operator.cc:28-35. -/
def sparseVec (ar : Arith) {m n : ℕ} (rows : Fin m → Row n) (x : Fin n → ℝ) : Fin m → ℝ :=
  fun i => ar.dotRow (rows i) x

/-- `SparseMatrix::Tvmult`: `y = 0`, then for every entry of every row `y[column] += value * x[row]`.
All entries of the matrix are listed in the order of the rows.
Called in /repo/source/dealii/dealii_trilinos_matrix_operator.cc:28-35. -/
def sparseTVec (ar : Arith) {m n : ℕ} (entries : List (Fin m × Fin n × ℝ)) (x : Fin m → ℝ) :
    Fin n → ℝ :=
  entries.foldl (fun y e => Function.update y e.2.1 (ar.muladd (y e.2.1) e.2.2 (x e.1))) 0

/-- The entries of a matrix in the order of its rows.
Of the matrix applied in /repo/source/dealii/dealii_trilinos_matrix_operator.cc:28-35. -/
def entries {m n : ℕ} (rows : Fin m → Row n) : List (Fin m × Fin n × ℝ) :=
  (List.finRange m).flatMap fun i => (rows i).map fun e => (i, e.1, e.2)

/-- `x.add(-1., y)`.
/repo/include/mfmg/common/hierarchy.hpp:286 and 302, /repo/source/dealii/dealii_smoother.cc:75 and 80. -/
def vsub (ar : Arith) {n : ℕ} (x y : Fin n → ℝ) : Fin n → ℝ := fun i => ar.sub (x i) (y i)

/-- `DealIISmoother::apply`, /repo/source/dealii/dealii_smoother.cc:69-81, with the operator and the
preconditioner `prec` as computed. -/
def smooth (ar : Arith) {n : ℕ} (mat prec : (Fin n → ℝ) → Fin n → ℝ) (b x : Fin n → ℝ) :
    Fin n → ℝ :=
  ar.vsub x (prec (ar.vsub (mat x) b))

/-- One Jacobi sweep from zero: multiplication with the stored inverse diagonal.
Ifpack, behind /repo/source/dealii/dealii_smoother.cc:79. -/
def jacobiPrec (ar : Arith) {n : ℕ} (invDiag r : Fin n → ℝ) : Fin n → ℝ :=
  fun i => ar.mul (invDiag i) (r i)

/-- Assembly of one diagonal element: the contributions of the cells are added one after the other.
Done by the user in /repo/include/mfmg/dealii/dealii_mesh_evaluator.hpp:52-65. -/
def sumUp (ar : Arith) (vs : List ℝ) : ℝ := vs.foldl ar.add 0

/-- The weight of a dof in an agglomerate,
/repo/include/mfmg/common/amge.templates.hpp:316: the diagonal element of the agglomerate over that of
the global matrix. -/
def weight (ar : Arith) (aggCells allCells : List ℝ) : ℝ :=
  ar.div (ar.sumUp aggCells) (ar.sumUp allCells)

/-- The hierarchy of a matrix problem with rounded operations: on every level a sparse matrix with
rows `A l`, Jacobi smoothing with the inverse diagonal `inv l`, a restriction matrix with rows `R l`
whose transposed product is the prolongation, and on the last level the solver `solve`.  The stored
numbers (also the coarse matrices) are given. Made by /repo/include/mfmg/common/hierarchy.hpp:159-236. -/
def hierarchy (ar : Arith) {dims : ℕ → ℕ} (A : ∀ l, Fin (dims l) → Row (dims l))
    (R : ∀ l, Fin (dims (l + 1)) → Row (dims l)) (inv : ∀ l, Fin (dims l) → ℝ)
    (solve : ∀ l, (Fin (dims l) → ℝ) → Fin (dims l) → ℝ) (L n : ℕ) (pre : Bool) :
    Hierarchy (fun l => Fin (dims l) → ℝ) where
  numLevels := L
  isPreconditioner := pre
  nSmoothingSteps := n
  timer := false
  level := fun l =>
    { operator := some ⟨ar.sparseVec (A l), ar.sparseTVec (entries (A l))⟩
      restrictor := match l with
        | 0 => none
        | l + 1 => some ⟨ar.sparseVec (R l), ar.sparseTVec (entries (R l))⟩
      smoother := if l + 1 < L then some (ar.smooth (ar.sparseVec (A l)) (ar.jacobiPrec (inv l))) else none
      solver := if l + 1 = L then some (fun b _ => solve l b) else none }

end Arith

end Mfmg
