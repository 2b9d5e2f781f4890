import Verif.Model.Basic
import Mathlib.Data.Nat.Notation

/-!
# Model of the conversions between host matrices and the device CSR format

/repo/source/cuda/utils.cu:20-204.  Scalars are an arbitrary type `K`; column indices and row
pointers are natural numbers (for `int` overflow see Model/LargeSizes.lean).  Device memory is modelled by the
list of its contents: a successful `cudaMemcpy` copies it exactly.
-/

set_option autoImplicit false

namespace Mfmg

/-- The three device arrays of a `SparseMatrixDevice`,
/repo/include/mfmg/cuda/sparse_matrix_device.cuh:92-94. -/
structure Csr (K : Type) where
  val : List K
  col : List ℕ
  rowPtr : List ℕ
  deriving Repr, DecidableEq

section

variable {K : Type}

/-- `internal::copy_to_gpu`, /repo/source/cuda/utils.cu:22-36.  In debug builds an empty vector
fails the `ASSERT`; in release builds `&val[0]` on an empty `std::vector` is undefined. -/
def copyToGpu {α : Type} (debug : Bool) (v : List α) : Outcome (List α) := do
  Outcome.assert debug (decide (0 < v.length))
  if v.length = 0 then .ub "val[0] of an empty vector" else pure v

/-- Reading `column_index[i]`, /repo/source/cuda/utils.cu:73, with the C++ meaning: past the end of
the `std::vector` is undefined. -/
def strictRead (l : List ℕ) (i : ℕ) : Outcome ℕ := Outcome.get l i "column_index[offset + pos]"

/-- The `while` loop /repo/source/cuda/utils.cu:73-78.  `rem` is `counter - pos`, so `pos < counter`
is `rem ≠ 0`; the condition reads `column_index[offset + pos]` first.  `read` is the read access to
`column_index`: `strictRead` for the C++ semantics, see `C44_square_partial` for the other use.  Returns the final
`pos`, `val` and `column_index`. -/
def moveDiag (read : List ℕ → ℕ → Outcome ℕ) (row offset : ℕ) :
    (rem pos : ℕ) → List K → List ℕ → Outcome (ℕ × List K × List ℕ)
  | 0, pos, val, col => do
    let _ ← read col (offset + pos)
    pure (pos, val, col)
  | rem + 1, pos, val, col => do
    let c ← read col (offset + pos)
    if c < row then do
      let v ← Outcome.get val (offset + pos) "val[offset + pos]"
      moveDiag read row offset rem (pos + 1)
        (val.set (offset + pos - 1) v) (col.set (offset + pos - 1) c)
    else pure (pos, val, col)

/-- One iteration of the loop over the rows, /repo/source/cuda/utils.cu:52-82.  `entries` are the
stored entries of the row in the order of the deal.II iterators, `row` its index.
`diag_element(row)` is the value stored first (deal.II stores the diagonal first in the rows of
square matrices). -/
def convertRow (read : List ℕ → ℕ → Outcome ℕ) (square : Bool) (row : ℕ) (entries : List (ℕ × K))
    (s : Csr K) : Outcome (Csr K) := do
  let val := s.val ++ entries.map Prod.snd
  let col := s.col ++ entries.map Prod.fst
  let offset := s.rowPtr.getLastD 0
  let rowPtr := s.rowPtr ++ [offset + entries.length]
  if square then do
    let diagIndex ← Outcome.get col offset "column_index[offset]"
    let diagElem ← Outcome.get val offset "diag_element"
    let r ← moveDiag read row offset (entries.length - 1) 1 val col
    pure { val := r.2.1.set (offset + r.1 - 1) diagElem
           col := r.2.2.set (offset + r.1 - 1) diagIndex
           rowPtr := rowPtr }
  else pure { val := val, col := col, rowPtr := rowPtr }

/-- The loop over the rows from row `row` on, /repo/source/cuda/utils.cu:52-82. -/
def convertRows (read : List ℕ → ℕ → Outcome ℕ) (square : Bool) :
    (row : ℕ) → List (List (ℕ × K)) → Csr K → Outcome (Csr K)
  | _, [], s => pure s
  | row, r :: rs, s => do
    let s' ← convertRow read square row r s
    convertRows read square (row + 1) rs s'

/-- Copy the three host vectors to the device. /repo/source/cuda/utils.cu:84-88 and 116-120. -/
def uploadCsr (debug : Bool) (c : Csr K) : Outcome (Csr K) := do
  let val ← copyToGpu debug c.val
  let col ← copyToGpu debug c.col
  let rowPtr ← copyToGpu debug c.rowPtr
  pure { val := val, col := col, rowPtr := rowPtr }

/-- `convert_matrix(dealii::SparseMatrix)`, /repo/source/cuda/utils.cu:39-89, for a matrix with the
given rows and `nCols` columns.  The order in which the arguments of the constructor are evaluated
(lines 84-88) is fixed here; the outcome does not depend on it. -/
def convertDealii (read : List ℕ → ℕ → Outcome ℕ) (debug : Bool) (nCols : ℕ)
    (rows : List (List (ℕ × K))) : Outcome (Csr K) := do
  let c ← convertRows read (rows.length == nCols) 0 rows { val := [], col := [], rowPtr := [0] }
  uploadCsr debug c

/-- `convert_matrix(dealii::TrilinosWrappers::SparseMatrix)`, /repo/source/cuda/utils.cu:91-121.
`rows` are the locally owned rows with local column indices (`ExtractMyRowView`), `gid` is
`global_column_index`. -/
def convertTrilinos (debug : Bool) (gid : ℕ → ℕ) (rows : List (List (ℕ × K))) :
    Outcome (Csr K) :=
  uploadCsr debug (rows.foldl (fun s r =>
    { val := s.val ++ r.map Prod.snd
      col := s.col ++ r.map (fun e => gid e.1)
      rowPtr := s.rowPtr ++ [s.rowPtr.getLastD 0 + r.length] })
    { val := [], col := [], rowPtr := [0] })

/-- `convert_matrix(Epetra_CrsMatrix)`, /repo/source/cuda/utils.cu:123-168.  `data` are the arrays
of `ExtractCrsDataPointers`, with local column indices.  Only the column indices go through
`copy_to_gpu`. -/
def convertEpetra (debug : Bool) (gid : ℕ → ℕ) (data : Csr K) : Outcome (Csr K) := do
  let col ← copyToGpu debug (data.col.map gid)
  pure { val := data.val, col := col, rowPtr := data.rowPtr }

/-- The loop of `convert_to_trilinos_matrix`, /repo/source/cuda/utils.cu:191-200: the calls
`sparse_matrix.set(row, n_cols, columns, values)` in order, as pairs of the global row and the
entries passed.  `n_cols` is computed in unsigned arithmetic; row pointers are assumed
non-decreasing, so that truncated subtraction agrees.  A read past the end of one of the arrays is
undefined. -/
def setCalls (c : Csr K) : (pos : ℕ) → List ℕ → Outcome (List (ℕ × List (ℕ × K)))
  | _, [] => pure []
  | pos, row :: rows => do
    let b ← Outcome.get c.rowPtr pos "row_ptr[pos]"
    let e ← Outcome.get c.rowPtr (pos + 1) "row_ptr[pos + 1]"
    if c.col.length < e ∨ c.val.length < e then .ub "column_index or values"
    else do
      let rest ← setCalls c (pos + 1) rows
      pure ((row, (((c.col.zip c.val).drop b).take (e - b))) :: rest)

/-- `convert_to_trilinos_matrix`, /repo/source/cuda/utils.cu:170-204; `owned` are the locally owned
rows in increasing order. -/
def convertToTrilinos (c : Csr K) (owned : List ℕ) : Outcome (List (ℕ × List (ℕ × K))) :=
  setCalls c 0 owned

end

end Mfmg
