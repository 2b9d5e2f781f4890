import Verif.Model.Restriction
import Verif.Model.DeviceCsr
import Verif.Model.DeviceEigen
import Verif.Model.Hierarchy

/-!
# Model of the numbers of rows and entries in integers of fixed width

The counting of the rows of the restriction matrix
(/repo/include/mfmg/common/amge.templates.hpp:596-645), the offsets of the check of the restriction matrix
(/repo/include/mfmg/common/utils.hpp:98-104) and the conversions to the device CSR format
(/repo/source/cuda/utils.cu:39-204) with the C++ integer types: `unsigned int` and `int` have 32 bits,
`dealii::types::global_dof_index` has `w` bits (32, or 64 if deal.II is configured so).  Unsigned arithmetic and
conversions to `unsigned int` are modular, so are conversions to `int` (on all compilers, and by the standard since
C++20); overflow of `int` is undefined.
-/

set_option autoImplicit false

namespace Mfmg

/-- `unsigned int const n_local_rows(eigenvectors.size())`,
/repo/include/mfmg/common/amge.templates.hpp:607; `size` is the number of local eigenvectors. -/
def announcedRows (size : ℕ) : ℕ := size % 2 ^ 32

/-- `std::accumulate(first, last, static_cast<global_dof_index>(0))`,
/repo/include/mfmg/common/amge.templates.hpp:613-618: each addition in `w` bits. -/
def sumW (w : ℕ) (counts : List ℕ) : ℕ := counts.foldl (fun acc c => (acc + c) % 2 ^ w) 0

/-- `n_total_rows`, /repo/include/mfmg/common/amge.templates.hpp:613-615; `sizes` are the numbers of eigenvectors
of the processes. -/
def totalRowsW (w : ℕ) (sizes : List ℕ) : ℕ := sumW w (sizes.map announcedRows)

/-- `n_rows_before` on the process `rank`, /repo/include/mfmg/common/amge.templates.hpp:616-618. -/
def rowsBeforeW (w : ℕ) (sizes : List ℕ) (rank : ℕ) : ℕ := sumW w ((sizes.map announcedRows).take rank)

/-- The two ends of the range of rows of the process `rank`,
`row_indexset.add_range(n_rows_before, n_rows_before + n_local_rows)`,
/repo/include/mfmg/common/amge.templates.hpp:619-620. -/
def rowRangeW (w : ℕ) (sizes : List ℕ) (rank : ℕ) : ℕ × ℕ :=
  (rowsBeforeW w sizes rank, (rowsBeforeW w sizes rank + announcedRows (sizes.getD rank 0)) % 2 ^ w)

/-- `n_rows_before + row`, /repo/include/mfmg/common/amge.templates.hpp:635, for the local row `k`
(`row` is an `unsigned int`). -/
def rowNumberW (w : ℕ) (sizes : List ℕ) (rank k : ℕ) : ℕ :=
  (rowsBeforeW w sizes rank + k % 2 ^ 32) % 2 ^ w

/-- The inner loop over the eigenvectors of one agglomerate,
/repo/include/mfmg/common/amge.templates.hpp:633-638; `first` is `n_rows_before`, `row` the `unsigned int`. -/
def patternRowsW (w first : ℕ) (dofs : List ℕ) : ℕ → ℕ → List (ℕ × ℕ)
  | 0, _ => []
  | n + 1, row =>
    dofs.map (fun c => ((first + row) % 2 ^ w, c)) ++ patternRowsW w first dofs n ((row + 1) % 2 ^ 32)

/-- The loops of `compute_restriction_sparsity_pattern`,
/repo/include/mfmg/common/amge.templates.hpp:626-639, from agglomerate `i` on. -/
def patternW (w first : ℕ) (dofMaps : List (List ℕ)) : List ℕ → ℕ → ℕ → Outcome (List (ℕ × ℕ))
  | [], _, _ => .ok []
  | n :: ns, i, row => do
    let here ← match n with
      | 0 => .ok []
      | n + 1 => do
        let dofs ← Outcome.get dofMaps i "dof_indices_maps[i]"
        pure (patternRowsW w first dofs (n + 1) row)
    let rest ← patternW w first dofMaps ns (i + 1) ((row + n) % 2 ^ 32)
    pure (here ++ rest)

/-- `unsigned int offset = std::accumulate(begin, begin + i, 0)`, /repo/include/mfmg/common/utils.hpp:101-102:
the accumulator is an `int`; in each addition it is converted to `unsigned int` and the sum back to `int`. -/
def intOffset (counts : List ℕ) (i : ℕ) : ℕ :=
  toUnsigned ((counts.take i).foldl (fun acc c => asInt32 (toUnsigned acc + c)) 0)

/-- The three device arrays of a `SparseMatrixDevice` with the values of their `int`s,
/repo/include/mfmg/cuda/sparse_matrix_device.cuh:92-94. -/
structure Csr32 (K : Type) where
  val : List K
  col : List ℤ
  rowPtr : List ℤ
  deriving Repr, DecidableEq

section

variable {K : Type}

/-- One iteration of the loop of `convert_matrix(dealii::TrilinosWrappers::SparseMatrix)`,
/repo/source/cuda/utils.cu:99-114.  `row_ptr[row] + n_entries` is a sum of `int`s; `push_back` converts the
column to `int`. -/
def trilinosRow32 (gid : ℕ → ℕ) (s : Csr32 K) (r : List (ℕ × K)) : Outcome (Csr32 K) :=
  if 2 ^ 31 ≤ s.rowPtr.getLastD 0 + r.length then .ub "overflow of row_ptr[row] + n_entries"
  else .ok { val := s.val ++ r.map Prod.snd
             col := s.col ++ r.map (fun e => asInt32 (gid e.1))
             rowPtr := s.rowPtr ++ [s.rowPtr.getLastD 0 + r.length] }

/-- Copy the three host vectors to the device. /repo/source/cuda/utils.cu:84-88 and 116-120. -/
def uploadCsr32 (debug : Bool) (c : Csr32 K) : Outcome (Csr32 K) := do
  let val ← copyToGpu debug c.val
  let col ← copyToGpu debug c.col
  let rowPtr ← copyToGpu debug c.rowPtr
  pure { val := val, col := col, rowPtr := rowPtr }

/-- `convert_matrix(dealii::TrilinosWrappers::SparseMatrix)`, /repo/source/cuda/utils.cu:91-121. -/
def convertTrilinos32 (debug : Bool) (gid : ℕ → ℕ) (rows : List (List (ℕ × K))) : Outcome (Csr32 K) := do
  let c ← rows.foldlM (trilinosRow32 gid) { val := [], col := [], rowPtr := [0] }
  uploadCsr32 debug c

/-- One iteration of the loop of `convert_matrix(dealii::SparseMatrix)`, /repo/source/cuda/utils.cu:52-62, for
matrices that are not square (lines 66-81 are skipped for them).  `row_ptr[row] + counter` is computed in
`unsigned int` and converted to `int`. -/
def dealiiRow32 (s : Csr32 K) (r : List (ℕ × K)) : Csr32 K where
  val := s.val ++ r.map Prod.snd
  col := s.col ++ r.map (fun e => asInt32 e.1)
  rowPtr := s.rowPtr ++ [asInt32 (toUnsigned (s.rowPtr.getLastD 0) + r.length)]

/-- `convert_matrix(dealii::SparseMatrix)`, /repo/source/cuda/utils.cu:39-89, for matrices that are not square. -/
def convertRectangular32 (debug : Bool) (rows : List (List (ℕ × K))) : Outcome (Csr32 K) :=
  uploadCsr32 debug (rows.foldl dealiiRow32 { val := [], col := [], rowPtr := [0] })

/-- The loop of `convert_to_trilinos_matrix`, /repo/source/cuda/utils.cu:191-200.  The columns are read as
`unsigned int` (`reinterpret_cast`); a negative row pointer gives an address before the arrays. -/
def setCalls32 (c : Csr32 K) : (pos : ℕ) → List ℕ → Outcome (List (ℕ × List (ℕ × K)))
  | _, [] => pure []
  | pos, row :: rows => do
    let b ← Outcome.get c.rowPtr pos "row_ptr[pos]"
    let e ← Outcome.get c.rowPtr (pos + 1) "row_ptr[pos + 1]"
    if b < 0 ∨ e < b ∨ c.col.length < e ∨ c.val.length < e then .ub "column_index or values"
    else do
      let rest ← setCalls32 c (pos + 1) rows
      pure ((row, ((((c.col.map toUnsigned).zip c.val).drop b.toNat).take (e - b).toNat)) :: rest)

end

end Mfmg
