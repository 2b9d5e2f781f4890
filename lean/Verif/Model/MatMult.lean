import Verif.Model.Basic
import Mathlib.Algebra.Field.Basic
import Mathlib.Algebra.Order.Group.Abs
import Mathlib.Algebra.Order.Ring.Defs
import Mathlib.Algebra.BigOperators.Group.List.Basic

/-!
# Model of the matrix-free product with a transpose

`matrix_transpose_matrix_multiply`, /repo/include/mfmg/dealii/dealii_utils.hpp:32-82, and
`extract_row`, /repo/source/dealii/dealii_utils.cc:20-60, on any number of processes.  Numbers are
exact.
-/

set_option autoImplicit false

namespace Mfmg

section

variable {K : Type} [Field K]

/-- A `TrilinosWrappers::SparseMatrix` spread over the processes: the number of rows, the process that
owns each row, and the stored entries (global column, value) of each row.
The matrices of /repo/include/mfmg/dealii/dealii_utils.hpp:32-82. -/
structure DistMatrix (K : Type) where
  rows : ℕ
  rowOwner : ℕ → ℕ
  entries : ℕ → List (ℕ × K)

/-- `ghosted_vector` of `extract_row` on one process before `compress`,
/repo/source/dealii/dealii_utils.cc:46-51: zero, then the entries of the row are assigned if the
process owns it (otherwise `num_entries` is 0). -/
def ghostedRow (B : DistMatrix K) (rank j : ℕ) : ℕ → K :=
  (if B.rowOwner j = rank then B.entries j else []).foldl
    (fun v e => fun k => if k = e.1 then e.2 else v k) (fun _ => 0)

/-- `extract_row`, /repo/source/dealii/dealii_utils.cc:20-60: element `k` of the vector returned, which
lives on the process owning it.  `compress(add)` (line 52) adds up what all `procs` processes have
written for `k` on the process owning `k`; the assignment in line 56 keeps the owned elements. -/
def extractRow (procs : ℕ) (B : DistMatrix K) (j k : ℕ) : K :=
  ((List.range procs).map (fun rank => ghostedRow B rank j k)).sum

variable [LinearOrder K]

/-- The inner loop, /repo/include/mfmg/dealii/dealii_utils.hpp:67-78, on process `rank`: the calls of
`C->set(i, j, value)`. -/
def columnSets (eps : K) (owner : ℕ → ℕ) (nRows rank j : ℕ) (dst : ℕ → K) : List (ℕ × ℕ × K) :=
  (List.range nRows).filterMap (fun i =>
    if owner i = rank then if eps < |dst i| then some (i, j, dst i) else none else none)

/-- `matrix_transpose_matrix_multiply`, /repo/include/mfmg/dealii/dealii_utils.hpp:32-82, on process
`rank`: all calls of `C->set`.  `apply` is the operator `A` on global vectors, `nRows` and `owner`
describe its range.  `eps` is `1e-14`. -/
def transposeMultiply (procs : ℕ) (eps : K) (B : DistMatrix K) (nRows : ℕ) (owner : ℕ → ℕ)
    (apply : (ℕ → K) → (ℕ → K)) (rank : ℕ) : List (ℕ × ℕ × K) :=
  (List.range B.rows).flatMap (fun j =>
    columnSets eps owner nRows rank j (apply (extractRow procs B j)))

/-- The matrix after `C->compress(insert)`: the last value set for an entry, zero where nothing is
stored. /repo/include/mfmg/dealii/dealii_utils.hpp:72-75. -/
def insertedValue (sets : List (ℕ × ℕ × K)) (i j : ℕ) : K :=
  sets.foldl (fun c s => if s.1 = i ∧ s.2.1 = j then s.2.2 else c) 0

end

end Mfmg
