import Verif.Model.Basic
import Mathlib.Data.Nat.Notation
import Mathlib.Algebra.BigOperators.Group.List.Basic

/-!
# Model of the numbers of nonzeros of a distributed device matrix

/repo/include/mfmg/cuda/sparse_matrix_device.templates.cuh:141-434, the members `_local_nnz` and `_nnz`.
-/

set_option autoImplicit false

namespace Mfmg

/-- The numbers of entries that a matrix has on each rank.
/repo/include/mfmg/cuda/sparse_matrix_device.cuh:100. -/
abbrev RankCounts := ℕ → ℕ

/-- `dealii::Utilities::MPI::sum` on a communicator with `np` processes.
/repo/include/mfmg/cuda/sparse_matrix_device.templates.cuh:219, 332. -/
def mpiSum (np : ℕ) (counts : RankCounts) : ℕ := ((List.range np).map counts).sum

/-- The two members on one process; `none` is uninitialised.
/repo/include/mfmg/cuda/sparse_matrix_device.cuh:100-101. -/
structure NnzObj where
  localNnz : Option ℕ
  nnz : Option ℕ
  deriving DecidableEq, Repr

/-- What the value constructor (/repo/include/mfmg/cuda/sparse_matrix_device.templates.cuh:207-220) and `reinit`
(329-332) store: `_nnz = _local_nnz`; the result
of the sum is discarded. -/
def NnzObj.store (np rank : ℕ) (counts : RankCounts) : NnzObj :=
  let localNnz := counts rank
  let nnz := localNnz
  let _discarded := mpiSum np counts
  { localNnz := some localNnz, nnz := some nnz }

/-- Calls on matrices, numbered in the order of their construction, made by all processes.
/repo/include/mfmg/cuda/sparse_matrix_device.templates.cuh:141-434. -/
inductive NnzCall where
  /-- Default constructor, lines 141-146. -/
  | default
  /-- Value constructors, lines 207-242. -/
  | construct (counts : RankCounts)
  /-- Move constructor, lines 148-168. -/
  | move (i : ℕ)
  /-- Copy constructor, lines 170-205. -/
  | copy (i : ℕ)
  /-- Move assignment `i = std::move(j)`, lines 274-301. -/
  | assign (i j : ℕ)
  /-- `reinit`, lines 303-335. -/
  | reinit (i : ℕ) (counts : RankCounts)
  /-- `mmult` with result `i`, which has these numbers of entries, lines 373-434: one process takes them from
  cuSPARSE, several move the result of `convert_matrix` into it. -/
  | product (i : ℕ) (counts : RankCounts)

/-- One call on a process.  Calls with objects that do not exist are skipped.  Self-assignment empties the
matrix. /repo/include/mfmg/cuda/sparse_matrix_device.templates.cuh:141-434. -/
def nnzStep (np rank : ℕ) (s : List NnzObj) : NnzCall → List NnzObj
  | .default => s ++ [{ localNnz := none, nnz := none }]
  | .construct counts => s ++ [NnzObj.store np rank counts]
  | .move i =>
    match s[i]? with
    | some o => s.set i { localNnz := some 0, nnz := some 0 } ++ [o]
    | none => s
  | .copy i =>
    match s[i]? with
    | some o => s ++ [o]
    | none => s
  | .assign i j =>
    match s[j]? with
    | some o => (s.set i o).set j { localNnz := some 0, nnz := some 0 }
    | none => s
  | .reinit i counts => s.set i (NnzObj.store np rank counts)
  | .product i counts =>
    if np = 1 then
      let local_ := counts rank
      s.set i { localNnz := some local_, nnz := some local_ }
    else s.set i (NnzObj.store np rank counts)

/-- A history. Calls of /repo/include/mfmg/cuda/sparse_matrix_device.templates.cuh:141-434. -/
def nnzRun (np rank : ℕ) (calls : List NnzCall) : List NnzObj := calls.foldl (nnzStep np rank) []

/-- `n_nonzero_elements`, /repo/include/mfmg/cuda/sparse_matrix_device.cuh:71, and `operator_complexity`,
/repo/source/cuda/cuda_matrix_operator.cu:257-261.  Reading an uninitialised member is undefined. -/
def reportedNnz (s : List NnzObj) (i : ℕ) : Outcome ℕ := do
  let o ← Outcome.get s i "no such matrix"
  Outcome.deref o.nnz "_nnz is not initialised"

end Mfmg
