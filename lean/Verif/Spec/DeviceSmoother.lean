import Verif.Model.DeviceSmoother
import Verif.Spec.DeviceCsr
import Verif.Spec.DeviceGather

/-!
# Specification: the Jacobi smoother
-/

set_option autoImplicit false

namespace Mfmg

variable {K : Type}

/-- A schedule of the three kernels for a matrix with `size` rows and `nnz` entries: every thread of each
grid runs once, in any order. -/
structure SmootherSchedule.Valid (s : SmootherSchedule) (size nnz : ℕ) : Prop where
  extract : IsSchedule (nBlocks nnz * 512) s.extract
  columns : IsSchedule (nBlocks size * 512) s.columns
  pointers : IsSchedule (nBlocks (size + 1) * 512) s.pointers

/-- No column twice in a row. -/
def UniqueColumns (rows : List (List (ℕ × K))) : Prop := ∀ r ∈ rows, (r.map Prod.fst).Nodup

/-- The diagonal matrix with entries `d i` in the rows `first + i`. -/
def diagonalRows (first m : ℕ) (d : ℕ → K) : List (List (ℕ × K)) :=
  (List.range m).map fun i => [(first + i, d i)]

/-- One step of the Jacobi iteration for the rows of a matrix with diagonal `diag`:
`x_i - (A x - b)_i / a_ii`. -/
def jacobiStep [Field K] (rows : List (List (ℕ × K))) (diag b x : ℕ → K) (i : ℕ) : K :=
  x i - (rowTimes (rows.getD i []) x - b i) / diag i

end Mfmg
