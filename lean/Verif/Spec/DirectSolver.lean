import Verif.Model.DirectSolver
import Verif.Spec.DeviceCsr
import Verif.Spec.DeviceEigen
import Verif.Spec.DeviceGather

/-!
# Specification: solutions of linear systems
-/

set_option autoImplicit false

namespace Mfmg

variable {K : Type} [Field K]

/-- The rows of a square matrix: no column twice in a row, none beyond the last. -/
def SquareRows (rows : List (List (ℕ × K))) : Prop :=
  ∀ r ∈ rows, (r.map Prod.fst).Nodup ∧ ∀ e ∈ r, e.1 < rows.length

/-- `x` solves the system with these rows. -/
def Solves (rows : List (List (ℕ × K))) (x b : List K) : Prop :=
  x.length = rows.length ∧
    ∀ i (h : i < rows.length), rowTimes rows[i] (fun j => x.getD j 0) = b.getD i 0

/-- Only the zero vector is mapped to zero. -/
def Nonsingular (rows : List (List (ℕ × K))) : Prop :=
  ∀ x : List K, Solves rows x (List.replicate rows.length 0) → x = List.replicate rows.length 0

/-- Symmetric and positive definite. -/
def PositiveDefinite [LinearOrder K] (rows : List (List (ℕ × K))) : Prop :=
  (∀ i j (hi : i < rows.length) (hj : j < rows.length),
    (rows[i].lookup j).getD 0 = (rows[j].lookup i).getD 0) ∧
  ∀ x : List K, x.length = rows.length → x ≠ List.replicate rows.length 0 →
    0 < ((List.range rows.length).map fun i =>
      x.getD i 0 * rowTimes (rows.getD i []) (fun j => x.getD j 0)).sum

/-- Only the zero vector is mapped to zero by the dense matrix `a`. -/
def DenseNonsingular {n : ℕ} (a : Matrix (Fin n) (Fin n) K) : Prop :=
  ∀ u : Fin n → K, a.mulVec u = 0 → u = 0

/-- What is assumed of cuSOLVER, in exact arithmetic: every routine solves the systems it is made for, and
the LU factorisations report singular matrices. -/
structure CuSolver.Correct [LinearOrder K] (lib : CuSolver K) : Prop where
  chol : ∀ (rows : List (List (ℕ × K))) (c : Csr K) (b : List K), SquareRows rows → c.HasRows rows →
    PositiveDefinite rows → b.length = rows.length →
    ∃ x, lib.chol rows.length (rows.map List.length).sum c b = (x, -1) ∧ Solves rows x b
  lu : ∀ (rows : List (List (ℕ × K))) (c : Csr K) (b : List K), SquareRows rows → c.HasRows rows →
    Nonsingular rows → b.length = rows.length →
    ∃ x, lib.lu rows.length (rows.map List.length).sum c b = (x, -1) ∧ Solves rows x b
  lu_singular : ∀ (rows : List (List (ℕ × K))) (c : Csr K) (b : List K), SquareRows rows →
    c.HasRows rows → ¬ Nonsingular rows → b.length = rows.length →
    (lib.lu rows.length (rows.map List.length).sum c b).2 ≠ -1
  lu_length : ∀ (rows : List (List (ℕ × K))) (c : Csr K) (b : List K), c.HasRows rows →
    (lib.lu rows.length (rows.map List.length).sum c b).1.length = rows.length
  getrf : ∀ (n : ℕ) (a : Matrix (Fin n) (Fin n) K), DenseNonsingular a →
    ∃ f p, lib.getrf n (columnMajor a) = (f, p, 0) ∧ ∀ b : List K, b.length = n →
      ∃ x, lib.getrs n f p b = (x, 0) ∧ x.length = n ∧
        ∀ i : Fin n, a.mulVec (fun j => x.getD j 0) i = b.getD i 0
  getrf_singular : ∀ (n : ℕ) (a : Matrix (Fin n) (Fin n) K), ¬ DenseNonsingular a →
    (lib.getrf n (columnMajor a)).2.2 ≠ 0
  getrs_length : ∀ (n : ℕ) (f : List K) (p : List ℕ) (b : List K), (lib.getrs n f p b).1.length = n
  workspace : ∀ n, 0 < lib.workspace n

/-- The matrix with these rows as it is stored on a single process. -/
def SolverMatrix.Serial (a : SolverMatrix K) (rows : List (List (ℕ × K))) : Prop :=
  a.csr.HasRows rows ∧ a.m = rows.length ∧ a.n = rows.length ∧ a.nnz = (rows.map List.length).sum

/-- The matrix on one of several processes, which stores only `rows`, some of all rows. -/
def SolverMatrix.Shared (a : SolverMatrix K) (rows : List (List (ℕ × K))) : Prop :=
  a.csr.HasRows rows ∧ rows.length < a.m ∧ (rows.map List.length).sum ≤ a.nnz

end Mfmg
