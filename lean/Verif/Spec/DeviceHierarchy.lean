import Verif.Model.DeviceHierarchy
import Verif.Spec.DirectSolver
import Verif.Spec.DeviceSmoother
import Verif.Spec.Relaxation

/-!
# Specification: two-level cycles with Jacobi smoothing, and matrices on the device
-/

set_option autoImplicit false

namespace Mfmg

section

variable {K : Type} [Field K]

/-! ### The result expected of an application -/

/-- One step of Jacobi's iteration, `x + D⁻¹ (b - A x)`. -/
def jacobiSweep {n : ℕ} (A : Matrix (Fin n) (Fin n) K) (b x : Fin n → K) : Fin n → K :=
  fun i => x i + (b i - A.mulVec x i) / A i i

/-- `y` is the result of the textbook cycle on two levels with `steps` Jacobi steps before and after: smooth,
correct by the exact solution of the coarse problem for the restricted residual, smooth. -/
def IsTwoGrid {n m : ℕ} (A : Matrix (Fin n) (Fin n) K) (R : Matrix (Fin m) (Fin n) K) (steps : ℕ)
    (b x y : Fin n → K) : Prop :=
  ∃ x₁ c, x₁ = (jacobiSweep A b)^[steps] x ∧
    (galerkin R A).mulVec c = R.mulVec (b - A.mulVec x₁) ∧
    y = (jacobiSweep A b)^[steps] (x₁ + R.transpose.mulVec c)

/-! ### Matrices on the device -/

/-- `rows` are the stored entries of the matrix `A`: no column twice in a row, and what is not stored is
zero. -/
def RowsOf {m n : ℕ} (rows : List (List (ℕ × K))) (A : Matrix (Fin m) (Fin n) K) : Prop :=
  rows.length = m ∧ (∀ r ∈ rows, (r.map Prod.fst).Nodup ∧ ∀ e ∈ r, e.1 < n) ∧
    ∀ (i : Fin m) (j : Fin n), ((rows.getD i []).lookup (j : ℕ)).getD 0 = A i j

/-- The arrays hold the matrix `A`. -/
def Csr.Holds {m n : ℕ} (c : Csr K) (A : Matrix (Fin m) (Fin n) K) : Prop :=
  ∃ rows, c.HasRows rows ∧ RowsOf rows A

/-- A usable device matrix that stores `A`. -/
structure DevMat.Stores {m n : ℕ} (a : DevMat K) (A : Matrix (Fin m) (Fin n) K) : Prop where
  holds : a.csr.Holds A
  rows : a.m = m
  cols : a.n = n
  handle : a.handle = true
  descr : a.descr = true

/-- What is assumed of the libraries, in exact arithmetic: cuSOLVER solves, cuSPARSE multiplies, EpetraExt
transposes (and keeps the number of stored entries). -/
structure DeviceLib.Correct [LinearOrder K] (lib : DeviceLib K) : Prop where
  solver : lib.solver.Correct
  gemm : ∀ {m k n : ℕ} (A : Matrix (Fin m) (Fin k) K) (B : Matrix (Fin k) (Fin n) K) (a b : Csr K),
    a.Holds A → b.Holds B → (lib.gemm m n k a b).Holds (A * B)
  transposer : ∀ {m n : ℕ} (A : Matrix (Fin m) (Fin n) K) (rows : List (List (ℕ × K))), RowsOf rows A →
    ∃ trows, (lib.transposer m n ((List.range m).zip rows)).1.HasRows trows ∧
      RowsOf (trows.map (List.map fun e => ((lib.transposer m n ((List.range m).zip rows)).2 e.1, e.2)))
        A.transpose ∧
      (trows.map List.length).sum = (rows.map List.length).sum

/-- The kernels run all their threads, in any order. -/
structure Device.Valid (dev : Device K) : Prop where
  schedule : ∀ t size, IsSchedule (nBlocks size * 512) (dev.schedule t size)
  smoother : ∀ t size nnz, (dev.smootherSchedule t size nnz).Valid size nnz

/-- An evaluator for the device, with the matrix `A`. -/
structure DevEvaluator.Provides {n : ℕ} (ev : DevEvaluator K) (A : Matrix (Fin n) (Fin n) K) : Prop where
  type : ev.type = chars! "CudaMeshEvaluator"
  dim : ev.dim = 2 ∨ ev.dim = 3
  matrix : ev.global.Stores A

/-- The components of a list, as a vector. -/
def vecOf (n : ℕ) (l : List K) : Fin n → K := fun i => l.getD i 0

/-- Addresses below `next` are the ones in use. -/
def DevHeap.Sane (h : DevHeap) : Prop := ∀ p ∈ h.live, p < h.next

/-- The name of the smoother in the parameters: absent or Jacobi, in any case. -/
def JacobiType (type : Option (List Char)) : Prop :=
  ∀ t, type = some t → lowerCase t = chars! "jacobi"

/-- The name of a direct solver in the parameters that can solve systems with the matrix `M`. -/
def SolverFits [LinearOrder K] {n : ℕ} (type : Option (List Char)) (M : Matrix (Fin n) (Fin n) K) : Prop :=
  (lowerCase (type.getD (chars! "lu_dense")) = chars! "cholesky" ∧ IsSpd M) ∨
  ((lowerCase (type.getD (chars! "lu_dense")) = chars! "lu_dense" ∨
    lowerCase (type.getD (chars! "lu_dense")) = chars! "lu_sparse_host") ∧ M.det ≠ 0)

end

end Mfmg
