import Verif.Model.DeviceEigen
import Verif.Spec.DeviceGather
import Mathlib.Algebra.BigOperators.Fin
import Mathlib.Algebra.Order.Field.Basic
import Mathlib.Data.Matrix.Mul

/-!
# Specification: the smallest eigenpairs
-/

set_option autoImplicit false

namespace Mfmg

variable {K : Type} [Field K] [LinearOrder K]

/-- The `k`-th of several vectors with `n` components stored one after the other. -/
def nthVector (n : ℕ) (l : List K) (k : ℕ) : Fin n → K := fun i => l.getD (k * n + i) 0

/-- `values` and `vectors` are `m` orthonormal eigenpairs of `a`, in ascending order. -/
structure OrderedPairs (m n : ℕ) (a : Matrix (Fin n) (Fin n) K) (values vectors : List K) : Prop where
  values_length : values.length = m
  vectors_length : vectors.length = m * n
  pairs : ∀ k < m, a.mulVec (nthVector n vectors k) = values.getD k 0 • nthVector n vectors k
  orthonormal : ∀ k < m, ∀ l < m,
    nthVector n vectors k ⬝ᵥ nthVector n vectors l = if k = l then 1 else 0
  ascending : ∀ k l, k ≤ l → l < m → values.getD k 0 ≤ values.getD l 0

/-- `values` and `vectors` belong to the `m` smallest eigenvalues of `a`, counted with multiplicity: they
are eigenpairs, and the eigenvalues of all other eigenvectors are at least as large. -/
structure SmallestEigenpairs (m n : ℕ) (a : Matrix (Fin n) (Fin n) K) (values vectors : List K) : Prop extends
    OrderedPairs m n a values vectors where
  smallest : ∀ (l : K) (u : Fin n → K), u ≠ 0 → a.mulVec u = l • u →
    (∀ k < m, nthVector n vectors k ⬝ᵥ u = 0) → ∀ k < m, values.getD k 0 ≤ l

/-- A dense matrix in column-major order. -/
def columnMajor {n : ℕ} (a : Matrix (Fin n) (Fin n) K) : List K :=
  (List.ofFn fun j : Fin n => List.ofFn fun i : Fin n => a i j).flatten

/-- What is assumed of `cusolverDnDsygvd` for the matrix `a` and the identity as mass matrix: it
converges and gives all eigenpairs. -/
def SygvdContract (sygvd : ℕ → List K → List K → List K × List K × Bool) (n : ℕ)
    (a : Matrix (Fin n) (Fin n) K) : Prop :=
  ∃ w v, sygvd n (columnMajor a) (columnMajor (1 : Matrix (Fin n) (Fin n) K)) = (w, v, true) ∧
    OrderedPairs n n a w v

/-- Every thread of the four launches runs once. -/
structure EigenSchedule.Valid (s : EigenSchedule) (nEig nRows : ℕ) : Prop where
  diag : IsSchedule (launchThreads (nRows * nRows)) s.diag
  identity : IsSchedule (launchThreads (nRows * nRows)) s.identity
  values : IsSchedule (launchThreads nEig) s.values
  vectors : IsSchedule (launchThreads (nEig * nRows)) s.vectors

end Mfmg
