import Verif.Spec.TwoLevel
import Mathlib.LinearAlgebra.Span.Defs

/-!
# Specification: eigenvectors computed up to a tolerance
-/

set_option autoImplicit false

namespace Mfmg

variable {K : Type} [Field K]

/-- The Rayleigh quotient of a vector. -/
def rayleigh {n : ℕ} (A : Matrix (Fin n) (Fin n) K) (v : Fin n → K) : K :=
  v ⬝ᵥ A.mulVec v / (v ⬝ᵥ v)

/-- The residual of a vector as an eigenvector, with its Rayleigh quotient as eigenvalue. -/
def eigenResidual {n : ℕ} (A : Matrix (Fin n) (Fin n) K) (v : Fin n → K) : Fin n → K :=
  A.mulVec v - rayleigh A v • v

/-- The square of the norm of the residual relative to the norm of the vector: what an eigensolver compares
with the square of its tolerance. -/
def residualSq {n : ℕ} (A : Matrix (Fin n) (Fin n) K) (v : Fin n → K) : K :=
  eigenResidual A v ⬝ᵥ eigenResidual A v / (v ⬝ᵥ v)

/-- The eigenvectors of the agglomerate were computed up to a tolerance. The matrix is symmetric and positive
semidefinite, the diagonal is its diagonal and the vectors are pairwise orthogonal. The vectors `exact` are
eigenvectors. The squares of the residuals of the vectors `loose` add up to at most `tol2`, and on these vectors
the matrix is at least `lower`. On the vectors orthogonal to all of them it is at least `omitted`. -/
structure AggData.SolvedUpTo [LinearOrder K] {n : ℕ} (a : AggData n K) (exact loose : List (List K))
    (tol2 lower : K) : Prop where
  kept : a.copy.eigenvectors = exact ++ loose
  inside : ∀ i j, a.matrix i j ≠ 0 → i.val ∈ a.copy.dofMap ∧ j.val ∈ a.copy.dofMap
  symm : a.matrix.transpose = a.matrix
  psd : ∀ v : Fin n → K, 0 ≤ v ⬝ᵥ a.matrix.mulVec v
  diagonal : ∀ i : Fin n, i.val ∈ a.copy.dofMap → extend a.copy.dofMap a.copy.diag i.val = a.matrix i i
  orthogonal : a.copy.eigenvectors.Pairwise fun v w =>
    globalVec n a.copy v ⬝ᵥ globalVec n a.copy w = 0
  eigen : ∀ v ∈ exact, ∃ l : K,
    a.matrix.mulVec (globalVec n a.copy v) = l • globalVec n a.copy v
  residual : (loose.map fun v => residualSq a.matrix (globalVec n a.copy v)).sum ≤ tol2
  atLeast : ∀ w ∈ Submodule.span K {f | ∃ v ∈ loose, f = globalVec n a.copy v},
    lower * (w ⬝ᵥ w) ≤ w ⬝ᵥ a.matrix.mulVec w
  rest : ∀ w : Fin n → K, (∀ i, w i ≠ 0 → i.val ∈ a.copy.dofMap) →
    (∀ v ∈ a.copy.eigenvectors, globalVec n a.copy v ⬝ᵥ w = 0) →
    a.omitted * (w ⬝ᵥ w) ≤ w ⬝ᵥ a.matrix.mulVec w

end Mfmg
