import Verif.Spec.Relaxation

/-!
# Specification: the rate of convergence of the two-level cycle
-/

set_option autoImplicit false

namespace Mfmg

variable {K : Type} [Field K]

/-- A local vector of an agglomerate, extended by zero to all `n` dofs. -/
def globalVec (n : ℕ) (c : CopyData K) (v : List K) : Fin n → K := fun i => extend c.dofMap v i.val

/-- What the set-up keeps of an agglomerate, its matrix (with global dof numbers, zero elsewhere), and a
lower bound of the eigenvalues whose eigenvectors were not kept. -/
structure AggData (n : ℕ) (K : Type) where
  copy : CopyData K
  matrix : Matrix (Fin n) (Fin n) K
  omitted : K

/-- The eigenvectors of the agglomerate were computed correctly: the matrix is symmetric and positive
semidefinite, the diagonal is its diagonal, the vectors are pairwise orthogonal eigenvectors, and on the
vectors orthogonal to them the matrix is at least `omitted`. -/
structure AggData.Solved [LinearOrder K] {n : ℕ} (a : AggData n K) : Prop where
  inside : ∀ i j, a.matrix i j ≠ 0 → i.val ∈ a.copy.dofMap ∧ j.val ∈ a.copy.dofMap
  symm : a.matrix.transpose = a.matrix
  psd : ∀ v : Fin n → K, 0 ≤ v ⬝ᵥ a.matrix.mulVec v
  diagonal : ∀ i : Fin n, i.val ∈ a.copy.dofMap → extend a.copy.dofMap a.copy.diag i.val = a.matrix i i
  eigen : ∀ v ∈ a.copy.eigenvectors, ∃ l : K,
    a.matrix.mulVec (globalVec n a.copy v) = l • globalVec n a.copy v
  orthogonal : a.copy.eigenvectors.Pairwise fun v w =>
    globalVec n a.copy v ⬝ᵥ globalVec n a.copy w = 0
  rest : ∀ w : Fin n → K, (∀ i, w i ≠ 0 → i.val ∈ a.copy.dofMap) →
    (∀ v ∈ a.copy.eigenvectors, globalVec n a.copy v ⬝ᵥ w = 0) →
    a.omitted * (w ⬝ᵥ w) ≤ w ⬝ᵥ a.matrix.mulVec w

/-- No row has more than `s` nonzero entries. -/
def AtMostPerRow [DecidableEq K] {n : ℕ} (A : Matrix (Fin n) (Fin n) K) (s : ℕ) : Prop :=
  ∀ i, (Finset.univ.filter fun j => A i j ≠ 0).card ≤ s

/-- Every error is approximated by coarse vectors: its distance, weighted by the diagonal, is at most `kappa`
times its energy. -/
def Approximates [LinearOrder K] {m n : ℕ} (R : Matrix (Fin m) (Fin n) K) (A : Matrix (Fin n) (Fin n) K)
    (kappa : K) : Prop :=
  ∀ e : Fin n → K, ∃ y : Fin m → K,
    ∑ i, A i i * ((e - R.transpose.mulVec y) i * (e - R.transpose.mulVec y) i) ≤ kappa * energyOf A e

/-- Two levels: `n` unknowns, then `m`. -/
def twoLevels (n m : ℕ) : ℕ → ℕ
  | 0 => n
  | _ + 1 => m

/-- The restriction matrix between the two levels. -/
def twoLevelRestriction {m n : ℕ} (R : Matrix (Fin m) (Fin n) K) :
    ∀ l, Matrix (Fin (twoLevels n m (l + 1))) (Fin (twoLevels n m l)) K
  | 0 => R
  | _ + 1 => (1 : Matrix (Fin m) (Fin m) K)

end Mfmg
