import Verif.Spec.LocalEig
import Mathlib.Algebra.BigOperators.Group.Finset.Basic

/-!
# Specification: change of units
-/

set_option autoImplicit false

namespace Mfmg

open Finset

variable {K : Type} [Field K]

/-- Constrained dofs are not coupled to other dofs. -/
def Decoupled (size : ℕ) (constrained : List ℕ) (A : ℕ → ℕ → K) : Prop :=
  ∀ k, k < size → k ∈ constrained → ∀ i, i < size → i ≠ k → A k i = 0 ∧ A i k = 0

/-- What is assumed of LAPACK's `dstev`: the eigenvalues of a multiple of a tridiagonal matrix are the multiples,
and the eigenvectors returned are the same. -/
def DstevScales (dstev : List K → List K → List K × List K) (c : K) : Prop :=
  ∀ d s, dstev (d.map (c * ·)) (s.map (c * ·)) = ((dstev d s).1.map (c * ·), (dstev d s).2)

variable [LinearOrder K]

/-- The energy of every vector is nonnegative. -/
def PositiveForm (size : ℕ) (A : ℕ → ℕ → K) : Prop :=
  ∀ w : ℕ → K, 0 ≤ ∑ i ∈ range size, ∑ j ∈ range size, w i * A i j * w j

/-- `l` is not larger than any eigenvalue of `M`. -/
def IsSmallest (size : ℕ) (M : ℕ → ℕ → K) (l : K) : Prop :=
  ∀ (l' : K) (v : List K), IsEigenpair size M l' v → (∃ i, i < size ∧ v.getD i 0 ≠ 0) → l ≤ l'

end Mfmg
