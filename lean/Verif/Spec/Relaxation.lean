import Verif.Spec.CoarseSpd
import Verif.Model.Relaxation

/-!
# Specification: convergence of the cycle with relaxation smoothers
-/

set_option autoImplicit false

namespace Mfmg

variable {K : Type} [Field K] {n : ℕ}

/-- The energy `eᵀ A e` of an error. -/
def energyOf (A : Matrix (Fin n) (Fin n) K) (e : Fin n → K) : K := e ⬝ᵥ A.mulVec e

/-- `own` lists every row exactly once (in any order). -/
def ListsAll (own : List (Fin n)) : Prop := own.Nodup ∧ ∀ i, i ∈ own

/-- The operators of all levels: `A`, then `R A Rᵀ` from level to level. -/
def coarseMatrix (dims : ℕ → ℕ) (A : Matrix (Fin (dims 0)) (Fin (dims 0)) K)
    (R : ∀ l, Matrix (Fin (dims (l + 1))) (Fin (dims l)) K) :
    ∀ l, Matrix (Fin (dims l)) (Fin (dims l)) K
  | 0 => A
  | l + 1 => galerkin (R l) (coarseMatrix dims A R l)

/-- The rows of a matrix are linearly independent. -/
def IndependentRows {m n : ℕ} (R : Matrix (Fin m) (Fin n) K) : Prop :=
  ∀ y, R.transpose.mulVec y = 0 → y = 0

/-- A direct solver solves every nonsingular system. -/
def SolvesExactly {n : ℕ} (solve : Matrix (Fin n) (Fin n) K → (Fin n → K) → Fin n → K) : Prop :=
  ∀ (M : Matrix (Fin n) (Fin n) K) b, M.det ≠ 0 → M.mulVec (solve M b) = b

/-- The part of an error on the rows of one process. -/
def restrictTo (own : List (Fin n)) (w : Fin n → K) : Fin n → K := fun i => if i ∈ own then w i else 0

/-- The coupling between the processes is weak: the energy of every error is less than twice the sum of the
energies of its parts on the processes. -/
def WeaklyCoupled [LinearOrder K] (A : Matrix (Fin n) (Fin n) K) (procs : List (List (Fin n))) : Prop :=
  ∀ w : Fin n → K, w ≠ 0 → energyOf A w < 2 * (procs.map fun own => energyOf A (restrictTo own w)).sum

end Mfmg
