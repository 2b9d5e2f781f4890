import Verif.Spec.Ilu
import Mathlib.LinearAlgebra.Matrix.NonsingularInverse

/-!
# Specification: numbering of the unknowns and distribution over the processes
-/

set_option autoImplicit false

namespace Mfmg

variable {K : Type} {m n : ℕ}

/-- A vector after renumbering: the unknown `i` has got the number `σ i`. -/
def renameVec (σ : Equiv.Perm (Fin n)) (x : Fin n → K) : Fin n → K := fun i => x (σ.symm i)

/-- A matrix after renumbering of its rows by `σ` and of its columns by `τ`. -/
def renameMatrix (σ : Equiv.Perm (Fin m)) (τ : Equiv.Perm (Fin n)) (M : Matrix (Fin m) (Fin n) K) :
    Matrix (Fin m) (Fin n) K :=
  Matrix.of fun i j => M (σ.symm i) (τ.symm j)

/-- The rows of the processes after renumbering. -/
def renameProcs (σ : Equiv.Perm (Fin n)) (procs : List (List (Fin n))) : List (List (Fin n)) :=
  procs.map fun own => own.map σ

/-- A graph after renumbering. -/
def renameGraph (σ : Equiv.Perm (Fin n)) (graph : Fin n → Fin n → Bool) : Fin n → Fin n → Bool :=
  fun i j => graph (σ.symm i) (σ.symm j)

/-- As many processes as rows, each with one row. -/
def oneRowEach (n : ℕ) : List (List (Fin n)) := (List.finRange n).map fun i => [i]

/-- No process owns two rows that are coupled. -/
def UncoupledInside [Zero K] (procs : List (List (Fin n))) (A : Matrix (Fin n) (Fin n) K) : Prop :=
  ∀ own ∈ procs, ∀ i ∈ own, ∀ j ∈ own, i ≠ j → A i j = 0

end Mfmg
