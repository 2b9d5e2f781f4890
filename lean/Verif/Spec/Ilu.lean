import Verif.Spec.Relaxation
import Verif.Model.Ilu

/-!
# Specification: incomplete factorisation
-/

set_option autoImplicit false

namespace Mfmg

variable {K : Type} [Field K] {n : ℕ}

/-- The row `i` comes before the row `j` in the list. -/
def Precedes (own : List (Fin n)) (i j : Fin n) : Prop :=
  i ∈ own ∧ j ∈ own ∧ own.idxOf i < own.idxOf j

instance (own : List (Fin n)) (i j : Fin n) : Decidable (Precedes own i j) := by
  unfold Precedes
  infer_instance

/-- `graph` holds the positions of the diagonal and of all nonzero entries of `A`. -/
structure IsGraph (graph : Fin n → Fin n → Bool) (A : Matrix (Fin n) (Fin n) K) : Prop where
  diag : ∀ i, graph i i = true
  entry : ∀ i j, A i j ≠ 0 → graph i j = true

/-- `L U` is an incomplete factorisation of `A` without fill: `L` is lower triangular with unit diagonal and
`U` upper triangular in the order of the rows, both have entries only in the graph and only between rows of
the same process, and `L U` agrees with `A` there. -/
structure IsIncompleteLU (graph : Fin n → Fin n → Bool) (procs : List (List (Fin n)))
    (A L U : Matrix (Fin n) (Fin n) K) : Prop where
  unit : ∀ i, L i i = 1
  lower : ∀ i j, i ≠ j → L i j ≠ 0 → graph i j = true ∧ ∃ own ∈ procs, Precedes own j i
  upper : ∀ i j, i ≠ j → U i j ≠ 0 → graph i j = true ∧ ∃ own ∈ procs, Precedes own i j
  agrees : ∀ own ∈ procs, ∀ i ∈ own, ∀ j ∈ own, graph i j = true → (L * U) i j = A i j

/-- A Stieltjes matrix: symmetric positive definite, without positive entries off the diagonal. -/
def IsStieltjes [LinearOrder K] (A : Matrix (Fin n) (Fin n) K) : Prop :=
  IsSpd A ∧ ∀ i j, i ≠ j → A i j ≤ 0

/-- Elimination in the order of the list makes no entries outside the graph. -/
def NoFill (graph : Fin n → Fin n → Bool) (own : List (Fin n)) : Prop :=
  ∀ i j k, Precedes own k i → Precedes own k j → graph i k = true → graph k j = true → graph i j = true

end Mfmg
