import Mathlib.Data.Nat.Notation
import Mathlib.Order.Defs.LinearOrder
import Mathlib.Data.List.Perm.Basic

/-!
# Specification: sorting and permuting
-/

set_option autoImplicit false

namespace Mfmg

/-- The precondition of `std::sort` on the comparison: a strict weak order. -/
structure StrictWeak (less : ℕ → ℕ → Bool) : Prop where
  irrefl : ∀ i, less i i = false
  trans : ∀ i j k, less i j = true → less j k = true → less i k = true
  incomp : ∀ i j k, less i j = false → less j i = false → less j k = false → less k j = false →
    less i k = false ∧ less k i = false

/-- The contract of `std::sort`: if the comparison is a strict weak order, the result is a
permutation of the input in which no element is less than an earlier one.  Nothing is promised
otherwise. -/
def SortContract (sort : (ℕ → ℕ → Bool) → List ℕ → List ℕ) : Prop :=
  ∀ less l, StrictWeak less →
    (sort less l).Perm l ∧ (sort less l).Pairwise (fun i j => less j i = false)

/-- Lexicographic order of pairs. -/
def lexLE {T : Type} [LinearOrder T] (a b : T × T) : Prop :=
  a.1 < b.1 ∨ (a.1 = b.1 ∧ a.2 ≤ b.2)

end Mfmg
