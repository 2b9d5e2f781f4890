import Mathlib.Analysis.InnerProductSpace.Basic
import Mathlib.Data.List.Basic

/-!
# Specification for deflation
-/

set_option autoImplicit false

namespace Mfmg

open scoped InnerProductSpace

variable {E : Type} [NormedAddCommGroup E] [InnerProductSpace ℝ E]

/-- The vectors of a list are orthonormal. -/
structure OrthonormalList (l : List E) : Prop where
  unit : ∀ x ∈ l, ‖x‖ = 1
  orth : l.Pairwise (fun x y => ⟪x, y⟫_ℝ = 0)

/-- The subspace spanned by the vectors of a list. -/
def spanList (l : List E) : Submodule ℝ E := Submodule.span ℝ {x | x ∈ l}

/-- `x` is orthogonal to every vector of the list. -/
def OrthogonalTo (l : List E) (x : E) : Prop := ∀ d ∈ l, ⟪d, x⟫_ℝ = 0

/-- What `std::sort` of the indices `0 … n-1` by value leaves behind: a permutation of the indices in
an order in which the values do not decrease. -/
def SortsIndices (sortPerm : List ℝ → List ℕ) : Prop :=
  ∀ l : List ℝ, (sortPerm l).Perm (List.range l.length) ∧
    (sortPerm l).Pairwise (fun i j => l.getD i 0 ≤ l.getD j 0)

/-- `res` are `n` of the collected pairs, in ascending order, and none of the other pairs is
smaller. -/
def SmallestPairs {α : Type} (n : ℕ) (evals : List ℝ) (evecs : List α) (res : List ℝ × List α) :
    Prop :=
  res.1.length = n ∧ res.2.length = n ∧ res.1.Pairwise (· ≤ ·) ∧
    ∃ rest : List (ℝ × α), (res.1.zip res.2 ++ rest).Perm (evals.zip evecs) ∧
      ∀ x ∈ res.1, ∀ y ∈ rest, x ≤ y.1

end Mfmg
