import Verif.Model.LocalEig

/-!
# Specification: local eigenvalue computations
-/

set_option autoImplicit false

namespace Mfmg

variable {K : Type} [Field K]

/-- Entry `i` of `M v`, for a matrix with `size` columns. -/
def matVec (size : ℕ) (M : ℕ → ℕ → K) (v : List K) (i : ℕ) : K :=
  ((List.range size).map (fun j => M i j * v.getD j 0)).sum

/-- `v` is an eigenvector of `M` for `l` (not necessarily different from zero). -/
def IsEigenpair (size : ℕ) (M : ℕ → ℕ → K) (l : K) (v : List K) : Prop :=
  v.length = size ∧ ∀ i, i < size → matVec size M v i = l * v.getD i 0

/-- The rows and columns of the dofs without constraint. -/
def freeBlock (constrained : List ℕ) (A : ℕ → ℕ → K) : ℕ → ℕ → K :=
  fun i j => if i ∈ constrained ∨ j ∈ constrained then 0 else A i j

/-- What is assumed of an eigensolver: as many values as vectors, the `k`-th of which belong together. -/
def EigenContract (size : ℕ) (solve : (ℕ → ℕ → K) → List K × List (List K)) : Prop :=
  ∀ M, (solve M).1.length = (solve M).2.length ∧
    ∀ (k : ℕ) (l : K) (v : List K), (solve M).1[k]? = some l → (solve M).2[k]? = some v →
      IsEigenpair size M l v

end Mfmg
