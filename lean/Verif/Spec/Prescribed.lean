import Verif.Spec.LocalEig
import Verif.Spec.Restriction
import Mathlib.Data.Matrix.Mul
import Mathlib.Data.Set.Basic

/-!
# Specification: unknowns that are not coupled to the others

Rows of constrained dofs (Dirichlet boundary values) in the matrix hold only their diagonal entry.
-/

set_option autoImplicit false

namespace Mfmg

variable {K : Type} [Field K] {m n : ℕ}

/-- The unknowns of the set `S` are not coupled to the other unknowns. -/
def NotCoupled (A : Matrix (Fin n) (Fin n) K) (S : Set (Fin n)) : Prop :=
  ∀ i ∈ S, ∀ j, j ∉ S → A i j = 0 ∧ A j i = 0

/-- Every row of the restriction matrix lives either inside or outside of `S`; `S'` are the rows inside. -/
def Separates (R : Matrix (Fin m) (Fin n) K) (S' : Set (Fin m)) (S : Set (Fin n)) : Prop :=
  ∀ j x, R j x ≠ 0 → (j ∈ S' ↔ x ∈ S)

/-- The unknown `c` occurs in no other equation and its equation holds no other unknown. -/
def Alone (A : Matrix (Fin n) (Fin n) K) (c : Fin n) : Prop :=
  ∀ j, j ≠ c → A c j = 0 ∧ A j c = 0

/-- Two vectors have the same values on `S`. -/
def AgreeOn (S : Set (Fin n)) (v w : Fin n → K) : Prop := ∀ i ∈ S, v i = w i

/-- The data of the agglomerate `d` come from the matrix-based local eigenproblem, where the dof `x` is a
constrained dof that occurs only in its own equation, and no eigenvalue found is the one given to constrained
dofs (200, after the shift by the mean of the diagonal). -/
def ConstrainedIn (x : ℕ) (d : CopyData K) : Prop :=
  ∃ (debug : Bool) (type : Option (List Char)) (n i : ℕ) (A : ℕ → ℕ → K) (constrained : List ℕ)
    (S : EigenSolvers K),
    type.getD (chars! "arpack") ∈
      [chars! "arpack", chars! "lanczos", chars! "anasazi", chars! "lapack"] ∧
    EigenContract d.dofMap.length S.arpack ∧ EigenContract d.dofMap.length S.lanczos ∧
    EigenContract d.dofMap.length S.anasazi ∧ EigenContract d.dofMap.length S.lapack ∧
    localMatrixBased debug type n d.dofMap.length A constrained S
      = .ok (d.eigenvalues, d.eigenvectors, d.diag) ∧
    d.dofMap[i]? = some x ∧ i ∈ constrained ∧ (∀ j, j ≠ i → A i j = 0) ∧
    ∀ m ∈ d.eigenvalues, m ≠ 200 - averageDiagonal d.dofMap.length A

/-- Two dofs that are not coupled. -/
def twoDofs (a b : K) : ℕ → ℕ → K := fun i j => if i = j then (if i = 0 then a else b) else 0

end Mfmg
