import Verif.Spec.Restriction
import Verif.Model.Diagonal

/-!
# Specification: weights from the diagonal
-/

set_option autoImplicit false

namespace Mfmg

variable {K : Type}

/-- The rows of the restriction matrix in order, each with the part of the diagonal that its process stores, its
agglomerate and its eigenvector. -/
def procRows (ps : List (RankVector K × List (CopyData K))) : List (RankVector K × CopyData K × List K) :=
  ps.flatMap fun p => (rowsOf p.2).map fun cv => (p.1, cv)

/-- Every process stores the diagonal at all dofs of its agglomerates (those with eigenvectors). -/
def Stored (ps : List (RankVector K × List (CopyData K))) : Prop :=
  ∀ p ∈ ps, ∀ c ∈ p.2, c.eigenvectors ≠ [] → ∀ i ∈ c.dofMap, ∃ g, p.1 i = some g

/-- The diagonal is known to the processes as deal.II distributes dofs: the agglomerates of every process have
relevant dofs only, and every relevant dof has an owner. -/
structure Distributed (owned relevant : List (List ℕ)) (css : List (List (CopyData K))) : Prop where
  owner : ∀ rel ∈ relevant, ∀ i ∈ rel, ∃ o ∈ owned, i ∈ o
  relevant : List.Forall₂ (fun rel cs => ∀ c ∈ cs, ∀ i ∈ c.dofMap, i ∈ rel) relevant css

end Mfmg
