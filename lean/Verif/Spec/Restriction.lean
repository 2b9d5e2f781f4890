import Verif.Model.Restriction
import Mathlib.Algebra.BigOperators.Group.List.Basic
import Mathlib.Data.List.Forall2
import Mathlib.Data.List.Nodup

/-!
# Specification of the restriction matrix

Independent of the assembly loops: a local vector is a list of values parallel to the list of
global dof numbers of its agglomerate.
-/

set_option autoImplicit false

namespace Mfmg

variable {K : Type}

/-- Extension by zero of a local vector: its value at global dof `x`. -/
def extend [Zero K] (dofs : List ℕ) (v : List K) (x : ℕ) : K := ((dofs.zip v).lookup x).getD 0

/-- The data of one agglomerate fit together: the dof map is injective and diagonal and
eigenvectors have its length. -/
structure CopyData.WellFormed (c : CopyData K) : Prop where
  nodup : c.dofMap.Nodup
  diag_length : c.diag.length = c.dofMap.length
  vec_length : ∀ v ∈ c.eigenvectors, v.length = c.dofMap.length

/-- The rows of the restriction matrix in order: agglomerate by agglomerate, process by process,
each with the agglomerate it comes from. -/
def rowsOf (cs : List (CopyData K)) : List (CopyData K × List K) :=
  cs.flatMap (fun c => c.eigenvectors.map (fun v => (c, v)))

/-- The agglomerate diagonals sum to the global diagonal at dof `x`. -/
def DiagSums [AddMonoid K] (gdiag : ℕ → K) (cs : List (CopyData K)) (x : ℕ) : Prop :=
  (cs.map (fun c => extend c.dofMap c.diag x)).sum = gdiag x

/-- The local eigenvectors of agglomerate `c`, combined with coefficients `ys`, give the global
vector `w` on the dofs of the agglomerate. -/
def Combines [Semiring K] (w : ℕ → K) (c : CopyData K) (ys : List K) : Prop :=
  ys.length = c.eigenvectors.length ∧
    ∀ x ∈ c.dofMap,
      (List.zipWith (fun y v => y * extend c.dofMap v x) ys c.eigenvectors).sum = w x

end Mfmg
