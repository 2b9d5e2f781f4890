import Verif.Model.DeviceSetup
import Verif.Spec.DeviceEigen
import Verif.Spec.Restriction

/-!
# Specification: the data collected from the agglomerates
-/

set_option autoImplicit false

namespace Mfmg

variable {K : Type} [Field K] [LinearOrder K]

/-- An agglomerate: its matrix, its dofs, and the order in which the device runs the threads. -/
structure Patch (K : Type) where
  n : ℕ
  a : Matrix (Fin n) (Fin n) K
  dofMap : List ℕ
  descr : Bool
  sched : EigenSchedule

/-- What the device is given. -/
def Patch.dev (p : Patch K) : DevAgg K :=
  { nRows := p.n, nCols := p.n, dense := columnMajor p.a, dofMap := p.dofMap, descr := p.descr,
    sched := p.sched }

/-- An agglomerate with at least `m` dofs, each of them numbered once, and not too large for the indices
of the kernels. -/
structure Patch.Fits (p : Patch K) (m : ℕ) : Prop where
  enough : m ≤ p.n
  small : p.n * p.n < 2 ^ 31
  dofs_length : p.dofMap.length = p.n
  dofs_nodup : p.dofMap.Nodup
  sched_valid : p.sched.Valid m p.n

/-- The right data for an agglomerate: the dofs, the diagonal of its matrix, and `m` eigenvectors of the
smallest eigenvalues. -/
structure Patch.Gives (p : Patch K) (m : ℕ) (c : CopyData K) : Prop where
  dofMap : c.dofMap = p.dofMap
  diag : c.diag = List.ofFn fun i => p.a i i
  count : c.eigenvectors.length = m
  length : ∀ v ∈ c.eigenvectors, v.length = p.n
  smallest : ∃ values, SmallestEigenpairs m p.n p.a values c.eigenvectors.flatten

/-- Only addresses handed out before are in use. -/
def DevHeap.Sound (h : DevHeap) : Prop := ∀ p ∈ h.live, p < h.next

/-- Everything allocated since `h` and not freed. -/
def DevHeap.Leaks (h h' : DevHeap) (leaks : List ℕ) : Prop :=
  h'.live.Perm (leaks ++ h.live) ∧ ∀ p ∈ leaks, h.next ≤ p ∧ p < h'.next

end Mfmg
