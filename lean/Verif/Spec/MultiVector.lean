import Verif.Model.MultiVector

/-!
# Specification: multivectors
-/

set_option autoImplicit false

namespace Mfmg

variable {K : Type} [Field K]

/-- Component `p` of vector `i` of `mv`. -/
def Heap.entry (h : Heap K) (mv : MV) (i p : ℕ) : K := (h.mem (mv.getD i 0)).getD p 0

/-- All vectors of `mv` have `n` components. -/
def Heap.Uniform (h : Heap K) (mv : MV) (n : ℕ) : Prop := ∀ a ∈ mv, (h.mem a).length = n

/-- The two multivectors have no vector in common. -/
def Apart (A B : MV) : Prop := ∀ a ∈ A, a ∉ B

/-- `h'` differs from `h` in the vectors of `mv` at most. -/
def OnlyChanges (h h' : Heap K) (mv : MV) : Prop :=
  h'.next = h.next ∧ ∀ a, a ∉ mv → h'.mem a = h.mem a

end Mfmg
