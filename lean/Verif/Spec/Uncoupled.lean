import Verif.Spec.Prescribed

/-!
# Specification: problems with parts that are not coupled

`Separates` and `AgreeOn` are those of C110.
-/

set_option autoImplicit false

namespace Mfmg

/-- The two matrices are the same in the part with the rows `S` and the columns `T`. -/
def SamePart {K : Type} {m n : ℕ} (S : Set (Fin m)) (T : Set (Fin n)) (M M' : Matrix (Fin m) (Fin n) K) : Prop :=
  ∀ i ∈ S, ∀ j ∈ T, M i j = M' i j

end Mfmg
