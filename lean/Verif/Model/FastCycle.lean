import Verif.Model.Relaxation
import Verif.Spec.TwoLevel

/-!
# Hierarchies built with `fast_ap`
-/

set_option autoImplicit false

namespace Mfmg

variable {K : Type} [Field K]

/-- What `fast_multiply_transpose` of level `l` returns: the matrix `AP` made together with the restrictor
(/repo/source/dealii/dealii_hierarchy_helpers.cc:323-328).  Only level 0 is used in hierarchies of two levels. -/
def fastProduct {m n : ℕ} (AP : Matrix (Fin n) (Fin m) K) :
    ∀ l, Outcome (Op (Fin (twoLevels n m (l + 1)) → K) (Fin (twoLevels n m l) → K))
  | 0 => .ok (matrixOp AP)
  | _ + 1 => .ok (matrixOp (1 : Matrix (Fin m) (Fin m) K))

/-- The helpers of `DealIIHierarchyHelpers` (/repo/source/dealii/dealii_hierarchy_helpers.cc) for two levels, with
the product made by `fast_ap`. -/
def fastHelpers (debug : Bool) (type : Option (List Char)) {m n : ℕ}
    (procs : ∀ l, List (List (Fin (twoLevels n m l)))) (A : Matrix (Fin n) (Fin n) K)
    (R : Matrix (Fin m) (Fin n) K) (AP : Matrix (Fin n) (Fin m) K)
    (solve : ∀ l, Matrix (Fin (twoLevels n m l)) (Fin (twoLevels n m l)) K → (Fin (twoLevels n m l) → K) →
      Fin (twoLevels n m l) → K) : Helpers (fun l => Fin (twoLevels n m l) → K) :=
  { matrixHelpers debug type (twoLevels n m) procs A (twoLevelRestriction R) solve with
    fastMultiplyTranspose := fastProduct AP }

end Mfmg
