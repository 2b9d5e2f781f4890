import Verif.Model.ParamTree

/-!
# Specification: what happens to the caller's parameters
-/

set_option autoImplicit false

namespace Mfmg

/-- Two trees read the same at every path. -/
def SameReads (t t' : PForest) : Prop := ∀ path, t'.getChild path = t.getChild path

/-- The full claim of C81: every construction that succeeds leaves every entry of the caller's tree as
it was. -/
def ParametersKept {V : ℕ → Type} (debug timer : Bool) (sc : Scan) (mk : PForest → Helpers V) : Prop :=
  ∀ (t : PForest) (H : Hierarchy V), (construct debug timer sc mk t).1.result = .ok H →
    SameReads t (construct debug timer sc mk t).2

end Mfmg
