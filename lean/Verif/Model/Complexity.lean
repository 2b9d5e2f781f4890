import Verif.Model.Hierarchy
import Mathlib.Data.Rat.Defs

/-!
# Reported complexities
-/

set_option autoImplicit false

namespace Mfmg

/-- `Hierarchy::grid_complexity`, /repo/include/mfmg/common/hierarchy.hpp:311-339: the computation is commented out. -/
def Hierarchy.gridComplexity {V : ℕ → Type} (_ : Hierarchy V) : ℚ := 0

/-- `Hierarchy::operator_complexity`, /repo/include/mfmg/common/hierarchy.hpp:341-366: the computation is commented out. -/
def Hierarchy.operatorComplexity {V : ℕ → Type} (_ : Hierarchy V) : ℚ := 0

end Mfmg
