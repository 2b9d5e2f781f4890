import Verif.Model.DeviceNnz

/-!
# Specification: the number of nonzeros of distributed matrices
-/

set_option autoImplicit false

namespace Mfmg

/-- The matrices that exist after a history, as their numbers of entries on all ranks; `none` for a matrix
that was never given any content. -/
def idealNnzStep (s : List (Option RankCounts)) : NnzCall → List (Option RankCounts)
  | .default => s ++ [none]
  | .construct counts => s ++ [some counts]
  | .move i => match s[i]? with
    | some o => s.set i (some fun _ => 0) ++ [o]
    | none => s
  | .copy i => match s[i]? with
    | some o => s ++ [o]
    | none => s
  | .assign i j => match s[j]? with
    | some o => (s.set i o).set j (some fun _ => 0)
    | none => s
  | .reinit i counts => s.set i (some counts)
  | .product i counts => s.set i (some counts)

def idealNnz (calls : List NnzCall) : List (Option RankCounts) := calls.foldl idealNnzStep []

/-- The number of nonzeros of a matrix on `np` processes. -/
def globalNnz (np : ℕ) (counts : RankCounts) : ℕ := ((List.range np).map counts).sum

end Mfmg
