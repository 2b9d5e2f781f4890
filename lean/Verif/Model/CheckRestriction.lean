import Verif.Model.Restriction
import Mathlib.Algebra.Order.Field.Basic
import Mathlib.Algebra.Order.Group.Unbundled.Abs

/-!
# Model of the debug check of the restriction matrix

`check_restriction_matrix`, /repo/include/mfmg/common/utils.hpp:81-155, on any number of processes.
Numbers are elements of an ordered field (exact arithmetic).  The vectors are modelled by the function
of their global entries; `compress(add)` adds the contributions of all processes.  A quotient by zero
is not a finite number; neither is a sum with such a summand (`none`), and every comparison of it with
the tolerance is false.
-/

set_option autoImplicit false

namespace Mfmg

section

variable {K : Type} [Field K] [LinearOrder K]

/-- Loops over the elements of one agglomerate, /repo/include/mfmg/common/utils.hpp:105-109 and 131-137:
`n` is the number of elements still to come, `step` adds one entry. -/
def checkElems {S : Type} (step : S → ℕ → K → S) (s : Collected K) (i : ℕ) :
    ℕ → ℕ → S → Outcome S
  | 0, _, a => .ok a
  | n + 1, j, a => do
    let dofs ← Outcome.get s.dofMaps i "dof_indices_maps[i]"
    let c ← Outcome.get dofs j "dof_indices_maps[i][j]"
    let diag ← Outcome.get s.diag i "diag_elements[i]"
    let d ← Outcome.get diag j "diag_elements[i][j]"
    checkElems step s i n (j + 1) (step a c d)

/-- First loop over the agglomerates `i, i+1, …` of a process,
/repo/include/mfmg/common/utils.hpp:97-110. -/
def diagLoop (s : Collected K) : List ℕ → ℕ → (ℕ → K) → Outcome (ℕ → K)
  | [], _, a => .ok a
  | _ :: ns, i, a => do
    let ev ← Outcome.get s.eigenvectors (s.nLocal.take i).sum "eigenvectors[offset]"
    let a ← checkElems (fun a c d => fun x => if x = c then a x + d else a x) s i ev.length 0 a
    diagLoop s ns (i + 1) a

/-- `weight_matrix.add(p, p, d / diag[p])`, /repo/include/mfmg/common/utils.hpp:134-136. -/
def addWeight (gdiag : ℕ → K) (w : ℕ → Option K) (c : ℕ) (d : K) : ℕ → Option K :=
  fun x => if x = c then
    (if gdiag c = 0 then none else (w x).map (· + d / gdiag c)) else w x

/-- Second loop over the agglomerates, /repo/include/mfmg/common/utils.hpp:127-139. -/
def weightLoop (gdiag : ℕ → K) (s : Collected K) :
    List ℕ → ℕ → ℕ → (ℕ → Option K) → Outcome (ℕ → Option K)
  | [], _, _, w => .ok w
  | n :: ns, i, pos, w => do
    let ev ← Outcome.get s.eigenvectors pos "eigenvectors[pos]"
    let w ← checkElems (addWeight gdiag) s i ev.length 0 w
    weightLoop gdiag s ns (i + 1) (pos + n) w

/-- The processes one after the other.
The sums over the processes are made by `compress`, /repo/include/mfmg/common/utils.hpp:111 and 142. -/
def eachRank {S : Type} (f : Collected K → S → Outcome S) : List (Collected K) → S → Outcome S
  | [], a => .ok a
  | s :: ss, a => do
    let a ← f s a
    eachRank f ss a

/-- `linfty_norm()` of a vector with `N` entries. /repo/include/mfmg/common/utils.hpp:113-114. -/
def linfty (N : ℕ) (v : ℕ → K) : K := (List.range N).foldl (fun m x => max m |v x|) 0

/-- `std::abs(weight_matrix.diag_element(index) - 1.0) < 1e-14`,
/repo/include/mfmg/common/utils.hpp:144-146. -/
def weightIsOne (tol : K) : Option K → Bool
  | some v => decide (|v - 1| < tol)
  | none => false

/-- `check_restriction_matrix`, /repo/include/mfmg/common/utils.hpp:81-155.  `N` is the number of global
dofs, `gdiag` the global diagonal, `tol` is `1e-14`, `ss` the arguments of the processes. -/
def checkRestriction (debug : Bool) (tol : K) (N : ℕ) (gdiag : ℕ → K) (ss : List (Collected K)) :
    Outcome Unit :=
  if debug then do
    -- lines 95-115
    let d ← eachRank (fun s a => diagLoop s s.nLocal 0 a) ss (fun _ => 0)
    let den := linfty N gdiag
    Outcome.assert debug
      (decide (den ≠ 0) && decide (linfty N (fun x => d x - gdiag x) / den < tol))
    -- lines 117-146
    let w ← eachRank (fun s w => weightLoop gdiag s s.nLocal 0 0 w) ss (fun _ => some 0)
    (List.range N).forM fun x =>
      Outcome.assert debug (weightIsOne tol (w x))
  else .ok ()

end

end Mfmg
