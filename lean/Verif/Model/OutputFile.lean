import Mathlib.Data.Nat.Log
import Verif.Model.Agglomerate

/-!
# Model of the data written by AMGe::output

/repo/include/mfmg/common/amge.templates.hpp:227-257: every process writes one file with two numbers for every cell.
-/

set_option autoImplicit false

namespace Mfmg

/-- The conversion of an `unsigned int` to `float` (24 binary digits, to nearest, ties to even), which happens in the
assignments to entries of a `dealii::Vector<float>`, /repo/include/mfmg/common/amge.templates.hpp:237 and 245.  All values
are whole numbers. -/
def floatOf (n : ℕ) : ℕ :=
  let s := Nat.log 2 n - 23
  let q := n / 2 ^ s
  let r := n % 2 ^ s
  if s = 0 then n
  else if 2 * r < 2 ^ s then q * 2 ^ s
  else if 2 ^ s < 2 * r then (q + 1) * 2 ^ s
  else (q + q % 2) * 2 ^ s

/-- The loop over the cells that fills `agglomerates`, /repo/include/mfmg/common/amge.templates.hpp:242-247.  An index
beyond the end of the vector is undefined behaviour. -/
def agglomeratesLoop (owned : ℕ → Bool) (u : UserIndex) : List ℕ → ℕ → List ℕ → Outcome (List ℕ)
  | [], _, v => .ok v
  | c :: cells, n, v =>
    if owned c then
      if n < v.length then agglomeratesLoop owned u cells (n + 1) (v.set n (floatOf (u c)))
      else .ub "agglomerates(n)"
    else agglomeratesLoop owned u cells (n + 1) v

/-- The two data vectors of `AMGe::output` on process `rank`, /repo/include/mfmg/common/amge.templates.hpp:233-248:
`subdomain` (the loop at 236-237 writes the same number everywhere) and `agglomerates`.  The cells are `0, 1, …` in the
order of the iteration. -/
def outputData (rank nCells : ℕ) (owned : ℕ → Bool) (u : UserIndex) : Outcome (List ℕ × List ℕ) := do
  let agglomerates ← agglomeratesLoop owned u (List.range nCells) 0 (List.replicate nCells 0)
  pure (List.replicate nCells (floatOf rank), agglomerates)

/-- What is in the file of process `rank`: for the owned cells, the two numbers.  `data_out.build_patches()` and
`write_vtu`, /repo/include/mfmg/common/amge.templates.hpp:250-257, go over the locally owned cells (deal.II).  The geometry
and the encoding of the numbers are not modelled. -/
def outputFile (rank nCells : ℕ) (owned : ℕ → Bool) (u : UserIndex) : Outcome (List (ℕ × ℕ × ℕ)) := do
  let d ← outputData rank nCells owned u
  pure (((List.range nCells).filter owned).map fun c => (c, d.1.getD c 0, d.2.getD c 0))

end Mfmg
