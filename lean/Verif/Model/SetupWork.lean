import Verif.Model.Agglomerate

/-!
# Model of the steps of the set-up

The loops of the set-up that select cells, with their steps counted.  Steps inside deal.II (triangulations of patches,
eigensolvers) are not counted.
-/

set_option autoImplicit false

namespace Mfmg

/-- First overload of `build_agglomerate_triangulation`,
/repo/include/mfmg/common/amge.templates.hpp:161-165: the selected cells, and the number of cells looked at. -/
def scanPatch (u : UserIndex) (id : ℕ) : List ℕ → List ℕ × ℕ
  | [] => ([], 0)
  | c :: cs =>
    let r := scanPatch u id cs
    (if u c = id then c :: r.1 else r.1, r.2 + 1)

/-- The calls of it by the workers of `setup_restrictor`,
/repo/include/mfmg/dealii/amge_host.templates.hpp:498-519 and 598-600 (and by the loop of
/repo/include/mfmg/cuda/amge_device.templates.cuh:383-390 on the device): `ids` are the agglomerates in the order
in which they are taken.  The patches, and the number of cells looked at in all calls. -/
def scanPatches (nCells : ℕ) (u : UserIndex) : List ℕ → List (List ℕ) × ℕ
  | [] => ([], 0)
  | id :: ids =>
    let p := scanPatch u id (List.range nCells)
    let r := scanPatches nCells u ids
    (p.1 :: r.1, p.2 + r.2)

/-- Second overload, /repo/include/mfmg/common/amge.templates.hpp:182-192, used for `fast_ap`
(/repo/source/dealii/dealii_hierarchy_helpers.cc:138-140): the increments of the iterator in the calls of
`std::advance`, which goes from one active cell to the next. -/
def advanceSteps (wide : Bool) (prev : ℕ) : List ℕ → ℕ
  | [] => 0
  | c :: cs => (distance wide c prev).natAbs + advanceSteps wide c cs

/-- The increments for all agglomerates of one kind, /repo/source/dealii/dealii_hierarchy_helpers.cc:117-209. -/
def advanceAll (wide : Bool) : List (List ℕ) → ℕ
  | [] => 0
  | l :: ls => advanceSteps wide 0 l + advanceAll wide ls

/-- The additions of the `std::accumulate`s in the loop of `check_restriction_matrix`,
/repo/include/mfmg/common/utils.hpp:98-104 (debug builds); `i` agglomerates are done, `left` are left. -/
def checkAdditions : (left i : ℕ) → ℕ
  | 0, _ => 0
  | left + 1, i => i + checkAdditions left (i + 1)

/-- The loop over the cells of `build_agglomerates_block`,
/repo/include/mfmg/common/amge.templates.hpp:423-494 as in `blockLoop`, with the steps counted: one for each cell
looked at and at most `nx * ny * nz` for each agglomerate begun (the three loops with these bounds, lines 434-490;
an early `break` makes them shorter). -/
def blockSteps (m : Mesh) (debug : Bool) (dim nx ny nz : ℕ) :
    List ℕ → UserIndex → ℕ → ℕ → Outcome (UserIndex × ℕ × ℕ)
  | [], u, a, n => .ok (u, a, n)
  | c :: cs, u, a, n =>
    if m.owned c && u c == 0 then do
      let u := u.set c a
      let u ← walkZ m debug dim c a nx ny (if dim < 3 then 1 else nz) c u
      blockSteps m debug dim nx ny nz cs u (a + 1) (n + 1 + nx * ny * (if dim < 3 then 1 else nz))
    else blockSteps m debug dim nx ny nz cs u a (n + 1)

end Mfmg
