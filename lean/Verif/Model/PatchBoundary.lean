import Mathlib.Logic.Function.Basic
import Mathlib.Data.Nat.Notation

/-!
# Model of the boundary ids of a patch triangulation

`AMGe::build_agglomerate_triangulation`, /repo/include/mfmg/common/amge.templates.hpp:645-698.
-/

set_option autoImplicit false

namespace Mfmg

/-- The faces of a mesh as far as the function uses them: face `f` of a cell, whether a face is on the
boundary, and its boundary id. Used in /repo/include/mfmg/common/amge.templates.hpp:661-673. -/
structure MeshFaces where
  facesPerCell : ℕ
  face : ℕ → ℕ → ℕ
  atBoundary : ℕ → Bool
  boundaryId : ℕ → ℕ

/-- `cell->at_boundary()`: some face of the cell is (deal.II).
Called in /repo/include/mfmg/common/amge.templates.hpp:662. -/
def MeshFaces.cellAtBoundary (m : MeshFaces) (c : ℕ) : Bool :=
  (List.range m.facesPerCell).any fun f => m.atBoundary (m.face c f)

/-- What `GridTools::build_triangulation_from_patch` makes: the map from cells of the patch mesh to cells of
the mesh, in the order of its iteration, and the faces of the cells of the patch mesh.
Called in /repo/include/mfmg/common/amge.templates.hpp:679-680. -/
structure PatchMesh where
  cells : List (ℕ × ℕ)
  face : ℕ → ℕ → ℕ

/-- `boundary_ids[cell].push_back(v)`: a `std::map` ordered by the cell.
/repo/include/mfmg/common/amge.templates.hpp:669-670. -/
def pushBoundary (c : ℕ) (v : ℕ × ℕ) : List (ℕ × List (ℕ × ℕ)) → List (ℕ × List (ℕ × ℕ))
  | [] => [(c, [v])]
  | (d, vs) :: rest =>
    if c = d then (d, vs ++ [v]) :: rest
    else if c < d then (c, [v]) :: (d, vs) :: rest
    else (d, vs) :: pushBoundary c v rest

/-- The loop over the faces of one cell, /repo/include/mfmg/common/amge.templates.hpp:662-673. -/
def cellBoundary (m : MeshFaces) (c : ℕ) (acc : List (ℕ × List (ℕ × ℕ))) :
    List (ℕ × List (ℕ × ℕ)) :=
  if m.cellAtBoundary c then
    (List.range m.facesPerCell).foldl (fun acc f =>
      if m.atBoundary (m.face c f) then pushBoundary c (f, m.boundaryId (m.face c f)) acc else acc) acc
  else acc

/-- The faces on the boundary and their ids, by cell,
/repo/include/mfmg/common/amge.templates.hpp:658-673. -/
def boundaryIds (m : MeshFaces) (agglomerate : List ℕ) : List (ℕ × List (ℕ × ℕ)) :=
  agglomerate.foldl (fun acc c => cellBoundary m c acc) []

/-- `set_boundary_id` for the faces of one cell, /repo/include/mfmg/common/amge.templates.hpp:683-697; cells
that are not in the map are skipped. -/
def setBoundaryIds (p : PatchMesh) (ids : ℕ → ℕ) (b : ℕ × List (ℕ × ℕ)) : ℕ → ℕ :=
  match p.cells.find? (fun e => e.2 == b.1) with
  | none => ids
  | some e => b.2.foldl (fun ids fb => Function.update ids (p.face e.1 fb.1) fb.2) ids

/-- The boundary ids of the faces of the patch mesh after `build_agglomerate_triangulation`,
/repo/include/mfmg/common/amge.templates.hpp:654-697.  A new triangulation has boundary ids 0. -/
def patchBoundaryIds (m : MeshFaces) (p : PatchMesh) (agglomerate : List ℕ) : ℕ → ℕ :=
  (boundaryIds m agglomerate).foldl (setBoundaryIds p) (fun _ => 0)

end Mfmg
