import Verif.Model.Basic
import Mathlib.Data.Nat.Notation
import Mathlib.Data.Int.Notation
import Mathlib.Logic.Function.Basic

/-!
# Model of the agglomeration part of `mfmg::AMGe`
(/repo/include/mfmg/common/amge.templates.hpp)

A mesh is reduced to what the code reads of it.  Cells are numbered `0, 1, …` in the order of
`active_cell_iterators()` (this is also deal.II's `active_cell_index`).  User indices are a function
from cells to `ℕ` (32-bit overflow of the agglomerate counter is not modelled).
-/

set_option autoImplicit false

namespace Mfmg

/-- Faces used by the block partitioner: `x_p = 1`, `y_p = 3`, `z_p = 5`,
/repo/include/mfmg/common/amge.templates.hpp:416-420. -/
inductive Dir where
  | xp | yp | zp
  deriving DecidableEq, Repr

/-- What the block partitioner sees of the triangulation.
/repo/include/mfmg/common/amge.templates.hpp:424-482. -/
structure Mesh where
  /-- number of active cells -/
  nCells : ℕ
  /-- `cell->is_locally_owned()` -/
  owned : ℕ → Bool
  /-- `cell->neighbor(face)`; `none` when `cell->at_boundary(face)` -/
  nbr : Dir → ℕ → Option ℕ
  /-- debug check lines 449-451: second cell is active and on the level of the first -/
  sameLevel : ℕ → ℕ → Bool

/-- The `user_index` of the cells. /repo/include/mfmg/common/amge.templates.hpp:426, 431, 442. -/
abbrev UserIndex := ℕ → ℕ

/-- `cell->set_user_index(a)`. /repo/include/mfmg/common/amge.templates.hpp:431 and 442. -/
def UserIndex.set (u : UserIndex) (c a : ℕ) : UserIndex := Function.update u c a

/-- The innermost loop of `build_agglomerates_block`,
/repo/include/mfmg/common/amge.templates.hpp:440-458, `n` iterations left.  `c0` is the start cell
of the agglomerate, `c` is `current_cell`, `a` the agglomerate id. -/
def walkX (m : Mesh) (debug : Bool) (c0 a : ℕ) : (n : ℕ) → (c : ℕ) → UserIndex → Outcome UserIndex
  | 0, _, u => .ok u
  | n + 1, c, u =>
    let u := u.set c a
    match m.nbr .xp c with
    | none => .ok u
    | some c' =>
      if debug && !m.sameLevel c0 c' then .throws "Mesh locally refined"
      else walkX m debug c0 a n (if m.owned c' then c' else c) u

/-- The middle loop, /repo/include/mfmg/common/amge.templates.hpp:437-474. -/
def walkY (m : Mesh) (debug : Bool) (c0 a nx : ℕ) :
    (n : ℕ) → (c : ℕ) → UserIndex → Outcome UserIndex
  | 0, _, u => .ok u
  | n + 1, c, u => do
    let u ← walkX m debug c0 a nx c u
    match m.nbr .yp c with
    | none => .ok u
    | some c' =>
      if m.owned c' then
        if debug && !m.sameLevel c0 c' then .throws "Mesh locally refined"
        else walkY m debug c0 a nx n c' u
      else walkY m debug c0 a nx n c u

/-- The outer loop, /repo/include/mfmg/common/amge.templates.hpp:434-490.  In two dimensions the
`else break` of line 488 is taken after the first iteration. -/
def walkZ (m : Mesh) (debug : Bool) (dim c0 a nx ny : ℕ) :
    (n : ℕ) → (c : ℕ) → UserIndex → Outcome UserIndex
  | 0, _, u => .ok u
  | n + 1, c, u => do
    let u ← walkY m debug c0 a nx ny c u
    if dim = 3 then
      match m.nbr .zp c with
      | none => .ok u
      | some c' =>
        if m.owned c' then
          if debug && !m.sameLevel c0 c' then .throws "Mesh locally refined"
          else walkZ m debug dim c0 a nx ny n c' u
        else walkZ m debug dim c0 a nx ny n c u
    else .ok u

/-- The loop over cells, /repo/include/mfmg/common/amge.templates.hpp:423-494: `a` is the next
agglomerate id, returned with the user indices. -/
def blockLoop (m : Mesh) (debug : Bool) (dim nx ny nz : ℕ) :
    List ℕ → UserIndex → ℕ → Outcome (UserIndex × ℕ)
  | [], u, a => .ok (u, a)
  | c :: cs, u, a =>
    if m.owned c && u c == 0 then do
      let u := u.set c a
      let u ← walkZ m debug dim c a nx ny (if dim < 3 then 1 else nz) c u
      blockLoop m debug dim nx ny nz cs u (a + 1)
    else blockLoop m debug dim nx ny nz cs u a

/-- `build_agglomerates_block`, /repo/include/mfmg/common/amge.templates.hpp:412-499: new user
indices and the number of agglomerates returned. -/
def buildAgglomeratesBlock (m : Mesh) (debug : Bool) (dim nx ny nz : ℕ) (u : UserIndex) :
    Outcome (UserIndex × ℕ) := do
  let (u, a) ← blockLoop m debug dim nx ny nz (List.range m.nCells) u 1
  pure (u, a - 1)

/-! ## Graph partitioners -/

/-- What the graph-partitioner path sees of the mesh.
/repo/include/mfmg/common/amge.templates.hpp:520-549. -/
structure GraphMesh where
  nCells : ℕ
  owned : ℕ → Bool
  /-- `(cell->level(), cell->index())` -/
  key : ℕ → ℕ × ℕ
  /-- faces not at the boundary with the neighbour behind them:
      (neighbour is owned, neighbour has children, its key) -/
  faces : ℕ → List (Bool × Bool × (ℕ × ℕ))

/-- `index_map`, /repo/include/mfmg/common/amge.templates.hpp:517-527. -/
def buildIndexMap (m : GraphMesh) : List ℕ → (ℕ × ℕ → Option ℕ) → ℕ → (ℕ × ℕ → Option ℕ)
  | [], im, _ => im
  | c :: cs, im, i =>
    if m.owned c then buildIndexMap m cs (Function.update im (m.key c) (some i)) (i + 1)
    else buildIndexMap m cs im i

/-- The numbers given to the active cells, in the order of the loop.
/repo/include/mfmg/common/amge.templates.hpp:517-527. -/
@[inherit_doc buildIndexMap]
def indexMap (m : GraphMesh) : ℕ × ℕ → Option ℕ :=
  buildIndexMap m (List.range m.nCells) (fun _ => none) 0

/-- `index_map.at(k)`: throws for a missing key.
/repo/include/mfmg/common/amge.templates.hpp:535, 544, 577. -/
def mapAt (im : ℕ × ℕ → Option ℕ) (k : ℕ × ℕ) : Outcome ℕ :=
  match im k with
  | some i => .ok i
  | none => .throws "std::out_of_range"

/-- Inner loop of the graph construction, /repo/include/mfmg/common/amge.templates.hpp:537-549.
The sparsity pattern is a list of added positions. -/
def addFaces (im : ℕ × ℕ → Option ℕ) (i : ℕ) :
    List (Bool × Bool × (ℕ × ℕ)) → List (ℕ × ℕ) → Outcome (List (ℕ × ℕ))
  | [], es => .ok es
  | (own, children, k) :: fs, es =>
    if own && !children then do
      let j ← mapAt im k
      addFaces im i fs ((j, i) :: (i, j) :: es)
    else addFaces im i fs es

/-- Graph construction, /repo/include/mfmg/common/amge.templates.hpp:529-551. -/
def buildGraph (m : GraphMesh) (im : ℕ × ℕ → Option ℕ) :
    List ℕ → List (ℕ × ℕ) → Outcome (List (ℕ × ℕ))
  | [], es => .ok es
  | c :: cs, es =>
    if m.owned c then do
      let i ← mapAt im (m.key c)
      let es ← addFaces im i (m.faces c) ((i, i) :: es)
      buildGraph m im cs es
    else buildGraph m im cs es

/-- The renumbering loop, /repo/include/mfmg/common/amge.templates.hpp:570-589.  `ren` is
`agglomerate_renumbering`, `n` is `n_zoltan_agglomerates`, `part` are `partition_indices`
(a vector of `n_active_cells` entries; other indices are out of range). -/
def renumber (m : GraphMesh) (im : ℕ × ℕ → Option ℕ) (part : List ℕ) :
    List ℕ → UserIndex → (ℕ → Option ℕ) → ℕ → Outcome (UserIndex × ℕ)
  | [], u, _, n => .ok (u, n)
  | c :: cs, u, ren, n =>
    if m.owned c then do
      let i ← mapAt im (m.key c)
      let p ← Outcome.get part i "partition_indices out of range"
      match ren p with
      | none => renumber m im part cs (u.set c (n + 1)) (Function.update ren p (some (n + 1))) (n + 1)
      | some a => renumber m im part cs (u.set c a) ren n
    else renumber m im part cs u ren n

/-- `build_agglomerates_partitioner`, /repo/include/mfmg/common/amge.templates.hpp:501-594.
The external partitioner (`SparsityTools::partition`, Zoltan or METIS) is the parameter
`partition`: from the graph and the number of parts to one part per position of the vector. -/
def buildAgglomeratesPartitioner (m : GraphMesh) (partition : List (ℕ × ℕ) → ℕ → List ℕ)
    (nDesired : ℕ) (u : UserIndex) : Outcome (UserIndex × ℕ) := do
  let im := indexMap m
  let graph ← buildGraph m im (List.range m.nCells) []
  let part := partition graph nDesired
  renumber m im part (List.range m.nCells) u (fun _ => none) 0

/-! ## Boundary and halo agglomerates -/

/-- `std::set<unsigned int>::insert`, the set being listed in iteration order.
/repo/include/mfmg/common/amge.templates.hpp:103 and 140. -/
def setInsert (a : ℕ) : List ℕ → List ℕ
  | [] => [a]
  | b :: l => if a < b then a :: b :: l else if a = b then b :: l else b :: setInsert a l

/-- First loop of `build_boundary_agglomerates`,
/repo/include/mfmg/common/amge.templates.hpp:95-104.  `user_index - 1` is unsigned, so index 0 wraps
to an out-of-range position, as is any index larger than `_n_agglomerates`. -/
def collectCells (owned : ℕ → Bool) (u : UserIndex) :
    List ℕ → List (List ℕ) → Outcome (List (List ℕ))
  | [], s => .ok s
  | c :: cs, s =>
    if owned c then
      if u c = 0 then .ub "agg_cell_set[-1]" else
      match s[u c - 1]? with
      | none => .ub "agg_cell_set out of range"
      | some set => collectCells owned u cs (s.set (u c - 1) (setInsert c set))
    else collectCells owned u cs s

/-- Innermost loop, /repo/include/mfmg/common/amge.templates.hpp:124-142, over the vertex neighbours
of the agglomerate cell `c`; state: interior list, halo set, `cell_in_agg`. -/
def boundaryCell (agg : List ℕ) (c : ℕ) :
    List ℕ → List ℕ × List ℕ × Bool → List ℕ × List ℕ × Bool
  | [], s => s
  | d :: ds, (int, halo, flag) =>
    if agg.contains d = false then
      boundaryCell agg c ds (if flag = false then int ++ [c] else int, setInsert d halo, true)
    else boundaryCell agg c ds (int, halo, flag)

/-- Loop over the cells of one agglomerate, /repo/include/mfmg/common/amge.templates.hpp:120-143. -/
def boundaryAgg (conn : ℕ → List ℕ) (agg : List ℕ) :
    List ℕ → List ℕ × List ℕ → List ℕ × List ℕ
  | [], s => s
  | c :: cs, (int, halo) =>
    let r := boundaryCell agg c (conn c) (int, halo, false)
    boundaryAgg conn agg cs (r.1, r.2.1)

/-- `build_boundary_agglomerates`, /repo/include/mfmg/common/amge.templates.hpp:87-151.
`conn c` is the row of the vertex connectivity of active cells (deal.II
`GridTools::get_vertex_connectivity_of_cells`). -/
def buildBoundaryAgglomerates (nCells : ℕ) (owned : ℕ → Bool) (u : UserIndex) (nAgg : ℕ)
    (conn : ℕ → List ℕ) : Outcome (List (List ℕ) × List (List ℕ)) := do
  let sets ← collectCells owned u (List.range nCells) (List.replicate nAgg [])
  let r := sets.map (fun agg => boundaryAgg conn agg agg ([], []))
  pure (r.map Prod.fst, r.map Prod.snd)

/-! ## Selecting the cells of a patch -/

/-- First overload, /repo/include/mfmg/common/amge.templates.hpp:161-165. -/
def patchCellsById (nCells : ℕ) (u : UserIndex) (id : ℕ) : List ℕ :=
  (List.range nCells).filter (fun c => u c = id)

/-- `std::advance(cell, d)` from position `pos` of `nCells` cells, where the unsigned distance has
already been converted to the iterator's difference type.  Landing outside the mesh (the
past-the-end iterator is not a cell that may be stored and used) is undefined behaviour.
/repo/include/mfmg/common/amge.templates.hpp:185 and 190. -/
def advance (nCells : ℕ) (pos d : ℤ) : Outcome ℤ :=
  if 0 ≤ pos + d ∧ pos + d < nCells then .ok (pos + d) else .ub "iterator outside the mesh"

/-- `cell_index[i] - cell_index[i - 1]` in `unsigned int`, converted to the difference type of the
iterator: `wide` = 64 bits (`ptrdiff_t`), otherwise a 32-bit `int`.
/repo/include/mfmg/common/amge.templates.hpp:190. -/
def distance (wide : Bool) (a b : ℕ) : ℤ :=
  let d : ℤ := ((a : ℤ) - b) % 2 ^ 32
  if wide then d else if d < 2 ^ 31 then d else d - 2 ^ 32

/-- Loop of the second overload, /repo/include/mfmg/common/amge.templates.hpp:188-192. -/
def advanceLoop (wide : Bool) (nCells : ℕ) :
    (prev : ℕ) → (pos : ℤ) → List ℕ → List ℕ → Outcome (List ℕ)
  | _, _, [], acc => .ok acc
  | prev, pos, c :: cs, acc => do
    let pos ← advance nCells pos (distance wide c prev)
    advanceLoop wide nCells c pos cs (acc ++ [pos.toNat])

/-- Second overload, /repo/include/mfmg/common/amge.templates.hpp:179-193: positions of the selected
cells. -/
def patchCellsByIndex (wide : Bool) (nCells : ℕ) : List ℕ → Outcome (List ℕ)
  | [] => .ok []
  | c :: cs => do
    let pos ← advance nCells 0 (distance wide c 0)
    advanceLoop wide nCells c pos cs [pos.toNat]

/-! ## Dof map -/

/-- Inner loop of `compute_dof_index_map`, /repo/include/mfmg/common/amge.templates.hpp:220-221:
`dof_indices[agg[i]] = glob[i]`, out of range being undefined. -/
def writeDofs : List ℕ → List ℕ → List ℕ → Outcome (List ℕ)
  | a :: as, g :: gs, m =>
    if a < m.length then writeDofs as gs (m.set a g) else .ub "dof_indices out of range"
  | _, _, m => .ok m

/-- Loop over patch cells, /repo/include/mfmg/common/amge.templates.hpp:215-222.  A patch cell is
given by its local dof indices and those of the global cell it maps to (`none` when
`patch_to_global_map.at` throws). -/
def dofLoop : List (List ℕ × Option (List ℕ)) → List ℕ → Outcome (List ℕ)
  | [], m => .ok m
  | (_, none) :: _, _ => .throws "std::out_of_range"
  | (a, some g) :: cs, m => do
    let m ← writeDofs a g m
    dofLoop cs m

/-- `compute_dof_index_map`, /repo/include/mfmg/common/amge.templates.hpp:199-225 (the vector is
zero-initialised, line 207). -/
def computeDofIndexMap (nDofs : ℕ) (cells : List (List ℕ × Option (List ℕ))) :
    Outcome (List ℕ) := dofLoop cells (List.replicate nDofs 0)

/-! ## Output and dispatch -/

/-- File names in the master record written by `AMGe::output`,
/repo/include/mfmg/common/amge.templates.hpp:263-265 (entry 0 is written in every iteration). -/
def outputLoop (filename : String) : List ℕ → List String → List String
  | [], v => v
  | i :: is, v => outputLoop filename is (v.set 0 (filename ++ toString i ++ ".vtu"))

/-- The piece files listed in the record. /repo/include/mfmg/common/amge.templates.hpp:263-265. -/
@[inherit_doc outputLoop]
def pvtuRecord (filename : String) (commSize : ℕ) : List String :=
  outputLoop filename (List.range commSize) (List.replicate commSize "")

/-- Name of the piece written by process `rank`,
/repo/include/mfmg/common/amge.templates.hpp:252-256 (subdomain id = rank). -/
def pieceName (filename : String) (rank : ℕ) : String := filename ++ toString rank ++ ".vtu"

/-- Agglomeration parameters read by `build_agglomerates`; `none` = key missing or value not
convertible, for which `ptree::get` throws. /repo/include/mfmg/common/amge.templates.hpp:55, 65, 73-76. -/
structure AggParams where
  partitioner : Option String
  nAgglomerates : Option ℕ
  nx : Option ℕ
  ny : Option ℕ
  nz : Option ℕ

/-- `ptree.get<T>(key)`: throws when the key is missing or not convertible.
/repo/include/mfmg/common/amge.templates.hpp:55, 65, 73-76. -/
def ptreeGet {α : Type} (x : Option α) : Outcome α :=
  match x with
  | some a => .ok a
  | none => .throws "ptree_bad_path"

/-- Outcome of the parameter part of `build_agglomerates`: which algorithm is run, and with which
arguments. /repo/include/mfmg/common/amge.templates.hpp:58-79. -/
inductive Strategy where
  | graph (name : String) (nDesired : ℕ)
  | block (nx ny nz : ℕ)
  deriving DecidableEq, Repr

/-- `build_agglomerates`, /repo/include/mfmg/common/amge.templates.hpp:55-84, up to the call of the
algorithm.  `::tolower` is modelled by `Char.toLower` (ASCII).  `nz` is not read in two dimensions
(reported as 1).  The re-seeding of Zoltan's random numbers is not modelled. -/
def dispatch (dim : ℕ) (p : AggParams) : Outcome Strategy := do
  let s ← ptreeGet p.partitioner
  let t := String.ofList (s.toList.map Char.toLower)
  if t = "zoltan" ∨ t = "metis" then do
    let n ← ptreeGet p.nAgglomerates
    pure (.graph t n)
  else if t = "block" then do
    let nx ← ptreeGet p.nx
    let ny ← ptreeGet p.ny
    if dim = 3 then do
      let nz ← ptreeGet p.nz
      pure (.block nx ny nz)
    else pure (.block nx ny 1)
  else .throws (t ++ " is not a valid choice for the partitioner. The " ++
    "acceptable values are zoltan, metis, and block.")

/-- `build_agglomerates`, /repo/include/mfmg/common/amge.templates.hpp:51-85, on the mutable state
`S` (user flags of the mesh and `_n_agglomerates`), which survives an exception.  The algorithms are
parameters here so that the statement covers their own failures too. -/
def buildAgglomerates {S : Type} (dim : ℕ) (graphAlg : String → ℕ → S → S × Outcome ℕ)
    (blockAlg : ℕ → ℕ → ℕ → S → S × Outcome ℕ) (p : AggParams) (s : S) : S × Outcome ℕ :=
  match dispatch dim p with
  | .ok (.graph name n) => graphAlg name n s
  | .ok (.block nx ny nz) => blockAlg nx ny nz s
  | .throws m => (s, .throws m)
  | .aborted => (s, .aborted)
  | .ub w => (s, .ub w)

end Mfmg
