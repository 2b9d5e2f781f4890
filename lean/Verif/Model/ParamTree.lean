import Verif.Model.Hierarchy
import Verif.Model.Params

/-!
# Model of the user's parameter tree during the set-up

The constructor of `Hierarchy` gets a `std::shared_ptr` to the user's `boost::property_tree::ptree`,
reads entries by path and, for a hierarchy with one level, writes one entry
(/repo/include/mfmg/common/hierarchy.hpp:159-236).  `DealIISolver` reads the subtree `coarse.params`
(/repo/source/dealii/dealii_solver.cc:48-67).
-/

set_option autoImplicit false

namespace Mfmg

/-- `string_path::reduce`, applied until the path is used up: the keys of a path, which are separated
by `.`.
Boost; paths as in /repo/include/mfmg/common/hierarchy.hpp:189 and
/repo/source/dealii/dealii_solver.cc:52. -/
def splitDots : List Char → List (List Char)
  | [] => [[]]
  | c :: cs =>
    if c = '.' then [] :: splitDots cs
    else match splitDots cs with
      | [] => [[c]]
      | k :: ks => (c :: k) :: ks

/-- `ptree::find`: data and children of the first child with the key.
Boost. Behind the reads of /repo/include/mfmg/common/hierarchy.hpp:168-172 and 215. -/
def PForest.find (k : List Char) : PForest → Option (List Char × PForest)
  | .nil => none
  | .cons key data sub rest => if key = k then some (data, sub) else rest.find k

/-- `ptree::walk_path`, behind `get_child_optional` and `get_optional`: each key of the path selects
the first child with that key.  The empty path (the tree itself) is not used by mfmg and gives
`none`. Boost. Behind the reads of /repo/include/mfmg/common/hierarchy.hpp:168-172 and 215. -/
def PForest.walk : List (List Char) → PForest → Option (List Char × PForest)
  | [], _ => none
  | [k], t => t.find k
  | k :: k' :: ks, t =>
    match t.find k with
    | none => none
    | some (_, sub) => PForest.walk (k' :: ks) sub

/-- `get_child_optional(path)`. Called in /repo/source/dealii/dealii_solver.cc:52. -/
def PForest.getChild (t : PForest) (path : List Char) : Option (List Char × PForest) :=
  t.walk (splitDots path)

/-- Changes data and children of the first child with the key; if there is none, a new child with
empty data is appended first (`push_back` in `ptree::force_path` and `put_child`).
Behind the `put` of /repo/include/mfmg/common/hierarchy.hpp:189. -/
def PForest.modify (k : List Char) (f : List Char × PForest → List Char × PForest) :
    PForest → PForest
  | .nil => .cons k (f ([], .nil)).1 (f ([], .nil)).2 .nil
  | .cons key data sub rest =>
    if key = k then .cons key (f (data, sub)).1 (f (data, sub)).2 rest
    else .cons key data sub (rest.modify k f)

/-- `ptree::put(path, value)`: writes the data of the node at the path, keeping its children; nodes
missing on the way are created with empty data.  (Boost looks for the node first and calls
`put_child` if there is none; one recursion does both.).
The `put` of /repo/include/mfmg/common/hierarchy.hpp:189. -/
def PForest.putAt : List (List Char) → List Char → PForest → PForest
  | [], _, t => t
  | [k], v, t => t.modify k (fun n => (v, n.2))
  | k :: k' :: ks, v, t => t.modify k (fun n => (n.1, PForest.putAt (k' :: ks) v n.2))

/-- `ptree::put` with the path as text, /repo/include/mfmg/common/hierarchy.hpp:189. -/
def PForest.put (t : PForest) (path v : List Char) : PForest := t.putAt (splitDots path) v

/-- A `bool` as text: Boost's stream translator sets `std::ios_base::boolalpha`.
The value written in /repo/include/mfmg/common/hierarchy.hpp:189. -/
def boolText (b : Bool) : List Char := if b then chars! "true" else chars! "false"

/-- `get_value_optional<int>` and `get_value_optional<bool>`: the converted value, if the text can be
converted. Behind the reads of /repo/include/mfmg/common/hierarchy.hpp:168-172 and 215. -/
structure Scan where
  int : List Char → Option ℤ
  bool : List Char → Option Bool

/-- `get_optional<T>(path)`; `get(path, default)` is this with `getD default`.
Behind the reads of /repo/include/mfmg/common/hierarchy.hpp:168-172 and 215. -/
def PForest.getWith {α : Type} (t : PForest) (conv : List Char → Option α) (path : List Char) :
    Option α :=
  match t.getChild path with
  | none => none
  | some n => conv n.1

/-- The path of line 189 of /repo/include/mfmg/common/hierarchy.hpp. -/
def flagPath : List Char := chars! "coarse.params.zero starting solution"

/-- The entries read by the constructor, /repo/include/mfmg/common/hierarchy.hpp:168-172 and 215. -/
def treeParams (sc : Scan) (t : PForest) : Params where
  isPreconditioner := t.getWith sc.bool (chars! "is preconditioner")
  nSmoothingSteps := t.getWith sc.int (chars! "smoother.n_smoothing_steps")
  maxLevels := t.getWith sc.int (chars! "max levels")
  fastAp := t.getWith sc.bool (chars! "fast_ap")
  zeroStartingSolution := t.getWith sc.bool flagPath

/-- The effect of an event on the tree: `params->put`,
/repo/include/mfmg/common/hierarchy.hpp:186-191. -/
def Event.onTree (t : PForest) : Event → PForest
  | .put v => t.put flagPath (boolText v)
  | _ => t

/-- The helpers get the tree.  All of them see the tree as it was, except the solver for a hierarchy
with one level, which is built after `params->put`
(/repo/include/mfmg/common/hierarchy.hpp:186-194). -/
def treeHelpers {V : ℕ → Type} (mk : PForest → Helpers V) (t : PForest) : Helpers V :=
  { mk t with
    buildCoarseSolver := fun l a p =>
      (mk (if l = 0 then t.put flagPath (boolText (p.isPreconditioner.getD true)) else t)
        ).buildCoarseSolver l a p }

/-- The constructor of `Hierarchy`, /repo/include/mfmg/common/hierarchy.hpp:159-236, with the tree it
leaves behind. -/
def construct {V : ℕ → Type} (debug timer : Bool) (sc : Scan) (mk : PForest → Helpers V)
    (t : PForest) : Run (Hierarchy V) × PForest :=
  let r := buildHierarchy debug timer (some (treeParams sc t)) (.ok (treeHelpers mk t))
  (r, r.trace.foldl Event.onTree t)

/-- The parameters ML is initialised with if the solver is built from the tree,
/repo/source/dealii/dealii_solver.cc:50-66. -/
def coarseMl (rd : Readers) (defaults : PList) (t : PForest) : Option PList :=
  mlParameters rd defaults ((t.getChild (chars! "coarse.params")).map Prod.snd)

end Mfmg
