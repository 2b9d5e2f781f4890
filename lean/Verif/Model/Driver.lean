import Verif.Model.ParamTree

/-!
# Model of the program hierarchy_driver

/repo/tests/hierarchy_driver.cc reads a parameter file, changes some of the parameters, and runs one problem.
This file models `main` up to the choice of the problem: which parameters the hierarchy gets, and which of the
instances of `matrix_free_two_grids` and `matrix_based_two_grids` is called.
-/

set_option autoImplicit false

namespace Mfmg

/-- The options given on the command line, /repo/tests/hierarchy_driver.cc:222-241.  The tolerance is kept as the
text that `put` makes of the number.  Simplification: a command line `boost::program_options` rejects ends the
program before anything else and is not modelled. -/
structure DriverOptions where
  help : Bool := false
  dim : Option ℤ := none
  matrixFree : Option Bool := none
  tolerance : Option (List Char) := none
  deriving DecidableEq, Repr

/-- `ptree::put_child(path, tree)`: data and children of the node at the path are replaced.
Called in /repo/tests/hierarchy_driver.cc:265. -/
def PForest.putChildAt : List (List Char) → List Char × PForest → PForest → PForest
  | [], _, t => t
  | [k], v, t => t.modify k (fun _ => v)
  | k :: k' :: ks, v, t => t.modify k (fun n => (n.1, PForest.putChildAt (k' :: ks) v n.2))

/-- The loop over the entries of `hidden`, /repo/tests/hierarchy_driver.cc:262-266.  The key of an entry is used as
a path.  A path that leads into `hidden` changes the container the loop runs over, which is undefined.
(Simplification: for a path `hidden.x` with a new key `x` the standard allows it.) -/
def uncoverLoop : PForest → PForest → Outcome PForest
  | .nil, t => .ok t
  | .cons key data sub rest, t =>
    if (splitDots key).head? = some (chars! "hidden") then .ub "container changed while the loop runs over it"
    else uncoverLoop rest (t.putChildAt (splitDots key) (data, sub))

/-- /repo/tests/hierarchy_driver.cc:259-267. -/
def uncover (sc : Scan) (matrixFree : Bool) (t : PForest) : Outcome PForest :=
  if !matrixFree && (t.getWith sc.bool (chars! "use_raw_ml")).getD false then
    match t.getChild (chars! "hidden") with
    | none => .throws "ptree_bad_path"
    | some n => uncoverLoop n.2 t
  else .ok t

/-- /repo/tests/hierarchy_driver.cc:270-279: entries that `main` sets. -/
def driverPuts (o : DriverOptions) (t : PForest) : PForest :=
  (((t.put (chars! "fast_ap") (boolText true)).put (chars! "eigensolver.type") (chars! "anasazi")).put
    (chars! "eigensolver.tolerance") (chars! "0.001")).put (chars! "solver.tolerance")
      (o.tolerance.getD (chars! "1e-06"))

/-- What the program does. /repo/tests/hierarchy_driver.cc:236-241, 285-438. -/
inductive DriverRun where
  /-- The list of options is printed. -/
  | usage
  /-- Nothing is solved and nothing is printed but the line of lines 281-283; the exit code is zero. -/
  | nothing
  /-- `matrix_free_two_grids<dim, degree>(params)` or `matrix_based_two_grids<dim>(params)` is called. -/
  | problem (matrixFree : Bool) (dim : ℕ) (degree : ℤ) (params : PForest)
  deriving DecidableEq, Repr

/-- `int const fe_degree = params->get<unsigned int>(…)`: the conversion from `unsigned int` to `int`.
/repo/tests/hierarchy_driver.cc:269. -/
def asInt (u : ℕ) : ℤ := if u % 2 ^ 32 < 2 ^ 31 then (u % 2 ^ 32 : ℕ) else (u % 2 ^ 32 : ℕ) - 2 ^ 32

/-- `main`, /repo/tests/hierarchy_driver.cc:216-439, for the tree `file` read from the parameter file.
`unsigned` is `get_value_optional<unsigned int>`. -/
def driverMain (debug : Bool) (sc : Scan) (unsigned : List Char → Option ℕ) (o : DriverOptions)
    (file : PForest) : Outcome DriverRun := do
  if o.help then pure .usage
  else
    let dim := o.dim.getD 2
    Outcome.assert debug (dim = 2 ∨ dim = 3)
    let matrixFree := o.matrixFree.getD true
    let t ← uncover sc matrixFree file
    let degree := asInt ((t.getWith unsigned (chars! "laplace.fe_degree")).getD 4)
    let t := driverPuts o t
    if matrixFree then
      let t := t.put (chars! "smoother.type") (chars! "Chebyshev")
      if 1 ≤ degree ∧ degree ≤ 10 then
        pure (.problem true (if dim = 2 then 2 else 3) degree t)
      else do
        Outcome.assert debug False
        pure .nothing
    else pure (.problem false (if dim = 2 then 2 else 3) degree t)

/-- The beginning of `matrix_free_two_grids` and `matrix_based_two_grids`,
/repo/tests/hierarchy_driver.cc:28-49 and 122-146: the entries read before the hierarchy is built.  `.throws` are
exceptions nobody catches.  Returns whether the hierarchy is used as a preconditioner. -/
def problemStart (sc : Scan) (t : PForest) : Outcome Bool := do
  let pre ← match t.getChild (chars! "is preconditioner") with
    | none => Outcome.throws "ptree_bad_path"
    | some n => match sc.bool n.1 with
      | none => .throws "ptree_bad_data"
      | some b => .ok b
  let material ← match t.getChild (chars! "material_property.type") with
    | none => Outcome.throws "ptree_bad_path"
    | some n => .ok n.1
  if material ∈ [chars! "constant", chars! "linear_x", chars! "linear", chars! "discontinuous"] then
    match t.getChild (chars! "laplace") with
    | none => .throws "ptree_bad_path"
    | some _ => pure pre
  else .throws "not implemented"

end Mfmg
