import Verif.Model.Basic
import Mathlib.Data.Nat.Notation

/-!
# Who owns what: the objects behind a hierarchy and when they are destroyed

A program that uses the library creates a triangulation, a `DoFHandler`, constraints and perhaps a
`CudaHandle` (objects with a scope), a mesh evaluator, a parameter tree and perhaps a timer
(behind `std::shared_ptr`), and builds hierarchies from them.  The constructor of a hierarchy
allocates operators, smoothers, preconditioners, solvers and matrices.  This file follows all these
objects through any program: which object owns which (reference counts), in which order members
are destroyed, and which objects an application of the hierarchy dereferences.

An object is known by its address, its position in the list of all objects ever created; addresses
are never used again (a simplification which can only reveal more uses after destruction).
-/

set_option autoImplicit false

namespace Mfmg

/-- The kind of a mesh evaluator, i.e. the string of `get_mesh_evaluator_type()` that
`create_hierarchy_helpers` (/repo/include/mfmg/common/hierarchy.hpp:49-152) dispatches on:
`DealIIMeshEvaluator`, `DealIIMatrixFreeMeshEvaluator` or `CudaMeshEvaluator`.  The last one holds
a reference to the `CudaHandle` at the given address
(/repo/include/mfmg/cuda/cuda_mesh_evaluator.cuh:69). -/
inductive EvalKind where
  | matrixBased
  | matrixFree
  | device (handle : ℕ)
  deriving DecidableEq, Repr

/-- What matters about an object for its lifetime.

* `strong`: what its members own (`std::shared_ptr`, `std::unique_ptr`), in the order in which the
  destructor releases them: members in the reverse of their declaration, members of the derived
  class before those of the base class;
* `refs`: what it refers to without owning it (references, raw pointers, deal.II `SmartPointer`s);
* `watched`: those of `refs` held as `SmartPointer`, which the destructor of a
  `dealii::Subscriptor` counts;
* `uses`: what is dereferenced when the object is applied (`apply`, `vmult`, `build_vector`);
* `isLocal`: an object with a scope in the calling program;
* `evaluator`: the kind, if the object is a mesh evaluator;
* `isHierarchy`: the object is a `Hierarchy`.
Such as the members /repo/include/mfmg/common/hierarchy.hpp:369-372 and those cited at the objects below. -/
structure Obj where
  strong : List ℕ := []
  refs : List ℕ := []
  watched : List ℕ := []
  uses : List ℕ := []
  isLocal : Bool := false
  evaluator : Option EvalKind := none
  isHierarchy : Bool := false
  deriving DecidableEq, Repr

/-- All objects ever created, their reference counts (0: destroyed; for an object with a scope the
count is 1 until the end of the scope), and the handles the program holds: one entry for every
`std::shared_ptr` in the program and one for every object in scope.
Not in the code: the state of a program that uses /repo/include/mfmg/common/hierarchy.hpp:154-372. -/
structure Mem where
  nodes : List Obj := []
  count : List ℕ := []
  held : List ℕ := []
  deriving DecidableEq, Repr

namespace Mem

/-- The object at an address.
Not in the code: the memory of a program that uses /repo/include/mfmg/common/hierarchy.hpp:154-372. -/
def obj (m : Mem) (a : ℕ) : Obj := m.nodes.getD a {}

/-- The reference count of the object at an address; 0 if it has been destroyed.
Not in the code: the memory of a program that uses /repo/include/mfmg/common/hierarchy.hpp:154-372. -/
def cnt (m : Mem) (a : ℕ) : ℕ := m.count.getD a 0

/-- Create an object, with one handle to it held by the program.
Such as `std::make_shared` in /repo/include/mfmg/common/hierarchy.hpp:197-233. -/
def create (m : Mem) (o : Obj) : Mem :=
  { nodes := m.nodes ++ [o], count := m.count ++ [1], held := m.nodes.length :: m.held }

/-- Is some object alive that holds a `SmartPointer` to `a`?.
Held by the Chebyshev preconditioner, /repo/source/dealii/dealii_matrix_free_smoother.cc:55. -/
def isWatched (m : Mem) (a : ℕ) : Bool :=
  (List.range m.nodes.length).any fun n => decide (0 < m.cnt n) && (m.obj n).watched.contains a

/-- Release references one after the other: a reference count is decremented; when it reaches
zero the object is destroyed, and its members are released next, in the order of destruction, before
the rest.  Releasing a destroyed object is undefined behaviour.  In debug mode the destructor of a
`dealii::Subscriptor` that still has subscribers aborts the program (deal.II,
`Subscriptor::check_no_subscribers`); in release mode the subscriber keeps a dangling pointer.

The fuel is the number of steps; `drop` below gives the sum of the reference counts, which is
always enough as every step decrements one.
The members are those of /repo/include/mfmg/common/hierarchy.hpp:369-372 and
/repo/include/mfmg/common/level.hpp:72-75, whose destructors are the implicit ones. -/
def releaseFuel (debug : Bool) : ℕ → Mem → List ℕ → Outcome Mem
  | _, m, [] => .ok m
  | 0, _, _ :: _ => .ub "release of a destroyed object"
  | f + 1, m, a :: rest =>
    if m.cnt a = 0 then .ub "release of a destroyed object"
    else
      let m' := { m with count := m.count.set a (m.cnt a - 1) }
      if m.cnt a = 1 then
        if debug && m'.isWatched a then .aborted
        else releaseFuel debug f m' ((m.obj a).strong ++ rest)
      else releaseFuel debug f m' rest

/-- A `std::shared_ptr` of the program is destroyed or reset, or an object goes out of scope.
Not in the code: a statement of the program that owns the objects of
/repo/include/mfmg/common/hierarchy.hpp:154-372. -/
def drop (debug : Bool) (m : Mem) (a : ℕ) : Outcome Mem :=
  releaseFuel debug m.count.sum { m with held := m.held.erase a } [a]

/-- Dereference the object `a` the way an application does: it must be alive, and so must
everything its application dereferences.  Every object uses objects created before it only, so the
fuel `a + 1` is enough. By /repo/include/mfmg/common/hierarchy.hpp:238-309. -/
def useFuel (m : Mem) : ℕ → ℕ → Outcome Unit
  | 0, _ => .ub "use of a destroyed object"
  | f + 1, a =>
    if m.cnt a = 0 then .ub "use of a destroyed object"
    else (m.obj a).uses.foldr (fun b k => m.useFuel f b >>= fun _ => k) (.ok ())

/-- Use the object at `a`. By /repo/include/mfmg/common/hierarchy.hpp:238-309. -/
def use (m : Mem) (a : ℕ) : Outcome Unit := m.useFuel (a + 1) a

end Mem

/-- A matrix and the operator that owns it: `DealIITrilinosMatrixOperator::_sparse_matrix`
(/repo/include/mfmg/dealii/dealii_trilinos_matrix_operator.hpp), `CudaMatrixOperator::_matrix`
(/repo/include/mfmg/cuda/cuda_matrix_operator.cuh:56-57).  On the device, the matrix carries a copy of
the raw cuSPARSE handle (/repo/include/mfmg/cuda/sparse_matrix_device.cuh:95), which every product
uses (/repo/include/mfmg/cuda/sparse_matrix_device.templates.cuh:351-371); `handle` is `[k]` there and `[]` on the
host.  The transposed matrix a device operator caches is not a separate object here. -/
def addMatrix (handle : List ℕ) (ns : List Obj) : List Obj :=
  ns ++ [({} : Obj), { strong := [ns.length], refs := handle, uses := ns.length :: handle }]

/-- `DealIISmoother` for the operator `op`, whose matrix is at `op - 1`: the preconditioner
refers to the matrix (/repo/source/dealii/dealii_smoother.cc:19-67); it is a member of the derived
class, hence destroyed before `_params` and `_operator` of the base class
(/repo/include/mfmg/common/smoother.hpp:39-41, /repo/include/mfmg/dealii/dealii_smoother.hpp).
`apply` uses the operator and the preconditioner (dealii_smoother.cc:69-81). -/
def addHostSmoother (p op : ℕ) (ns : List Obj) : List Obj :=
  ns ++ [{ refs := [op - 1], uses := [op - 1] },
    { strong := [ns.length, p, op], uses := [op, ns.length] }]

/-- `DealIIMatrixFreeSmoother` for the operator `op`: the Chebyshev preconditioner owns the
inverse diagonal and holds a `SmartPointer` to the operator
(/repo/source/dealii/dealii_matrix_free_smoother.cc:18-61). -/
def addMatrixFreeSmoother (p op : ℕ) (ns : List Obj) : List Obj :=
  ns ++ [({} : Obj),
    { strong := [ns.length], refs := [op], watched := [op], uses := [op, ns.length] },
    { strong := [ns.length + 1, p, op], uses := [op, ns.length + 1] }]

/-- `CudaSmoother`: the inverse diagonal is a matrix held by value, with its own copy of the
cuSPARSE handle (/repo/source/cuda/cuda_smoother.cu:99-172). -/
def addDeviceSmoother (handle : List ℕ) (p op : ℕ) (ns : List Obj) : List Obj :=
  ns ++ [{ strong := [p, op], refs := handle, uses := op :: handle }]

/-- `DealIISolver`: the direct solver or the ML preconditioner refers to the matrix
(/repo/source/dealii/dealii_solver.cc:25-87); both are members of the derived class. -/
def addHostSolver (p op : ℕ) (ns : List Obj) : List Obj :=
  ns ++ [{ refs := [op - 1], uses := [op - 1] },
    { strong := [ns.length, p, op], uses := [ns.length] }]

/-- `CudaSolver`: holds a reference to the `CudaHandle`
(/repo/include/mfmg/cuda/cuda_solver.cuh:46-57), which the direct solvers use at every application while
AMGX does not (/repo/source/cuda/cuda_solver.cu:496-515).  `get_matrix()` of the operator is
dereferenced in both cases. -/
def addDeviceSolver (amgx : Bool) (handle : List ℕ) (p op : ℕ) (ns : List Obj) : List Obj :=
  ns ++ [{ strong := [p, op], refs := handle, uses := (op - 1) :: (if amgx then [] else handle) }]

/-- The loop of the constructor of `Hierarchy`
(/repo/include/mfmg/common/hierarchy.hpp:178-234) from a level whose operator is a matrix at `op`,
with `r` levels below it.  `res` is the restrictor to this level (none on the finest level), `ms`
the members of the levels done so far; the members of one level are released solver, smoother,
restrictor, operator (/repo/include/mfmg/common/level.hpp:72-75).  Temporary objects of the set-up
(the product `A Rᵀ`, the AMGe object) are not recorded. -/
def addLevels (dev : Option ℕ) (amgx : Bool) (p : ℕ) :
    ℕ → ℕ → List ℕ → List Obj → List ℕ → List Obj × List ℕ
  | 0, op, res, ns, ms =>
    let ns' := match dev with
      | none => addHostSolver p op ns
      | some k => addDeviceSolver amgx [k] p op ns
    (ns', ms ++ [ns'.length - 1] ++ res ++ [op])
  | r + 1, op, res, ns, ms =>
    let ns₁ := match dev with
      | none => addHostSmoother p op ns
      | some k => addDeviceSmoother [k] p op ns
    let ns₂ := addMatrix dev.toList ns₁
    let ns₃ := addMatrix dev.toList ns₂
    addLevels dev amgx p r (ns₃.length - 1) [ns₂.length - 1] ns₃
      (ms ++ [ns₁.length - 1] ++ res ++ [op])

/-- All objects of the levels of a hierarchy with `r + 1` levels from the evaluator `e`:
`get_global_operator`, then the loop.  The matrix-free operator owns the evaluator
(/repo/source/dealii/dealii_matrix_free_operator.cc:22-28) and uses it at every application; the
matrix-based evaluators are used during the set-up only.  A matrix-free hierarchy has a matrix on
its second level. -/
def buildLevels (kind : EvalKind) (amgx : Bool) (e p r : ℕ) (ns : List Obj) :
    List Obj × List ℕ :=
  match kind with
  | .matrixBased =>
    let ns₀ := addMatrix [] ns
    addLevels none amgx p r (ns₀.length - 1) [] ns₀ []
  | .device k =>
    let ns₀ := addMatrix [k] ns
    addLevels (some k) amgx p r (ns₀.length - 1) [] ns₀ []
  | .matrixFree =>
    let op := ns.length
    let ns₁ := addMatrixFreeSmoother p op (ns ++ [{ strong := [e], uses := [e] }])
    let ns₂ := addMatrix [] ns₁
    let ns₃ := addMatrix [] ns₂
    addLevels none amgx p (r - 1) (ns₃.length - 1) [ns₂.length - 1] ns₃
      [ns₁.length - 1, op]

/-- The `Hierarchy` object itself: owns the levels and the timer
(/repo/include/mfmg/common/hierarchy.hpp:368-372; the levels are destroyed first).  `vmult` uses the
timer and, with one level, the coarse solver only (the first member); otherwise the operator, the
smoother and the restrictor of every level and the coarse solver
(hierarchy.hpp:238-309).  At least one smoothing step is assumed where a smoother is listed; the
operator of the same level, used for the residual, needs the same objects. -/
def hierarchyObj (r : ℕ) (ms : List ℕ) (t : Option ℕ) : Obj :=
  { strong := ms ++ t.toList
    uses := t.toList ++ (if r = 0 then ms.take 1 else ms)
    isHierarchy := true }

/-- A statement of a program that uses the library. Such as in /repo/tests/hierarchy_driver.cc:119-213. -/
inductive UseStmt where
  /-- an object with a scope is declared (triangulation, `DoFHandler`, constraints, `CudaHandle`);
  it refers to the objects `refs`, some of them (`watched`) through a `SmartPointer` -/
  | object (refs watched : List ℕ)
  /-- `make_shared` of a user's mesh evaluator, which refers to the `DoFHandler` `dof`, the
  constraints `cons` and, for a device evaluator, the handle; `reads` is what the overridden
  functions read besides the `DoFHandler` -/
  | evaluator (kind : EvalKind) (dof cons : ℕ) (reads : List ℕ)
  /-- `make_shared` of a parameter tree or of a timer -/
  | shared
  /-- copy a `std::shared_ptr` -/
  | copy (a : ℕ)
  /-- a `std::shared_ptr` is destroyed or reset, or an object goes out of scope -/
  | drop (a : ℕ)
  /-- construct a `Hierarchy` from evaluator `e`, parameters `p` and perhaps a timer `t`;
  `levels` is "max levels", `amgx` says that the device coarse solver is AMGX -/
  | build (e p : ℕ) (t : Option ℕ) (levels : ℕ) (amgx : Bool)
  /-- `vmult` of the hierarchy `h` -/
  | vmult (h : ℕ)
  deriving DecidableEq, Repr

/-- What a program can write: it names only objects for which it holds a handle; objects with a
scope are not copied; a hierarchy is built from an evaluator, a parameter tree that is not null and
perhaps a timer, the latter two being objects without members that matter here.
Not in the code: the C++ programs among the lists of statements that use
/repo/include/mfmg/common/hierarchy.hpp:154-372. -/
def UseStmt.allowed (m : Mem) : UseStmt → Bool
  | .object refs watched =>
    refs.all (fun a => m.held.contains a && (m.obj a).isLocal) &&
      watched.all (fun a => refs.contains a)
  | .evaluator kind dof cons reads =>
    let refs := dof :: cons :: (match kind with | .device k => [k] | _ => [])
    refs.all (fun a => m.held.contains a && (m.obj a).isLocal) &&
      reads.all (fun a => refs.contains a)
  | .shared => true
  | .copy a => m.held.contains a && !(m.obj a).isLocal
  | .drop a => m.held.contains a
  | .build e p t _ _ =>
    (m.held.contains e && (m.obj e).evaluator.isSome) &&
      (m.held.contains p && decide (m.obj p = {})) &&
      t.toList.all (fun a => m.held.contains a && decide (m.obj a = {}))
  | .vmult h => m.held.contains h && (m.obj h).isHierarchy

/-- Add the objects of a new hierarchy.  Their reference counts are what the owners among them
make them: every object gets as many as it has owners, and the counts of the evaluator, the
parameters and the timer grow accordingly.
The owners are made in /repo/include/mfmg/common/hierarchy.hpp:159-236. -/
def Mem.adopt (m : Mem) (ns : List Obj) : Mem :=
  let new := (ns.drop m.nodes.length).flatMap (·.strong)
  { nodes := ns
    count := (List.range ns.length).map fun a =>
      m.cnt a + new.count a + (if a + 1 = ns.length then 1 else 0)
    held := (ns.length - 1) :: m.held }

/-- Execute one statement.  A statement that is not a program (`allowed`) is skipped.

The construction of a hierarchy reads the evaluator and everything the evaluator refers to; "max
levels" below one leaves no level to index (/repo/include/mfmg/common/hierarchy.hpp:171-177); a
matrix-free evaluator admits two levels only: with one the coarse solver dereferences a null
downcast (/repo/source/dealii/dealii_solver.cc:34-37), with three the smoother of the second level
does (/repo/source/dealii/dealii_matrix_free_smoother.cc:26-30, an `ASSERT` in debug mode). -/
def Mem.exec (debug : Bool) (m : Mem) (s : UseStmt) : Outcome Mem :=
  if !s.allowed m then .ok m
  else match s with
  | .object refs watched =>
    .ok (m.create { refs := refs, watched := watched, uses := refs, isLocal := true })
  | .evaluator kind dof cons reads =>
    .ok (m.create
      { refs := dof :: cons :: (match kind with | .device k => [k] | _ => [])
        uses := dof :: reads
        evaluator := some kind })
  | .shared => .ok (m.create {})
  | .copy a => .ok { m with count := m.count.set a (m.cnt a + 1), held := a :: m.held }
  | .drop a => m.drop debug a
  | .build e p t levels amgx => do
    (m.obj e).refs.foldr (fun b k => m.use b >>= fun _ => k) (.ok ())
    match levels, (m.obj e).evaluator with
    | 0, _ => if debug then .aborted else .ub "operator of the first of no levels"
    | _ + 1, none => .throws "not implemented"
    | r + 1, some kind =>
      if kind = .matrixFree ∧ r ≠ 1 then
        if debug ∧ r ≠ 0 then .aborted else .ub "null downcast dereferenced"
      else
        let (ns, ms) := buildLevels kind amgx e p r m.nodes
        .ok (m.adopt (ns ++ [hierarchyObj r ms t]))
  | .vmult h => do
    m.use h
    .ok m

/-- Execute a program.
Not in the code: any program that uses /repo/include/mfmg/common/hierarchy.hpp:154-372. -/
def Mem.run (debug : Bool) : Mem → List UseStmt → Outcome Mem
  | m, [] => .ok m
  | m, s :: ss => m.exec debug s >>= fun m' => m'.run debug ss

end Mfmg
