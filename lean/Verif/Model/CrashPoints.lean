import Verif.Model.DeviceSetup

/-!
# Model of set-up with exceptions

Calls that can throw: functions of the user, of deal.II and of Trilinos, and everything that allocates host
memory (`std::bad_alloc`).  The assertions of mfmg are not among them: they abort in debug builds and do
nothing in release builds.  Objects that have been constructed are destroyed when an exception passes; what
is held only by a plain pointer or handle is not released.

The resources (arrays on the device, cuSPARSE descriptors, AMGX objects, a matrix made by `new`) are
allocations in the sense of `DevHeap` (Model/DeviceMemory.lean).  Only the resources are followed here, not
the data.  Host memory held by `std::vector`, `dealii::IndexSet` and the like is released by their
destructors and is left out.
-/

set_option autoImplicit false

namespace Mfmg

/-- How a program ends.
The programs are those of /repo/include/mfmg/cuda/amge_device.templates.cuh:208-432 and the other places
cited below. -/
inductive CrashEnd (α : Type) where
  | done (a : α)
  | thrown
  | ub (why : String)
  deriving DecidableEq, Repr

/-- A program with calls that can throw: with `some n` the call number `n` (from zero) throws, with `none`
no call does.  It returns what is left of this number, and the resources in use.
For example /repo/include/mfmg/cuda/amge_device.templates.cuh:365-432. -/
def Crashy (α : Type) : Type := Option ℕ → DevHeap → CrashEnd α × Option ℕ × DevHeap

/-- Statements one after the other; an exception ends the program (/repo/include/mfmg/cuda/amge_device.templates.cuh:365-432). -/
instance : Monad Crashy where
  pure a := fun n h => (.done a, n, h)
  bind m f := fun n h =>
    match m n h with
    | (.done a, n, h) => f a n h
    | (.thrown, n, h) => (.thrown, n, h)
    | (.ub w, n, h) => (.ub w, n, h)

/-- A call that can throw and holds nothing itself.
For example /repo/include/mfmg/cuda/amge_device.templates.cuh:236-238. -/
def crashPoint : Crashy Unit
  | none, h => (.done (), none, h)
  | some 0, h => (.thrown, none, h)
  | some (n + 1), h => (.done (), some n, h)

/-- `k` such calls. For example the loop /repo/include/mfmg/cuda/amge_device.templates.cuh:406-412. -/
def crashPoints : ℕ → Crashy Unit
  | 0 => pure ()
  | k + 1 => do
    crashPoint
    crashPoints k

/-- `cudaMalloc`, `cusparseCreateMatDescr`, `AMGX_*_create`, `new`: the result is held by a plain pointer.
For example /repo/include/mfmg/cuda/amge_device.templates.cuh:244, 266,
/repo/source/cuda/cuda_solver.cu:237-263. -/
def acquire : Crashy ℕ := fun n h => (.done h.alloc.1, n, h.alloc.2)

/-- `cuda_free` and the like. /repo/include/mfmg/cuda/utils.cuh:66-72. -/
def release (p : ℕ) : Crashy Unit := fun n h =>
  match h.free (some p) with
  | .ok h => (.done (), n, h)
  | _ => (.ub "double free", n, h)

/-- The destructor of a matrix, /repo/include/mfmg/cuda/sparse_matrix_device.templates.cuh:244-272. -/
def destroyMat (o : SpObj) : Crashy Unit := fun n h =>
  match destroyObj h o with
  | .ok h => (.done (), n, h)
  | _ => (.ub "double free", n, h)

/-- `body` runs while the matrix `o` is an object in scope: if an exception passes, `o` is destroyed.
The destructor is /repo/include/mfmg/cuda/sparse_matrix_device.templates.cuh:244-272. -/
def orDestroy {α : Type} (o : SpObj) (body : Crashy α) : Crashy α := fun n h =>
  match body n h with
  | (.thrown, n, h) =>
    match destroyMat o n h with
    | (.done _, n, h) => (.thrown, n, h)
    | (.thrown, n, h) => (.thrown, n, h)
    | (.ub w, n, h) => (.ub w, n, h)
  | r => r

/-- Three arrays, and a descriptor, that belong to a matrix.
/repo/include/mfmg/cuda/sparse_matrix_device.templates.cuh:207-242. -/
def acquireMat (descr : Bool) : Crashy SpObj := do
  let v ← acquire
  let c ← acquire
  let r ← acquire
  if descr then do
    let d ← acquire
    pure { val := some v, col := some c, rowPtr := some r, descr := some d, nnz := true }
  else pure { val := some v, col := some c, rowPtr := some r, descr := none, nnz := true }

/-! ### The restrictor on the device -/

/-- `internal::compute_local_eigenvectors<double>`,
/repo/include/mfmg/cuda/amge_device.templates.cuh:131-172: `A_host` is allocated before the workspace. -/
def sygvdCrash : Crashy Unit := do
  -- 147
  crashPoint
  let work ← acquire
  let info ← acquire
  release work
  release info

/-- `compute_local_eigenvectors`, /repo/include/mfmg/cuda/amge_device.templates.cuh:216-323.  `descr`: whether
the evaluator gives the matrix of the agglomerate a descriptor.  Simplification: the evaluator throws
before it has filled the matrix or afterwards. -/
def eigCrash (descr : Bool) : Crashy EigPtrs := do
  -- 229-238: the dof handler, the constraints, the evaluator
  crashPoint
  let mat ← acquireMat descr
  orDestroy mat crashPoint
  -- 242-250
  let _ ← acquire
  -- 256-260
  let dense ← acquire
  -- 262
  destroyMat mat
  -- 264-282
  let diag ← acquire
  let mass ← acquire
  let values ← acquire
  -- 283-286
  sygvdCrash
  release mass
  -- 289-301
  let smallest ← acquire
  release values
  -- 303-315
  let vectors ← acquire
  release dense
  -- 318-319: `compute_dof_index_map`
  crashPoint
  -- 321-322: the copy of the map
  crashPoint
  pure { values := smallest, vectors := vectors, diag := diag }

/-- The body of the loop of `setup_restrictor`,
/repo/include/mfmg/cuda/amge_device.templates.cuh:383-422, for `nEig` eigenvectors. -/
def aggCrash (nEig : ℕ) (descr : Bool) : Crashy Unit := do
  -- 383-389: the triangulation of the agglomerate
  crashPoint
  let ptrs ← eigCrash descr
  -- 402-404
  crashPoint
  -- 405-413
  crashPoints nEig
  release ptrs.vectors
  -- 415-418
  crashPoint
  crashPoint
  release ptrs.diag
  -- 420, 422
  crashPoint
  crashPoint

/-- The loop, /repo/include/mfmg/cuda/amge_device.templates.cuh:381-423. -/
def aggsCrash (nEig : ℕ) : List Bool → Crashy Unit
  | [] => pure ()
  | d :: ds => do
    aggCrash nEig d
    aggsCrash nEig ds

/-- The arguments of the constructor called by `convert_matrix`, /repo/source/cuda/utils.cu:116-120. -/
inductive ConvertArg where
  | val | col | rowPtr | range | domain
  deriving DecidableEq, Repr

/-- One argument: an array copied to the device, or an index set.
/repo/source/cuda/utils.cu:22-36 and 116-120. -/
def argCrash (o : SpObj) : ConvertArg → Crashy SpObj
  | .val => do
    let p ← acquire
    pure { o with val := some p }
  | .col => do
    let p ← acquire
    pure { o with col := some p }
  | .rowPtr => do
    let p ← acquire
    pure { o with rowPtr := some p }
  | .range => do
    crashPoint
    pure o
  | .domain => do
    crashPoint
    pure o

/-- The arguments in the order in which the compiler evaluates them.
/repo/source/cuda/utils.cu:116-120. -/
def argsCrash (o : SpObj) : List ConvertArg → Crashy SpObj
  | [] => pure o
  | a :: as => do
    let o ← argCrash o a
    argsCrash o as

/-- `convert_matrix`, /repo/source/cuda/utils.cu:91-121: `hostVectors` allocations of host memory, the
arguments in the order `order` (unspecified in C++), and the constructor
(/repo/include/mfmg/cuda/sparse_matrix_device.templates.cuh:207-220), which copies the two index sets while
the object is not complete. -/
def convertCrash (hostVectors : ℕ) (order : List ConvertArg) : Crashy SpObj := do
  crashPoints hostVectors
  let o ← argsCrash { val := none, col := none, rowPtr := none, descr := none, nnz := true } order
  crashPoint
  crashPoint
  pure o

/-- `setup_restrictor` and `compute_restriction_sparse_matrix`,
/repo/include/mfmg/cuda/amge_device.templates.cuh:325-433, and the call in
`CudaHierarchyHelpers::build_restrictor`, /repo/source/cuda/cuda_hierarchy_helpers.cu:72-75. -/
def setupCrash (nEig hostVectors : ℕ) (order : List ConvertArg) (descrs : List Bool) :
    Crashy SpObj := do
  -- 373: `build_agglomerates`, 375: the ids
  crashPoint
  crashPoint
  aggsCrash nEig descrs
  -- 426: `get_locally_relevant_diag`, 339-345: the matrix on the host and its check
  crashPoint
  crashPoint
  crashPoint
  -- 347-348
  let o ← convertCrash hostVectors order
  -- 350-354
  let d ← acquire
  let o := { o with descr := some d }
  -- 362 and `make_shared`: two move constructors, which copy the index sets, and the shared object
  orDestroy o (crashPoints 5)
  pure o

/-! ### The other parts of the set-up on the device -/

/-- The constructor of `CudaSmoother`, /repo/source/cuda/cuda_smoother.cu:99-162.  The matrix `_smoother` is
a member: it is destroyed when the constructor throws.  In `reinit`
(/repo/include/mfmg/cuda/sparse_matrix_device.templates.cuh:303-335) it has the arrays before the index sets
are copied. -/
def smootherCrash : Crashy SpObj := do
  -- 105-110: the parameters, and the type of the smoother
  crashPoint
  crashPoint
  -- 125-134
  let v ← acquire
  let c ← acquire
  let r ← acquire
  let coo ← acquire
  -- 149-151 and 157-158: three copies of the index set
  crashPoint
  crashPoint
  crashPoint
  -- `reinit`
  let d ← acquire
  let o : SpObj := { val := some v, col := some c, rowPtr := some r, descr := some d, nnz := true }
  orDestroy o (crashPoints 2)
  -- 161
  release coo
  pure o

/-- The constructor of `CudaSolver` for `amgx`, /repo/source/cuda/cuda_solver.cu:204-445, with `before`
calls that can throw before the matrix is converted, `inside` in `csr_to_amgx`
(/repo/source/cuda/utils.cu:206-303) and `after` after it.  The library and six handles are acquired; they
are members of the object under construction, whose destructor does not run.  The numbers of the resources
are returned. -/
def solverCrash (before inside after : ℕ) : Crashy (List ℕ) := do
  -- 215, 222: the type of the solver and the name of the file
  crashPoint
  crashPoint
  -- 234-263
  let lib ← acquire
  let config ← acquire
  let resources ← acquire
  let matrix ← acquire
  let rhs ← acquire
  let solution ← acquire
  let solver ← acquire
  crashPoints before
  let coo ← acquire
  crashPoints inside
  release coo
  crashPoints after
  pure [lib, config, resources, matrix, rhs, solution, solver]

/-- `vmult`, /repo/include/mfmg/cuda/sparse_matrix_device.templates.cuh:351-371, with `gather_vector`,
lines 104-138: the arrays `src_val_dev`, `dst_buffer`, two vectors on the host, `indices_dev`. -/
def vmultCrash : Crashy Unit := do
  let _ ← acquire
  let buffer ← acquire
  crashPoint
  crashPoint
  let _ ← acquire
  release buffer

/-- The move assignment of a matrix, /repo/include/mfmg/cuda/sparse_matrix_device.templates.cuh:274-301: the
pointers are copied, then the index sets, then the pointers of the source are reset.  While the index sets
are copied, source `o` and target have the same arrays; both are destroyed when an exception passes (the
source is a temporary, the target belongs to the caller). -/
def moveAssignCrash (o : SpObj) : Crashy SpObj := do
  orDestroy o (orDestroy o (crashPoints 2))
  pure o

/-- `CudaMatrixOperator::multiply` on several processes, /repo/source/cuda/cuda_matrix_operator.cu:132-149
and /repo/include/mfmg/cuda/sparse_matrix_device.templates.cuh:417-433: the copy `c` of the left factor,
`hostCalls` calls that convert and multiply matrices on the host, and the assignment to `c`, whose
descriptor is saved and put back. -/
def multiplyCrash (hostCalls hostVectors : ℕ) (order : List ConvertArg) : Crashy SpObj := do
  crashPoint
  let c ← acquireMat true
  let o ← orDestroy c (do
    crashPoints hostCalls
    convertCrash hostVectors order)
  let c' ← moveAssignCrash o
  let r := { c' with descr := c.descr }
  -- `make_shared<CudaMatrixOperator>`
  orDestroy r crashPoint
  pure r

/-- The same on one process,
/repo/include/mfmg/cuda/sparse_matrix_device.templates.cuh:389-416: the arrays of `c` are replaced, then the
index sets are copied. -/
def multiplySerialCrash : Crashy SpObj := do
  crashPoint
  let c ← acquireMat true
  destroyMat { val := none, col := none, rowPtr := c.rowPtr, descr := none, nnz := true }
  let r ← acquire
  destroyMat { val := c.val, col := c.col, rowPtr := none, descr := none, nnz := true }
  let v ← acquire
  let k ← acquire
  let c : SpObj := { c with val := some v, col := some k, rowPtr := some r }
  orDestroy c (crashPoints 3)
  pure c

/-! ### The restrictor on the host -/

/-- `DealIIHierarchyHelpers::build_restrictor`, /repo/source/dealii/dealii_hierarchy_helpers.cc:56-303:
`before` calls that can throw before the two matrices are added.  With `fast_ap` the sum `ap` is made by
`new` inside `EpetraExt::MatrixMatrix::Add` (276-278) and deleted in line 285; everything else is held by
objects. -/
def hostRestrictorCrash (fastAp : Bool) (before : ℕ) : Crashy Unit := do
  crashPoints before
  if fastAp then do
    -- 276-278
    crashPoint
    let ap ← acquire
    -- 279: `FillComplete`, 283: `make_shared`, 284: `reinit`
    crashPoint
    crashPoint
    crashPoint
    -- 285
    release ap
    -- 287, 299
    crashPoint
    crashPoint
  else
    -- 299
    crashPoint

/-- A history: the set-up is tried again and again, each time failing where `fails` says (an attempt whose
number is too large succeeds and its matrix is destroyed afterwards).
Calls of /repo/include/mfmg/cuda/amge_device.templates.cuh:365-432 or of the other functions modelled
above. -/
def attempts (m : Crashy SpObj) : List (Option ℕ) → DevHeap → Outcome DevHeap
  | [], h => .ok h
  | n :: ns, h =>
    match m n h with
    | (.done o, _, h) => do
      let h ← destroyObj h o
      attempts m ns h
    | (.thrown, _, h) => attempts m ns h
    | (.ub w, _, _) => .ub w

end Mfmg
