import Verif.Model.Basic
import Mathlib.Data.Nat.Notation

/-!
# Model of the device memory held by `SparseMatrixDevice`

/repo/include/mfmg/cuda/sparse_matrix_device.templates.cuh:104-138, 141-335, 351-434.  Only
addresses, not contents, are modelled: which allocations exist, which have been written, and which
pointers the objects hold.  Matrix descriptors (`cusparseCreateMatDescr`) are allocations too.
cuSPARSE handles are not owned by the matrices and are left out.  Allocations do not fail.
-/

set_option autoImplicit false

namespace Mfmg

/-- The device allocations: the next fresh address, those not yet freed, those written at least once.
Addresses are not reused.
Not in the code: what `cuda_malloc` and `cuda_free`, /repo/include/mfmg/cuda/utils.cuh:66-79, do to the
device. -/
structure DevHeap where
  next : ℕ
  live : List ℕ
  written : List ℕ
  deriving Repr, DecidableEq

/-- `cudaMalloc` (or `cusparseCreateMatDescr`). /repo/include/mfmg/cuda/utils.cuh:74-79. -/
def DevHeap.alloc (h : DevHeap) : ℕ × DevHeap :=
  (h.next, { h with next := h.next + 1, live := h.next :: h.live })

/-- Writing to an allocation (a kernel, `cudaMemcpy`, or cuSPARSE).
Such as /repo/include/mfmg/cuda/sparse_matrix_device.templates.cuh:179-192. -/
def DevHeap.write (h : DevHeap) (p : ℕ) : DevHeap := { h with written := p :: h.written }

/-- An allocation that is filled at once. Such as /repo/source/cuda/utils.cu:22-36. -/
def DevHeap.allocWritten (h : DevHeap) : ℕ × DevHeap :=
  ((h.alloc).1, (h.alloc).2.write (h.alloc).1)

/-- `cuda_free`, /repo/include/mfmg/cuda/utils.cuh:66-72 (or `cusparseDestroyMatDescr`): freeing the
null pointer does nothing, freeing what is not allocated is an error. -/
def DevHeap.free (h : DevHeap) : Option ℕ → Outcome DevHeap
  | none => .ok h
  | some p => if p ∈ h.live then .ok { h with live := h.live.erase p } else .ub "double free"

/-- Reading an array on the device.
Such as /repo/include/mfmg/cuda/sparse_matrix_device.templates.cuh:368-370. -/
def DevHeap.use (h : DevHeap) (p : ℕ) : Outcome Unit :=
  if p ∉ h.live then .ub "use after free"
  else if p ∉ h.written then .ub "uninitialised read"
  else .ok ()

/-- The members of `SparseMatrixDevice` that matter,
/repo/include/mfmg/cuda/sparse_matrix_device.cuh:92-103; `nnz` says whether `_local_nnz` and `_nnz`
have been initialised. -/
structure SpObj where
  val : Option ℕ
  col : Option ℕ
  rowPtr : Option ℕ
  descr : Option ℕ
  nnz : Bool
  deriving Repr, DecidableEq

/-- The default constructor,
/repo/include/mfmg/cuda/sparse_matrix_device.templates.cuh:141-146: null pointers; `_local_nnz` and `_nnz` are not
initialised. -/
def SpObj.default : SpObj := { val := none, col := none, rowPtr := none, descr := none, nnz := false }

/-- An object after it has been moved from,
/repo/include/mfmg/cuda/sparse_matrix_device.templates.cuh:158-167 and 289-298. -/
def SpObj.movedFrom : SpObj := { val := none, col := none, rowPtr := none, descr := none, nnz := true }

/-- The state of a program: the heap, and the objects made so far (`none` if destroyed).
Not in the code: what a program that uses
/repo/include/mfmg/cuda/sparse_matrix_device.templates.cuh:141-434 has. -/
structure MemState where
  heap : DevHeap
  objs : List (Option SpObj)
  deriving Repr, DecidableEq

/-- A call; objects are named by the order of their construction.
The member functions /repo/include/mfmg/cuda/sparse_matrix_device.templates.cuh:141-335, 351-434, and
`convert_matrix`, /repo/source/cuda/utils.cu:39-168. -/
inductive MemCall where
  | construct
  | convert (descr : Bool)
  | copy (i : ℕ)
  | move (i : ℕ)
  | moveAssign (i j : ℕ)
  | reinit (i : ℕ)
  | destroy (i : ℕ)
  | vmult (i : ℕ)
  | mmult (serial : Bool) (c a b : ℕ)
  deriving Repr, DecidableEq

/-- The object `i`, which must exist.
Not in the code: calls such as /repo/include/mfmg/cuda/sparse_matrix_device.templates.cuh:351 need an
object. -/
def MemState.obj (s : MemState) (i : ℕ) : Outcome SpObj :=
  match s.objs[i]? with
  | some (some o) => .ok o
  | _ => .ub "no such object"

/-- Three arrays filled with data, and a descriptor if wanted: `convert_matrix`
(/repo/source/cuda/utils.cu:84-88, 118-120, 165-167) makes the arrays and passes them to one of the
constructors,
/repo/include/mfmg/cuda/sparse_matrix_device.templates.cuh:207-242. -/
def newArrays (descr : Bool) (h : DevHeap) : SpObj × DevHeap :=
  let (v, h) := h.allocWritten
  let (c, h) := h.allocWritten
  let (r, h) := h.allocWritten
  if descr then
    let (d, h) := h.alloc
    ({ val := some v, col := some c, rowPtr := some r, descr := some d, nnz := true }, h)
  else ({ val := some v, col := some c, rowPtr := some r, descr := none, nnz := true }, h)

/-- The three arrays of a matrix that is read: with null pointers the CUDA or cuSPARSE call returns an
error, which is fatal in debug builds; in release builds what is computed from it is garbage, modelled
as undefined. /repo/include/mfmg/cuda/sparse_matrix_device.templates.cuh:178-194 and 415. -/
def useArrays (debug : Bool) (h : DevHeap) (o : SpObj) : Outcome Unit :=
  match o.val, o.col, o.rowPtr with
  | some v, some c, some r => do
    h.use v
    h.use c
    h.use r
  | _, _, _ => if debug then .aborted else .ub "empty matrix"

/-- The copy constructor, /repo/include/mfmg/cuda/sparse_matrix_device.templates.cuh:170-205. -/
def copyObj (debug : Bool) (h : DevHeap) (o : SpObj) : Outcome (SpObj × DevHeap) :=
  if o.nnz then do
    useArrays debug h o
    pure (newArrays true h)
  else .ub "indeterminate _local_nnz"

/-- The destructor, /repo/include/mfmg/cuda/sparse_matrix_device.templates.cuh:244-272. -/
def destroyObj (h : DevHeap) (o : SpObj) : Outcome DevHeap := do
  let h ← h.free o.val
  let h ← h.free o.col
  let h ← h.free o.rowPtr
  h.free o.descr

/-- The memory operations of `vmult`,
/repo/include/mfmg/cuda/sparse_matrix_device.templates.cuh:359-370, and `gather_vector`, lines 113-137: `src_val_dev`
and `indices_dev` are not freed.  An empty matrix gives an error that release builds ignore. -/
def vmultMem (debug : Bool) (h : DevHeap) (o : SpObj) : Outcome DevHeap := do
  let (_, h) := h.allocWritten
  let (buffer, h) := h.allocWritten
  let (_, h) := h.allocWritten
  let h ← h.free (some buffer)
  match o.val, o.col, o.rowPtr with
  | some v, some c, some r => do
    h.use v
    h.use c
    h.use r
    pure h
  | _, _, _ => if debug then .aborted else pure h

/-- The object read through the reference `a` while the object `c` has the content `oc`.
`C` and `B` of /repo/include/mfmg/cuda/sparse_matrix_device.templates.cuh:374-376 are references and may
be the same object as `*this`. -/
def readThrough (c : ℕ) (oc : SpObj) (a : ℕ) (oa : SpObj) : SpObj := if a = c then oc else oa

/-- The sparsity pattern of a factor, read by `cusparseXcsrgemmNnz`,
/repo/include/mfmg/cuda/sparse_matrix_device.templates.cuh:398-402. -/
def usePattern (debug : Bool) (h : DevHeap) (o : SpObj) : Outcome Unit :=
  match o.col, o.rowPtr with
  | some c, some r => do
    h.use c
    h.use r
  | _, _ => if debug then .aborted else .ub "empty matrix"

/-- `A.mmult(C, B)` on one process,
/repo/include/mfmg/cuda/sparse_matrix_device.templates.cuh:389-416.  `c`, `a`, `b` name the objects: `C` may be the same
object as `A` or `B`.  The new arrays are written by `cusparseXcsrgemmNnz` (line 398) and
`cusparseDcsrgemm` (line 415). -/
def mmultSerial (debug : Bool) (h : DevHeap) (c a b : ℕ) (oc oa ob : SpObj) :
    Outcome (SpObj × DevHeap) := do
  let h ← h.free oc.rowPtr
  let (r, h) := h.alloc
  let oc := { oc with rowPtr := some r }
  usePattern debug h (readThrough c oc a oa)
  usePattern debug h (readThrough c oc b ob)
  let h := h.write r
  let h ← h.free oc.val
  let h ← h.free oc.col
  let (v, h) := h.alloc
  let (k, h) := h.alloc
  let oc := { oc with val := some v, col := some k, nnz := true }
  useArrays debug h (readThrough c oc a oa)
  useArrays debug h (readThrough c oc b ob)
  let h := (h.write v).write k
  pure (oc, h)

/-- `A.mmult(C, B)` on several processes,
/repo/include/mfmg/cuda/sparse_matrix_device.templates.cuh:417-433: the factors are read into host matrices
first; `C` is then overwritten by move assignment, and its descriptor restored. -/
def mmultParallel (debug : Bool) (h : DevHeap) (oc oa ob : SpObj) : Outcome (SpObj × DevHeap) := do
  useArrays debug h oa
  useArrays debug h ob
  let (new, h) := newArrays false h
  pure ({ new with descr := oc.descr }, h)

/-- One call.
The member functions /repo/include/mfmg/cuda/sparse_matrix_device.templates.cuh:141-335, 351-434. -/
def memStep (debug : Bool) (s : MemState) : MemCall → Outcome MemState
  | .construct => .ok { s with objs := s.objs ++ [some SpObj.default] }
  | .convert descr =>
    .ok { heap := (newArrays descr s.heap).2, objs := s.objs ++ [some (newArrays descr s.heap).1] }
  | .copy i => do
    let o ← s.obj i
    let r ← copyObj debug s.heap o
    pure { heap := r.2, objs := s.objs ++ [some r.1] }
  | .move i => do
    -- lines 148-168
    let o ← s.obj i
    if o.nnz then
      pure { s with objs := s.objs.set i (some SpObj.movedFrom) ++ [some o] }
    else .ub "indeterminate _local_nnz"
  | .moveAssign i j => do
    -- lines 274-301: nothing is freed; `other` is cleared last, also if it is `*this`
    let _ ← s.obj i
    let o ← s.obj j
    if o.nnz then
      pure { s with objs := (s.objs.set i (some o)).set j (some SpObj.movedFrom) }
    else .ub "indeterminate _local_nnz"
  | .reinit i => do
    -- lines 303-335, called with new arrays (as in /repo/source/cuda/cuda_smoother.cu:124-159)
    let o ← s.obj i
    Outcome.assert debug (o.val.isNone && o.col.isNone && o.rowPtr.isNone)
    pure { heap := (newArrays true s.heap).2, objs := s.objs.set i (some (newArrays true s.heap).1) }
  | .destroy i => do
    let o ← s.obj i
    let h ← destroyObj s.heap o
    pure { heap := h, objs := s.objs.set i none }
  | .vmult i => do
    let o ← s.obj i
    let h ← vmultMem debug s.heap o
    pure { s with heap := h }
  | .mmult serial c a b => do
    let oc ← s.obj c
    let oa ← s.obj a
    let ob ← s.obj b
    let r ← if serial then mmultSerial debug s.heap c a b oc oa ob
      else mmultParallel debug s.heap oc oa ob
    pure { heap := r.2, objs := s.objs.set c (some r.1) }

/-- A history.
Not in the code: any sequence of calls of
/repo/include/mfmg/cuda/sparse_matrix_device.templates.cuh:141-335, 351-434. -/
def memRun (debug : Bool) : MemState → List MemCall → Outcome MemState
  | s, [] => .ok s
  | s, c :: cs => do
    let s' ← memStep debug s c
    memRun debug s' cs

/-- The state at the start of a program.
Not in the code: no object of /repo/include/mfmg/cuda/sparse_matrix_device.templates.cuh:141-242 has been
made. -/
def MemState.init : MemState := { heap := { next := 0, live := [], written := [] }, objs := [] }

end Mfmg
