import Verif.Model.DeviceOperator
import Mathlib.Logic.Function.Basic

/-!
# Model of threads that apply device operators

`CudaMatrixOperator::apply` is `const`, but makes and stores the transposed matrix when it needs it for the first
time (/repo/source/cuda/cuda_matrix_operator.cu:80-130).  `Model/DeviceOperator.lean` takes a call as a whole;
here a call is a sequence of accesses to memory, and the calls of several threads are interleaved.

Simplifications: one access of the source is one step, also if it reads two members; allocations and the
reference counts of `std::shared_ptr` are synchronised by themselves and not accesses; calls of the libraries are
safe in threads (for cuSPARSE with one handle this is an assumption).
-/

set_option autoImplicit false

namespace Mfmg

/-- The members of `CudaMatrixOperator`, /repo/include/mfmg/cuda/cuda_matrix_operator.cuh:56-57: pointers to
matrices, the second one null until the transposed matrix is made. -/
structure OpMembers where
  matrix : ℕ
  transposed : Option ℕ
  deriving DecidableEq, Repr

/-- What the threads share: the matrices in memory and the members of the operators.
The members of /repo/include/mfmg/cuda/cuda_matrix_operator.cuh:56-57 and what they point to. -/
structure DevShared (K : Type) where
  heap : List (DevMatrix K)
  ops : ℕ → OpMembers

/-- One call of `apply`: the operator, the mode, and source and destination, which may depend on what the thread
has computed so far. The arguments of `apply`, /repo/source/cuda/cuda_matrix_operator.cu:80-82. -/
structure OpUse (K : Type) where
  op : ℕ
  tr : Bool
  args : List (Outcome (List K)) → List K × List K

/-- Where a thread is inside `apply` and `transpose`: the statement executed next, in
/repo/source/cuda/cuda_matrix_operator.cu.

* `check`: line 84
* `enter`: line 97
* `convert`: lines 102-109, and the conversion on the right-hand side of lines 111-112
* `assign t`: the assignment of line 111
* `setHandle`: line 113
* `setDescr`: lines 114-122
* `swap`: line 126
* `fetch`: the choice of the matrix in line 90
* `product p`: the product -/
inductive OpPc (K : Type) where
  | check | enter | convert
  | assign (t : DevMatrix K)
  | setHandle | setDescr | swap | fetch
  | product (p : Option ℕ)

/-- A thread: the calls that are left (the first one has begun), where it is in it, and its results.
Not in the code: threads that call /repo/source/cuda/cuda_matrix_operator.cu:80-91. -/
structure OpThread (K : Type) where
  uses : List (OpUse K)
  pc : OpPc K := .check
  results : List (Outcome (List K)) := []

/-- A matrix in memory.
The shared pointers of /repo/include/mfmg/cuda/cuda_matrix_operator.cuh:56-57 point to it. -/
def DevShared.at {K : Type} (sh : DevShared K) (p : ℕ) : Outcome (DevMatrix K) :=
  Outcome.get sh.heap p "no such matrix"

section

variable {K : Type} [NonUnitalNonAssocSemiring K]

/-- One step of a thread, /repo/source/cuda/cuda_matrix_operator.cu:80-130; a finished thread does nothing.  The
operator made in line 129 is thrown away (line 87) and left out, together with the reading of
`_transposed_matrix` in it, which adds nothing to the reading in `fetch`. -/
def opStepThread (debug : Bool) (sh : DevShared K) (th : OpThread K) : Outcome (DevShared K × OpThread K) :=
  match th.uses with
  | [] => .ok (sh, th)
  | u :: us =>
    let o := sh.ops u.op
    match th.pc with
    | .check => .ok (sh, { th with pc := if u.tr && o.transposed.isNone then .enter else .fetch })
    | .enter => .ok (sh, { th with pc := if o.transposed.isNone then .convert else .swap })
    | .convert => do
      let a ← sh.at o.matrix
      .ok (sh, { th with pc := .assign { mat := a.mat.transpose, handle := false, descr := false } })
    | .assign t =>
      .ok ({ heap := sh.heap ++ [t],
             ops := Function.update sh.ops u.op { o with transposed := some sh.heap.length } },
        { th with pc := .setHandle })
    | .setHandle => do
      let a ← sh.at o.matrix
      let p ← Outcome.deref o.transposed "_transposed_matrix"
      let t ← sh.at p
      .ok ({ sh with heap := sh.heap.set p { t with handle := a.handle } }, { th with pc := .setDescr })
    | .setDescr => do
      let p ← Outcome.deref o.transposed "_transposed_matrix"
      let t ← sh.at p
      .ok ({ sh with heap := sh.heap.set p { t with descr := true } }, { th with pc := .fetch })
    | .swap => do
      let p ← Outcome.deref o.transposed "_transposed_matrix"
      .ok ({ sh with ops := Function.update sh.ops u.op { matrix := p, transposed := some o.matrix } },
        { th with pc := .fetch })
    | .fetch => .ok (sh, { th with pc := .product (if u.tr then o.transposed else some o.matrix) })
    | .product p => do
      let p ← Outcome.deref p "_transposed_matrix"
      let a ← sh.at p
      .ok (sh, { uses := us, pc := .check,
                 results := th.results ++ [devVmult debug a (u.args th.results).1 (u.args th.results).2] })

/-- What is accessed: the members of an operator, or a matrix in memory.
/repo/include/mfmg/cuda/cuda_matrix_operator.cuh:56-57. -/
inductive OpCell where
  | matrix (i : ℕ)
  | transposed (i : ℕ)
  | heap (p : ℕ)
  deriving DecidableEq, Repr

/-- What the next step of a thread writes to.
See `OpPc` for the lines of /repo/source/cuda/cuda_matrix_operator.cu:80-130. -/
def opWrites (sh : DevShared K) (th : OpThread K) : List OpCell :=
  match th.uses with
  | [] => []
  | u :: _ =>
    match th.pc with
    | .assign _ => [.transposed u.op]
    | .setHandle | .setDescr => ((sh.ops u.op).transposed.map OpCell.heap).toList
    | .swap => [.matrix u.op, .transposed u.op]
    | _ => []

/-- What the next step of a thread reads.
See `OpPc` for the lines of /repo/source/cuda/cuda_matrix_operator.cu:80-130. -/
def opReads (sh : DevShared K) (th : OpThread K) : List OpCell :=
  match th.uses with
  | [] => []
  | u :: _ =>
    match th.pc with
    | .check => if u.tr then [.transposed u.op] else []
    | .enter => [.transposed u.op]
    | .convert => [.matrix u.op, .heap (sh.ops u.op).matrix]
    | .assign _ => []
    | .setHandle => [.matrix u.op, .transposed u.op, .heap (sh.ops u.op).matrix]
    | .setDescr => [.transposed u.op]
    | .swap => [.matrix u.op, .transposed u.op]
    | .fetch => if u.tr then [.transposed u.op] else [.matrix u.op]
    | .product p => (p.map OpCell.heap).toList

/-- A program with threads: what they share, and the threads.
Not in the code: threads of the user that call /repo/source/cuda/cuda_matrix_operator.cu:80-91. -/
structure OpSystem (ι K : Type) where
  shared : DevShared K
  threads : ι → OpThread K

variable {ι : Type} [DecidableEq ι]

/-- Thread `k` makes a step.
Not in the code; see `OpPc` for the lines of /repo/source/cuda/cuda_matrix_operator.cu:80-130. -/
def OpSystem.step (debug : Bool) (s : OpSystem ι K) (k : ι) : Outcome (OpSystem ι K) := do
  let r ← opStepThread debug s.shared (s.threads k)
  .ok { shared := r.1, threads := Function.update s.threads k r.2 }

/-- The steps of the threads in the order given.
Not in the code: the schedule of threads that execute /repo/source/cuda/cuda_matrix_operator.cu:80-130. -/
def OpSystem.run (debug : Bool) : List ι → OpSystem ι K → Outcome (OpSystem ι K)
  | [], s => .ok s
  | k :: ks, s => do
    let s ← s.step debug k
    OpSystem.run debug ks s

end

/-- The uses of operators in an application of a device hierarchy, /repo/include/mfmg/common/hierarchy.hpp:246-309,
with `d` levels below level `l`, in their order; operator `2 l` is the operator of level `l` and operator
`2 l + 1` the restrictor from it to the next level.  The smoother
(/repo/source/cuda/cuda_smoother.cu:164-172) and the coarse solver (/repo/source/cuda/cuda_solver.cu:496-515)
take the matrix of the operator, once per application; this is counted as a use. -/
def cycleUses {K : Type} (n : ℕ) (args : List (Outcome (List K)) → List K × List K) : ℕ → ℕ → List (OpUse K)
  | 0, l => [⟨2 * l, false, args⟩]
  | d + 1, l =>
    List.replicate n ⟨2 * l, false, args⟩ ++
    [⟨2 * l, false, args⟩, ⟨2 * l + 1, false, args⟩] ++
    cycleUses n args d (l + 1) ++
    [⟨2 * l + 1, true, args⟩] ++
    List.replicate n ⟨2 * l, false, args⟩

end Mfmg
