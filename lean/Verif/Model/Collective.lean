import Verif.Model.Restriction
import Verif.Model.LocalEig

/-!
# Model of the collective calls

The constructor and `vmult` of `Hierarchy` on the host, as a program that several MPI processes run
at the same time.  A process computes on its own data until it reaches a collective call of MPI,
deal.II or Trilinos; there it waits until every member of the communicator has reached the same call.

Simplifications.  Only the row counts travel through the calls; the calls that exchange matrix or
vector entries send the number 0 (their effect on the data is the subject of the other parts of the
model).  Point-to-point messages inside deal.II and Trilinos are part of their collective calls.
-/

set_option autoImplicit false

namespace Mfmg

/-- What one process still has to do: it has finished with an outcome, or it waits in the collective
call `op` on a communicator (the world ranks of its members, in rank order) with the number it sends,
and goes on with the numbers sent by all members, in rank order.
The programs are /repo/include/mfmg/common/hierarchy.hpp:159-236 and 238-309. -/
inductive Proc (α : Type) where
  | done (result : Outcome α)
  | call (comm : List ℕ) (op : String) (send : ℕ) (next : List ℕ → Proc α)

namespace Proc

/-- Sequential composition: an exception, an abort or undefined behaviour ends the process.
What follows a statement that throws or aborts is not run
(/repo/include/mfmg/common/exceptions.hpp:44-84). -/
def bind {α β : Type} (p : Proc α) (f : α → Proc β) : Proc β :=
  match p with
  | .done (.ok a) => f a
  | .done (.throws m) => .done (.throws m)
  | .done .aborted => .done .aborted
  | .done (.ub w) => .done (.ub w)
  | .call c op send next => .call c op send fun l => (next l).bind f

/-- Statements one after the other (see `Proc.bind`; /repo/include/mfmg/common/hierarchy.hpp:159-309). -/
instance : Monad Proc where
  pure a := .done (.ok a)
  bind := bind

/-- A computation without collective calls.
For example the checks of /repo/include/mfmg/common/hierarchy.hpp:173-174. -/
def ofOutcome {α : Type} (o : Outcome α) : Proc α := .done o

end Proc

/-- Collective calls one after the other.
The names stand for calls made in /repo/include/mfmg/common/hierarchy.hpp:159-309 and below. -/
def syncs (c : List ℕ) : List String → Proc Unit
  | [] => pure ()
  | op :: ops => .call c op 0 fun _ => syncs c ops

/-- `MPI_Allgather` of one number.
/repo/include/mfmg/common/amge.templates.hpp:610-611 and /repo/source/cuda/cuda_solver.cu:298-299. -/
def gatherCounts (c : List ℕ) (n : ℕ) : Proc (List ℕ) :=
  .call c "MPI_Allgather" n fun l => .done (.ok l)

/-- What every process knows alike: the parameters and the outcome of the checks that look only at
them or at global quantities. The arguments of /repo/include/mfmg/common/hierarchy.hpp:159-162. -/
structure SetupInput where
  /-- `MFMG_DEBUG`. -/
  debug : Bool
  /-- The parameter `fast_ap`, /repo/include/mfmg/common/hierarchy.hpp:215. -/
  fastAp : Bool
  /-- Is the evaluator a `DealIIMatrixFreeMeshEvaluator`? -/
  matrixFree : Bool
  /-- `create_hierarchy_helpers`, /repo/include/mfmg/common/hierarchy.hpp:166. -/
  helpers : Outcome Unit
  /-- The name of the partitioner, /repo/include/mfmg/common/amge.templates.hpp:55-85. -/
  partitioner : Outcome Unit
  /-- The name of the smoother and the type of the operator of a level. -/
  smoother : ℕ → Outcome Unit
  /-- The name of the coarse solver and the type of the operator of a level. -/
  coarse : ℕ → Outcome Unit
  /-- The first check of `check_restriction_matrix`, on global norms,
  /repo/include/mfmg/common/utils.hpp:111-115. -/
  diagOk : Bool

/-- What a process has by itself.
The data of a process in /repo/include/mfmg/common/hierarchy.hpp:177-234. -/
structure LocalInput (K : Type) where
  /-- The results of `local_worker` for the agglomerates of the process, for every level. -/
  work : ℕ → List (Outcome (CopyData K))
  /-- The loop over patches of `build_restrictor` with `fast_ap`,
  /repo/source/dealii/dealii_hierarchy_helpers.cc:117-235. -/
  fastWork : ℕ → Outcome Unit
  /-- `locally_relevant_global_diag`. -/
  gdiag : ℕ → K
  /-- The last check of `check_restriction_matrix`, on the rows of the process,
  /repo/include/mfmg/common/utils.hpp:144-146. -/
  weightsOk : Bool

/-- What a process knows of a restriction matrix after the set-up: its first row, its number of rows,
the global number of rows and the entries. Made at /repo/include/mfmg/common/hierarchy.hpp:209-211. -/
structure RestrictorPart (K : Type) where
  first : ℕ
  rows : ℕ
  total : ℕ
  matrices : Assembled K

section

variable {K : Type} [Field K]

/-- What `local_worker` sees of one agglomerate: its operator, the diagonal it reports and its dofs.
/repo/include/mfmg/dealii/amge_host.templates.hpp:593-605. -/
structure WorkPatch (K : Type) where
  size : ℕ
  A : ℕ → ℕ → K
  diag : List K
  dofMap : List ℕ

/-- `local_worker` for a matrix-free evaluator,
/repo/include/mfmg/dealii/amge_host.templates.hpp:586-615: the eigenproblem of the agglomerate and its
dof map (C17). -/
def localWorkerFree (debug : Bool) (type : Option (List Char)) (n : ℕ) (S : EigenSolvers K)
    (p : WorkPatch K) : Outcome (CopyData K) := do
  let r ← localMatrixFree debug type n p.size p.A p.diag S
  .ok ⟨r.1, r.2.1, r.2.2, p.dofMap⟩

/-- `compute_restriction_sparsity_pattern`,
/repo/include/mfmg/common/amge.templates.hpp:596-643: the first row of the process and the number of
all rows. -/
def patternProc (c : List ℕ) (rank n : ℕ) : Proc (ℕ × ℕ) := do
  let counts ← gatherCounts c n
  syncs c ["SparsityPattern()", "SparsityPattern::compress"]
  pure (rowsBefore counts rank, counts.sum)

/-- `compute_restriction_sparse_matrix`, both overloads,
/repo/include/mfmg/common/amge.templates.hpp:271-410: one matrix or three of them. -/
def restrictionProc (I : SetupInput) (L : LocalInput K) (c : List ℕ) (rank : ℕ)
    (cs : List (CopyData K)) : Proc (RestrictorPart K) := do
  let s := collect cs
  let (first, total) ← patternProc c rank s.eigenvectors.length
  syncs c (if I.fastAp then ["SparseMatrix::reinit", "SparseMatrix()", "SparseMatrix()"]
    else ["SparseMatrix::reinit"])
  let a ← Proc.ofOutcome (assemble I.debug true L.gdiag first s
    ⟨fun _ _ => 0, fun _ _ => 0, fun _ _ => 0⟩)
  syncs c (if I.fastAp then
      ["SparseMatrix::compress", "SparseMatrix::compress", "SparseMatrix::compress"]
    else ["SparseMatrix::compress"])
  pure ⟨first, s.eigenvectors.length, total, a⟩

/-- `check_restriction_matrix`, /repo/include/mfmg/common/utils.hpp:81-155: nothing in a release
build. -/
def checkProc (I : SetupInput) (L : LocalInput K) (c : List ℕ) : Proc Unit :=
  if I.debug then do
    syncs c ["Vector()", "Vector::compress", "Vector::linfty_norm", "Vector::linfty_norm"]
    Proc.ofOutcome (Outcome.assert I.debug I.diagOk)
    syncs c ["SparsityPattern()", "SparsityPattern::compress", "SparseMatrix()",
      "SparseMatrix::compress"]
    Proc.ofOutcome (Outcome.assert I.debug L.weightsOk)
  else pure ()

/-- `AMGe_host::setup_restrictor`, both overloads,
/repo/include/mfmg/dealii/amge_host.templates.hpp:485-584: the agglomerates are treated one after the
other (C25), and an exception of a worker leaves `WorkStream::run`.  The overload for `fast_ap` and
matrix-free evaluators do not check the matrix. -/
def setupRestrictorProc (I : SetupInput) (L : LocalInput K) (c : List ℕ) (rank l : ℕ) :
    Proc (RestrictorPart K) := do
  Proc.ofOutcome I.partitioner
  let cs ← Proc.ofOutcome (mapOutcome id (L.work l))
  let R ← restrictionProc I L c rank cs
  if !I.fastAp && !I.matrixFree then
    checkProc I L c
  pure R

/-- `get_diagonal`, /repo/source/dealii/dealii_mesh_evaluator.cc:57-86; the one of a matrix-free
evaluator is written by the user. -/
def diagonalProc (I : SetupInput) (c : List ℕ) : Proc Unit :=
  syncs c (if I.matrixFree then ["get_diagonal"]
    else ["evaluate_global", "Vector()", "Vector::compress", "Vector()", "Vector::operator="])

/-- `build_restrictor`, /repo/source/dealii/dealii_hierarchy_helpers.cc:56-303 and
/repo/source/dealii/dealii_matrix_free_hierarchy_helpers.cc:55-303. -/
def buildRestrictorProc (I : SetupInput) (L : LocalInput K) (c : List ℕ) (rank l : ℕ) :
    Proc (RestrictorPart K) := do
  diagonalProc I c
  let R ← setupRestrictorProc I L c rank l
  if I.fastAp then
    syncs c ["SparseMatrix()"]
    Proc.ofOutcome (L.fastWork l)
    syncs c ["SparseMatrix::compress", "Vector()", "Vector::compress", "LeftScale",
      "SparseMatrix::compress", "MatrixMatrix::Add", "FillComplete", "SparseMatrix::reinit"]
  pure R

/-- One turn of the loop of `matrix_transpose_matrix_multiply`,
/repo/include/mfmg/dealii/dealii_utils.hpp:52-58, with `extract_row`,
/repo/source/dealii/dealii_utils.cc:20-60: called by all processes, whoever owns the row. -/
def columnProc (c : List ℕ) : Proc Unit :=
  syncs c ["Vector()", "Vector::compress", "Vector()", "Vector::operator=", "Vector()", "apply"]

/-- The loop over the columns, /repo/include/mfmg/dealii/dealii_utils.hpp:51-78. -/
def columnsProc (c : List ℕ) : (columns : ℕ) → Proc Unit
  | 0 => pure ()
  | n + 1 => do
    columnProc c
    columnsProc c n

/-- `a->multiply_transpose(restrictor)`: `DealIITrilinosMatrixOperator`,
/repo/source/dealii/dealii_trilinos_matrix_operator.cc:74-96, or, on the finest level of a matrix-free
hierarchy, `DealIIMatrixFreeOperator`, /repo/source/dealii/dealii_matrix_free_operator.cc:95-113. -/
def multiplyTransposeProc (I : SetupInput) (c : List ℕ) (l : ℕ) (R : RestrictorPart K) :
    Proc Unit :=
  if I.matrixFree && l == 0 then do
    syncs c ["build_range_vector", "SparseMatrix()", "build_range_vector"]
    columnsProc c R.total
    syncs c ["SparseMatrix::compress"]
  else
    syncs c ["SparseMatrix()", "MatrixMatrix::Multiply"]

/-- The level loop of the constructor, /repo/include/mfmg/common/hierarchy.hpp:178-234, with `left`
levels left from level `l` on; the restrictors of the coarser levels, from fine to coarse. -/
def levelsProc (I : SetupInput) (L : LocalInput K) (c : List ℕ) (rank : ℕ) :
    (left l : ℕ) → Proc (List (RestrictorPart K))
  | 0, _ => pure []
  | 1, l => do
    Proc.ofOutcome (I.coarse l)
    syncs c ["Solver::initialize"]
    pure []
  | left + 2, l => do
    Proc.ofOutcome (I.smoother l)
    syncs c ["Smoother::initialize"]
    let R ← buildRestrictorProc I L c rank l
    if !I.fastAp then
      multiplyTransposeProc I c l R
    syncs c ["mmult"]
    let rest ← levelsProc I L c rank (left + 1) (l + 1)
    pure (R :: rest)

/-- The constructor of `Hierarchy`, /repo/include/mfmg/common/hierarchy.hpp:159-236, on the process
with number `rank` in the communicator `c`. -/
def hierarchyProc (I : SetupInput) (L : LocalInput K) (c : List ℕ) (rank levels : ℕ) :
    Proc (List (RestrictorPart K)) := do
  Proc.ofOutcome I.helpers
  Proc.ofOutcome (Outcome.assert I.debug (decide (0 < levels)))
  syncs c ["get_global_operator"]
  levelsProc I L c rank levels 0

end

/-- `n` smoothing steps, /repo/include/mfmg/common/hierarchy.hpp:278-279 and 305-306, each with the
residual, /repo/source/dealii/dealii_smoother.cc:69-81. -/
def smoothProc (c : List ℕ) : (steps : ℕ) → Proc Unit
  | 0 => pure ()
  | n + 1 => do
    syncs c ["apply", "Smoother::vmult"]
    smoothProc c n

/-- `Hierarchy::apply`, /repo/include/mfmg/common/hierarchy.hpp:246-309, with `left` levels from the
present one on. -/
def cycleProc (c : List ℕ) (steps : ℕ) : (left : ℕ) → Proc Unit
  | 0 => pure ()
  | 1 => syncs c ["Solver::apply"]
  | left + 2 => do
    smoothProc c steps
    syncs c ["Vector()", "apply", "Vector()", "restrictor->apply", "Vector()"]
    cycleProc c steps (left + 1)
    syncs c ["Vector()", "restrictor->apply TRANS"]
    smoothProc c steps

/-- The beginning of the AMGX branch of the constructor of `CudaSolver`,
/repo/source/cuda/cuda_solver.cu:244-299: the resources are created on the communicator `c` of the
matrix, the sparsity pattern is gathered on `MPI_COMM_WORLD`. -/
def amgxProc (world c : List ℕ) (nnz : ℕ) : Proc (List ℕ) := do
  syncs c ["AMGX_resources_create"]
  gatherCounts world nnz

end Mfmg
