import Verif.Model.Restriction

/-!
# Model of the global diagonal and of the weights computed from it

`DealIIMeshEvaluator::get_diagonal`, /repo/source/dealii/dealii_mesh_evaluator.cc:57-86, and the assembly of the
restriction matrix as the processes see it: each reads its own part of the diagonal, and a quotient can fail to
be a finite number.
-/

set_option autoImplicit false

namespace Mfmg

section

variable {K : Type}

/-- The elements of a `LinearAlgebra::distributed::Vector` that one process stores (its own and the ghosts), by
global index. The two vectors of /repo/source/dealii/dealii_mesh_evaluator.cc:72-83. -/
abbrev RankVector (K : Type) := ℕ → Option K

/-- `vector[i]` with a global index: deal.II checks in debug builds only that the element is stored.
As in /repo/include/mfmg/common/amge.templates.hpp:316. -/
def RankVector.read (debug : Bool) (x : RankVector K) (i : ℕ) : Outcome K :=
  match x i with
  | some v => .ok v
  | none => if debug then .aborted else .ub "element not stored on this process"

/-- The vector of the owned elements, /repo/source/dealii/dealii_mesh_evaluator.cc:72-78: created with zeros, then
every element is assigned. -/
def ownedDiagonal [Zero K] (diagElement : ℕ → K) (owned : List ℕ) : RankVector K :=
  owned.foldl (fun x val => fun i => if i = val then some (diagElement val) else x i)
    (fun i => if i ∈ owned then some 0 else none)

/-- The assignment to the vector with ghosts, /repo/source/dealii/dealii_mesh_evaluator.cc:80-83: own elements are
copied, and, because the source has no ghosts, deal.II imports the ghosts from their owners. -/
def importGhosts (vs : List (RankVector K)) (relevant : List ℕ) : RankVector K :=
  fun i => if i ∈ relevant then vs.findSome? fun v => v i else none

/-- `DealIIMeshEvaluator::get_diagonal` on all processes, /repo/source/dealii/dealii_mesh_evaluator.cc:57-86.
`diagElement` gives the diagonal elements of the matrix that `evaluate_global` fills; `owned` and `relevant` are
the index sets of the processes. -/
def getDiagonal [Zero K] (diagElement : ℕ → K) (owned relevant : List (List ℕ)) : List (RankVector K) :=
  relevant.map (importGhosts (owned.map (ownedDiagonal diagElement)))

/-- A floating-point number: finite, or infinite or not a number (not distinguished).
The entries computed in /repo/include/mfmg/common/amge.templates.hpp:316-317. -/
inductive Flt (K : Type) where
  | fin (v : K)
  | bad

/-- `a / b` for numbers `a` and `b`. /repo/include/mfmg/common/amge.templates.hpp:316. -/
def Flt.quotient [Field K] [DecidableEq K] (a b : K) : Flt K := if b = 0 then .bad else .fin (a / b)

/-- `a * b`; the product of an infinite number and zero is not a number.
/repo/include/mfmg/common/amge.templates.hpp:316-317. -/
def Flt.times [Mul K] : Flt K → K → Flt K
  | .fin a, b => .fin (a * b)
  | .bad, _ => .bad

/-- `a + b`. Adding to an entry, /repo/include/mfmg/common/amge.templates.hpp:314. -/
def Flt.plus [Add K] : Flt K → Flt K → Flt K
  | .fin a, .fin b => .fin (a + b)
  | _, _ => .bad

/-- `SparseMatrix::add`. /repo/include/mfmg/common/amge.templates.hpp:314-317. -/
def addFlt [Add K] (M : Entries (Flt K)) (r c : ℕ) (v : Flt K) : Entries (Flt K) :=
  fun r' c' => if r' = r ∧ c' = c then (M r' c').plus v else M r' c'

variable [Field K] [DecidableEq K]

/-- Innermost loop of the assembly, /repo/include/mfmg/common/amge.templates.hpp:310-318, on a process that stores
the part `x` of the diagonal. -/
def entryLoop (debug : Bool) (x : RankVector K) (row : ℕ) (dofs : List ℕ) (diag : List K) :
    List K → ℕ → Entries (Flt K) → Outcome (Entries (Flt K))
  | [], _, M => .ok M
  | v :: ev, j, M => do
    let c ← Outcome.get dofs j "dof_indices_maps[i][j]"
    let d ← Outcome.get diag j "diag_elements[i][j]"
    let g ← x.read debug c
    entryLoop debug x row dofs diag ev (j + 1) (addFlt M row c ((Flt.quotient d g).times v))

/-- Loop over the `n` eigenvectors of an agglomerate, /repo/include/mfmg/common/amge.templates.hpp:303-320. -/
def rowLoop (debug : Bool) (x : RankVector K) (first : ℕ) (evs : List (List K)) (dofs : List ℕ)
    (diag : List K) : ℕ → ℕ → Entries (Flt K) → Outcome (ℕ × Entries (Flt K))
  | 0, pos, M => .ok (pos, M)
  | n + 1, pos, M => do
    let ev ← Outcome.get evs pos "eigenvectors[pos]"
    Outcome.assert debug (ev.length == dofs.length)
    let M ← entryLoop debug x (first + pos) dofs diag ev 0 M
    rowLoop debug x first evs dofs diag n (pos + 1) M

/-- Loop over agglomerates, /repo/include/mfmg/common/amge.templates.hpp:300-321. -/
def agglomerateLoop (debug : Bool) (x : RankVector K) (first : ℕ) (s : Collected K) :
    List ℕ → ℕ → ℕ → Entries (Flt K) → Outcome (Entries (Flt K))
  | [], _, _, M => .ok M
  | n :: ns, i, pos, M => do
    let dofs ← Outcome.get s.dofMaps i "dof_indices_maps[i]"
    let diag ← Outcome.get s.diag i "diag_elements[i]"
    let (pos, M) ← rowLoop debug x first s.eigenvectors dofs diag n pos M
    agglomerateLoop debug x first s ns (i + 1) pos M

/-- `compute_restriction_sparse_matrix` (first overload), /repo/include/mfmg/common/amge.templates.hpp:271-325, on
all processes one after the other (they write to disjoint rows); each has its part of the diagonal. -/
def assembleProcs (debug : Bool) (counts : List ℕ) :
    List (RankVector K × Collected K) → ℕ → Entries (Flt K) → Outcome (Entries (Flt K))
  | [], _, M => .ok M
  | (x, s) :: ps, rank, M => do
    Outcome.assert debug (s.nLocal.length == s.dofMaps.length)
    let M ← agglomerateLoop debug x (rowsBefore counts rank) s s.nLocal 0 0 M
    assembleProcs debug counts ps (rank + 1) M

/-- The restriction matrix of all processes.
All processes run /repo/include/mfmg/common/amge.templates.hpp:271-325; the exchange is made by
`compress`, line 324. -/
def restrictionProcs (debug : Bool) (ps : List (RankVector K × Collected K)) : Outcome (Entries (Flt K)) :=
  assembleProcs debug (ps.map fun p => p.2.eigenvectors.length) ps 0 fun _ _ => .fin 0

/-- Entry `row` of the product of the sparse matrix with a vector: `cols` are the stored columns of the row.
The product of /repo/source/dealii/dealii_trilinos_matrix_operator.cc:28-35. -/
def rowProduct (M : Entries (Flt K)) (row : ℕ) (cols : List ℕ) (y : ℕ → K) : Flt K :=
  cols.foldl (fun s c => s.plus ((M row c).times (y c))) (.fin 0)

end

end Mfmg
