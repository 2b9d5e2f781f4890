import Verif.Model.AmgxComm
import Verif.Spec.Amgx

/-!
# Specification: consistent communication lists
-/

set_option autoImplicit false

namespace Mfmg

/-- The part of a sparsity pattern on one process: global rows with their columns. -/
abbrev ProcPattern := List (ℕ × List ℕ)

/-- The rows of a process. -/
def ProcPattern.rows (p : ProcPattern) : List ℕ := p.map Prod.fst

/-- The column indices stored on a process, row after row. -/
def ProcPattern.cols (p : ProcPattern) : List ℕ := p.flatMap Prod.snd

/-- A matrix of size `n` distributed over the processes: each row on one process, the rows of a process in
increasing order, columns in range. -/
structure DistributedPattern (n : ℕ) (P : List ProcPattern) : Prop where
  partition : IsPartition n (P.map ProcPattern.rows)
  sorted : ∀ p ∈ P, p.rows.Pairwise (· < ·)
  range : ∀ p ∈ P, ∀ c ∈ p.cols, c < n

/-- `p` needs data from `q`: some row of `q` is a column of `p`. -/
def ProcPattern.needs (p q : ProcPattern) : Prop := ∃ g ∈ q.rows, g ∈ p.cols

instance (p q : ProcPattern) : Decidable (p.needs q) := by unfold ProcPattern.needs; infer_instance

/-- Data is exchanged in both directions or not at all. -/
def SymmetricNeeds (P : List ProcPattern) : Prop := ∀ p ∈ P, ∀ q ∈ P, p.needs q → q.needs p

/-- If row `r` has an entry in column `c`, then row `c` exists and has one in column `r`. -/
def StructurallySymmetric (P : List ProcPattern) : Prop :=
  ∀ p ∈ P, ∀ e ∈ p, ∀ c ∈ e.2, ∃ q ∈ P, ∃ f ∈ q, f.1 = c ∧ e.1 ∈ f.2

/-- The AMGX number that a process with `n` rows gives to a global index. -/
def AmgxComm.number (c : AmgxComm) (n : ℕ) (g : ℕ) : ℕ := amgxColumn c.halo c.rowMap n g

/-- The constructor's communication lists on process `p`, when all processes gather their patterns. -/
def commOn (n : ℕ) (P : List ProcPattern) (rank : ℕ) (p : ProcPattern) : Outcome AmgxComm :=
  commSetup n rank (P.map fun q => patternBuffer q.rows q.cols) p.rows p.cols

/-- The lists of all processes fit together. -/
structure ConsistentLists (P : List ProcPattern) (comm : List AmgxComm) : Prop where
  length : comm.length = P.length
  /-- The rows sent are those needed elsewhere, and the numbering is the one that AMGX asks for. -/
  numbering : ∀ (p : ℕ) (pat : ProcPattern) (c : AmgxComm), P[p]? = some pat → comm[p]? = some c →
    AmgxNumbering pat.rows pat.cols c.sent (c.number pat.rows.length) ∧
    ∀ (i g : ℕ), pat.rows[i]? = some g →
      (i ∈ c.sent ↔ ∃ (q : ℕ) (qat : ProcPattern), P[q]? = some qat ∧ q ≠ p ∧ g ∈ qat.cols)
  /-- The neighbours are the other processes with which data is exchanged, each once, with one send and one
  receive list. -/
  neighbors : ∀ (p : ℕ) (pat : ProcPattern) (c : AmgxComm), P[p]? = some pat → comm[p]? = some c →
    c.neighbors.Nodup ∧ c.send.length = c.neighbors.length ∧ c.recv.length = c.neighbors.length ∧
    ∀ q, q ∈ c.neighbors ↔ q ≠ p ∧ ∃ qat, P[q]? = some qat ∧ qat.needs pat
  /-- What `p` sends to `q` is what `q` receives from `p`, in the same order: the rows of `p` that are
  columns of `q`. -/
  lists : ∀ (p q : ℕ) (pat qat : ProcPattern) (c d : AmgxComm) (k l : ℕ), P[p]? = some pat →
    P[q]? = some qat → comm[p]? = some c → comm[q]? = some d →
    c.neighbors[k]? = some q → d.neighbors[l]? = some p →
    ∃ ids : List ℕ, ids.Nodup ∧ (∀ g, g ∈ ids ↔ g ∈ pat.rows ∧ g ∈ qat.cols) ∧
      c.send[k]? = some (ids.map (c.number pat.rows.length)) ∧
      d.recv[l]? = some (ids.map (d.number qat.rows.length))

/-- The ranks other than `rank` whose process satisfies `f`. -/
def othersWith (P : List ProcPattern) (rank : ℕ) (f : ProcPattern → Bool) : List ℕ :=
  (List.range P.length).filter fun i => decide (i ≠ rank) && (P[i]?.any f)

end Mfmg
