import Verif.Model.Basic
import Mathlib.Algebra.Field.Defs
import Mathlib.Data.Nat.Notation

/-!
# Model of the assembly of the restriction matrix

`AMGe::compute_restriction_sparsity_pattern`, `AMGe::compute_restriction_sparse_matrix` (both
overloads), /repo/include/mfmg/common/amge.templates.hpp:271-410 and 596-643, and the copiers of
`AMGe_host`, /repo/include/mfmg/dealii/amge_host.templates.hpp:617-650.

Numbers are elements of a field (exact arithmetic).  A distributed matrix is the function of its
global entries.
-/

set_option autoImplicit false

namespace Mfmg

section

variable {K : Type}

/-- Entries of a sparse matrix (row, column).
Such as those made in /repo/include/mfmg/common/amge.templates.hpp:351-362. -/
abbrev Entries (K : Type) := ℕ → ℕ → K

/-- `SparseMatrix::add(row, col, value)` on an entry of the pattern.
/repo/include/mfmg/common/amge.templates.hpp:388-394. -/
def Entries.add [Add K] (M : Entries K) (r c : ℕ) (v : K) : Entries K :=
  fun r' c' => if r' = r ∧ c' = c then M r' c' + v else M r' c'

/-- `SparseMatrix::set(row, col, value)` on an entry that already exists.
/repo/include/mfmg/common/amge.templates.hpp:396-400. -/
def Entries.put (M : Entries K) (r c : ℕ) (v : K) : Entries K :=
  fun r' c' => if r' = r ∧ c' = c then v else M r' c'

/-- What `local_worker` leaves in the copy object for one agglomerate,
/repo/include/mfmg/dealii/amge_host.hpp:122-128. -/
structure CopyData (K : Type) where
  eigenvalues : List K
  eigenvectors : List (List K)
  diag : List K
  dofMap : List ℕ

/-- The vectors filled by the copiers. /repo/include/mfmg/dealii/amge_host.templates.hpp:559-562. -/
structure Collected (K : Type) where
  eigenvalues : List K
  eigenvectors : List (List K)
  diag : List (List K)
  dofMaps : List (List ℕ)
  nLocal : List ℕ

/-- `copy_local_to_global_eig`, /repo/include/mfmg/dealii/amge_host.templates.hpp:635-650
(`copy_local_to_global`, lines 617-633, is the same without the eigenvalues; real parts of real
eigenvalues). -/
def copyLocalToGlobal (s : Collected K) (c : CopyData K) : Collected K where
  eigenvalues := s.eigenvalues ++ c.eigenvalues
  eigenvectors := s.eigenvectors ++ c.eigenvectors
  diag := s.diag ++ [c.diag]
  dofMaps := s.dofMaps ++ [c.dofMap]
  nLocal := s.nLocal ++ [c.eigenvectors.length]

/-- All copier calls of one process, in agglomerate order.
By /repo/include/mfmg/dealii/amge_host.templates.hpp:635-650. -/
def collect (cs : List (CopyData K)) : Collected K :=
  cs.foldl copyLocalToGlobal ⟨[], [], [], [], []⟩

/-- `n_rows_before`, /repo/include/mfmg/common/amge.templates.hpp:605-618: `counts` is the
all-gathered vector of local row counts. -/
def rowsBefore (counts : List ℕ) (rank : ℕ) : ℕ := (counts.take rank).sum

/-- The three matrices filled by the second overload (the first overload fills `R` only, in the
same loop). /repo/include/mfmg/common/amge.templates.hpp:351-362. -/
structure Assembled (K : Type) where
  R : Entries K
  V : Entries K
  delta : Entries K

variable [Field K]

/-- Innermost loop, /repo/include/mfmg/common/amge.templates.hpp:383-401 (310-318): entries `j, j+1,
…` of one eigenvector.  `delta_eigenvector_matrix` has no sparsity pattern yet, so `set` inserts;
`dynAdds` says whether two insertions at one position are summed at `compress` (as the comment in
/repo/source/dealii/dealii_hierarchy_helpers.cc:221-222 says) or the last one wins. -/
def elemLoop (dynAdds : Bool) (gdiag : ℕ → K) (row : ℕ) (dofs : List ℕ) (diag : List K) :
    List K → ℕ → Assembled K → Outcome (Assembled K)
  | [], _, s => .ok s
  | v :: ev, j, s => do
    let c ← Outcome.get dofs j "dof_indices_maps[i][j]"
    let d ← Outcome.get diag j "diag_elements[i][j]"
    let δ := (d / gdiag c - 1) * v
    elemLoop dynAdds gdiag row dofs diag ev (j + 1)
      ⟨s.R.add row c (d / gdiag c * v), s.V.add row c v,
        if dynAdds then s.delta.add row c δ else s.delta.put row c δ⟩

/-- Loop over the `n` eigenvectors of agglomerate `i`,
/repo/include/mfmg/common/amge.templates.hpp:376-403 (303-320). -/
def vecLoop (debug dynAdds : Bool) (gdiag : ℕ → K) (first : ℕ) (evs : List (List K))
    (dofs : List ℕ) (diag : Outcome (List K)) :
    ℕ → ℕ → Assembled K → Outcome (ℕ × Assembled K)
  | 0, pos, s => .ok (pos, s)
  | n + 1, pos, s => do
    let ev ← Outcome.get evs pos "eigenvectors[pos]"
    Outcome.assert debug (ev.length == dofs.length)
    let s ← match ev with
      | [] => .ok s
      | _ :: _ => do
        let diag ← diag
        elemLoop dynAdds gdiag (first + pos) dofs diag ev 0 s
    vecLoop debug dynAdds gdiag first evs dofs diag n (pos + 1) s

/-- Loop over agglomerates `i, i+1, …`, /repo/include/mfmg/common/amge.templates.hpp:373-404. -/
def aggLoop (debug dynAdds : Bool) (gdiag : ℕ → K) (first : ℕ) (s : Collected K) :
    List ℕ → ℕ → ℕ → Assembled K → Outcome (Assembled K)
  | [], _, _, a => .ok a
  | n :: ns, i, pos, a => do
    let (pos, a) ← match n with
      | 0 => .ok (pos, a)
      | n + 1 => do
        let dofs ← Outcome.get s.dofMaps i "dof_indices_maps[i]"
        vecLoop debug dynAdds gdiag first s.eigenvectors dofs
          (Outcome.get s.diag i "diag_elements[i]") (n + 1) pos a
    aggLoop debug dynAdds gdiag first s ns (i + 1) pos a

/-- `compute_restriction_sparse_matrix` on one process,
/repo/include/mfmg/common/amge.templates.hpp:327-410: `gdiag` is `locally_relevant_global_diag`,
`first` is `local_range.first`, the matrices hold the contributions of other processes. -/
def assemble (debug dynAdds : Bool) (gdiag : ℕ → K) (first : ℕ) (s : Collected K)
    (a : Assembled K) : Outcome (Assembled K) := do
  Outcome.assert debug (s.nLocal.length == s.dofMaps.length)
  aggLoop debug dynAdds gdiag first s s.nLocal 0 0 a

/-- All processes one after the other (they write to disjoint rows); `counts` is all-gathered.
Each runs /repo/include/mfmg/common/amge.templates.hpp:327-410. -/
def assembleRanks (debug dynAdds : Bool) (gdiag : ℕ → K) (counts : List ℕ) :
    List (Collected K) → ℕ → Assembled K → Outcome (Assembled K)
  | [], _, a => .ok a
  | s :: ss, rank, a => do
    let a ← assemble debug dynAdds gdiag (rowsBefore counts rank) s a
    assembleRanks debug dynAdds gdiag counts ss (rank + 1) a

/-- The restriction matrix (and its two companions) on all processes: `n_local_rows` is
`eigenvectors.size()`, /repo/include/mfmg/common/amge.templates.hpp:607-611. -/
def assembleAll (debug dynAdds : Bool) (gdiag : ℕ → K) (ss : List (Collected K)) :
    Outcome (Assembled K) :=
  assembleRanks debug dynAdds gdiag (ss.map (fun s => s.eigenvectors.length)) ss 0
    ⟨fun _ _ => 0, fun _ _ => 0, fun _ _ => 0⟩

/-- Positions added to the sparsity pattern for `n` eigenvectors of one agglomerate,
/repo/include/mfmg/common/amge.templates.hpp:632-637; `row` is `n_rows_before + row`. -/
def patternRows (dofs : List ℕ) : ℕ → ℕ → List (ℕ × ℕ)
  | 0, _ => []
  | n + 1, row => dofs.map (fun c => (row, c)) ++ patternRows dofs n (row + 1)

/-- `compute_restriction_sparsity_pattern`, /repo/include/mfmg/common/amge.templates.hpp:626-638:
loop over agglomerates. -/
def pattern (dofMaps : List (List ℕ)) : List ℕ → ℕ → ℕ → Outcome (List (ℕ × ℕ))
  | [], _, _ => .ok []
  | n :: ns, i, row => do
    let here ← match n with
      | 0 => .ok []
      | n + 1 => do
        let dofs ← Outcome.get dofMaps i "dof_indices_maps[i]"
        pure (patternRows dofs (n + 1) row)
    let rest ← pattern dofMaps ns (i + 1) (row + n)
    pure (here ++ rest)

end

end Mfmg
