import Verif.Model.WorkStream
import Verif.Model.Agglomerate

/-!
# Model of the `fast_ap` branch of `build_restrictor`

`DealIIHierarchyHelpers::build_restrictor`,
/repo/source/dealii/dealii_hierarchy_helpers.cc:56-303 (the matrix-free twin
/repo/source/dealii/dealii_matrix_free_hierarchy_helpers.cc:55-303 has the same structure).
-/

set_option autoImplicit false

namespace Mfmg

section

variable {K : Type} [Field K]

/-- `CopyData` of the `fast_ap` workers, /repo/source/dealii/dealii_hierarchy_helpers.cc:123-128. -/
structure APCopy (K : Type) where
  rows : List ℕ
  cols : List ℕ
  values : List (List K)

/-- What is obtained from a patch triangulation made of the given cells: the map from patch dofs to
global dofs (`compute_dof_index_map`, see C17) and the patch matrix of the user's
`evaluate_agglomerate` in patch numbering. /repo/source/dealii/dealii_hierarchy_helpers.cc:134-164. -/
structure PatchEval (K : Type) where
  dofMap : List ℕ → List ℕ
  matrix : List ℕ → ℕ → ℕ → K

/-- `locally_owned_range_indices().nth_index_in_set(k)` for the contiguous range of `nOwned` rows
starting at `first`. /repo/source/dealii/dealii_hierarchy_helpers.cc:180-182. -/
def nthRow (first nOwned k : ℕ) : Outcome ℕ :=
  if k < nOwned then .ok (first + k) else .ub "nth_index_in_set"

/-- Row numbers `i * n_local_eigenvectors + j`, `j = 0, …`,
/repo/source/dealii/dealii_hierarchy_helpers.cc:175-182, 210. -/
def nthRows (first nOwned : ℕ) : List ℕ → Outcome (List ℕ)
  | [] => .ok []
  | k :: ks => do
    let r ← nthRow first nOwned k
    let rs ← nthRows first nOwned ks
    pure (r :: rs)

/-- `agglomerate_system_matrix.vmult(correction, delta_eig)`, one entry.
/repo/source/dealii/dealii_hierarchy_helpers.cc:205-206. -/
def vmultEntry (A : ℕ → ℕ → K) (v : List K) (k : ℕ) : K := (v.mapIdx (fun l d => A k l * d)).sum

/-- The worker, /repo/source/dealii/dealii_hierarchy_helpers.cc:130-216.  For an empty patch it
returns without touching the copy object (lines 141-144).  The reset of the values followed by
`+=` (lines 167-173, 211-214) is an assignment. -/
def apWorker (wide : Bool) (nCells : ℕ) (pe : PatchEval K) (V delta : Entries K)
    (first nOwned nLocal : ℕ) (halo : Bool) (patches : List (List ℕ)) (i : ℕ) (_scratch : Unit)
    (copy : APCopy K) : Outcome (Unit × APCopy K) := do
  let index ← Outcome.get patches i "agglomerate_it"
  let cells ← patchCellsByIndex wide nCells index
  match cells with
  | [] => pure ((), copy)
  | _ :: _ =>
    let cols := pe.dofMap cells
    let rows ← nthRows first nOwned ((List.range nLocal).map (fun j => i * nLocal + j))
    let deltaEig := fun r =>
      cols.map (fun x => if halo then delta r x + V r x else delta r x)
    pure ((), ⟨rows, cols, rows.map (fun r =>
      (List.range cols.length).map (vmultEntry (pe.matrix cells) (deltaEig r)))⟩)

/-- The copier, /repo/source/dealii/dealii_hierarchy_helpers.cc:218-228: "set" into the matrix
without sparsity pattern accumulates until `compress` (comment lines 221-222); zero values are
skipped, which does not change the matrix as a function of its entries. -/
def apCopier (c : APCopy K) (M : Entries K) : Entries K :=
  (c.rows.zip c.values).foldl
    (fun M rv => (c.cols.zip rv.2).foldl (fun M xv => M.add rv.1 xv.1 xv.2) M) M

/-- `delta_correction_matrix` after the loop over interior and halo agglomerates,
/repo/source/dealii/dealii_hierarchy_helpers.cc:93-238, under the schedules `es` and `esH`. -/
def fastCorrection (wide : Bool) (nCells : ℕ) (pe : PatchEval K) (V delta : Entries K)
    (first nOwned : ℕ) (interior halo : List (List ℕ)) (es esH : List WSEvent) :
    Outcome (Entries K) := do
  let nLocal := if interior.isEmpty then 0 else nOwned / interior.length
  let empty : WS Unit (APCopy K) (Entries K) :=
    ⟨fun _ => (), fun _ => ⟨[], [], []⟩, fun _ _ => 0⟩
  let st ← wsRun (apWorker wide nCells pe V delta first nOwned nLocal false interior) apCopier es
    empty
  let st ← wsRun (apWorker wide nCells pe V delta first nOwned nLocal true halo) apCopier esH
    ⟨empty.scratch, empty.copies, st.out⟩
  pure st.out

/-- The whole branch: boundary agglomerates, the three matrices, the correction, and
`ap = (eigenvalues * V)^T + correction^T`, /repo/source/dealii/dealii_hierarchy_helpers.cc:240-287.
Entry `ap x r` for a dof `x` and an owned row `r`. -/
def fastAP (wide debug dynAdds : Bool) (nCells : ℕ) (owned : ℕ → Bool) (u : UserIndex) (nAgg : ℕ)
    (conn : ℕ → List ℕ) (pe : PatchEval K) (gdiag : ℕ → K) (first : ℕ) (s : Collected K)
    (es esH : List WSEvent) : Outcome (Assembled K × Entries K) := do
  let a ← assemble debug dynAdds gdiag first s ⟨fun _ _ => 0, fun _ _ => 0, fun _ _ => 0⟩
  let (interior, halo) ← buildBoundaryAgglomerates nCells owned u nAgg conn
  let corr ← fastCorrection wide nCells pe a.V a.delta first s.eigenvectors.length interior halo
    es esH
  pure (a, fun x r => s.eigenvalues.getD (r - first) 0 * a.V r x + corr r x)

end

end Mfmg
