import Verif.Examples.DirectSolver
import Verif.Lemmas.DeviceHierarchy
import Verif.Props.DeviceSmoother
import Mathlib.Algebra.BigOperators.Group.Finset.Sigma
import Mathlib.Algebra.BigOperators.Fin
import Mathlib.Tactic.FinCases

/-!
# Examples for C91: libraries that meet the assumptions, a device, a matrix and a restriction
-/

set_option autoImplicit false

namespace Mfmg

/-- The entries of a stored matrix. -/
def rowsEntry (rows : List (List (ℕ × ℚ))) (i j : ℕ) : ℚ := ((rows.getD i []).lookup j).getD 0

/-- The transposed pattern with its values. -/
def transposedRows (m n : ℕ) (rows : List (List (ℕ × ℚ))) : List (List (ℕ × ℚ)) :=
  (List.range n).map fun j => (List.range m).filterMap fun i =>
    ((rows.getD i []).lookup j).map fun v => (i, v)

/-- All entries of a matrix. -/
def fullRows {m n : ℕ} (A : Matrix (Fin m) (Fin n) ℚ) : List (List (ℕ × ℚ)) :=
  List.ofFn fun i => List.ofFn fun j => ((j : ℕ), A i j)

open Classical in
/-- The libraries. -/
noncomputable def exDeviceLib : DeviceLib ℚ where
  solver := exCuSolver
  gemm m n k a b := if h : (∃ ra, a.HasRows ra) ∧ ∃ rb, b.HasRows rb then
      csrOf (fullRows ((Matrix.of fun (i : Fin m) (l : Fin k) => rowsEntry h.1.choose i l)
        * Matrix.of fun (l : Fin k) (j : Fin n) => rowsEntry h.2.choose l j))
    else a
  transposer m n calls := (csrOf (transposedRows m n (calls.map Prod.snd)), id)

theorem lookup_ofFn {n : ℕ} (f : Fin n → ℚ) (j : Fin n) :
    (List.ofFn fun i : Fin n => ((i : ℕ), f i)).lookup (j : ℕ) = some (f j) := by
  apply lookup_unique
  · rw [List.map_ofFn]
    exact List.nodup_ofFn.2 fun a b h => Fin.ext h
  · exact List.mem_ofFn.2 ⟨j, rfl⟩

theorem fullRows_rowsOf {m n : ℕ} (A : Matrix (Fin m) (Fin n) ℚ) : RowsOf (fullRows A) A := by
  refine ⟨by simp [fullRows], ?_, ?_⟩
  · intro r hr
    obtain ⟨i, rfl⟩ := List.mem_ofFn.1 hr
    refine ⟨?_, ?_⟩
    · rw [List.map_ofFn]
      exact List.nodup_ofFn.2 fun a b h => Fin.ext h
    · intro e he
      obtain ⟨j, rfl⟩ := List.mem_ofFn.1 he
      exact j.2
  · intro i j
    have : (fullRows A).getD i [] = List.ofFn fun j => ((j : ℕ), A i j) := by
      simp [fullRows]
    rw [this, lookup_ofFn, Option.getD_some]

theorem fullRows_holds {m n : ℕ} (A : Matrix (Fin m) (Fin n) ℚ) : (csrOf (fullRows A)).Holds A :=
  ⟨_, csrOf_hasRows _, fullRows_rowsOf A⟩

theorem transposedRows_keys (m j : ℕ) (rows : List (List (ℕ × ℚ))) :
    ((List.range m).filterMap fun i => ((rows.getD i []).lookup j).map fun v => (i, v)).map Prod.fst
      = (List.range m).filter fun i => ((rows.getD i []).lookup j).isSome := by
  induction List.range m with
  | nil => rfl
  | cons i l ih =>
    cases h : (rows.getD i []).lookup j with
    | none => rw [List.filterMap_cons, List.filter_cons]; simp only [h]; simpa using ih
    | some v => rw [List.filterMap_cons, List.filter_cons]; simp only [h]; simpa using ih

theorem transposedRows_rowsOf {m n : ℕ} (A : Matrix (Fin m) (Fin n) ℚ) (rows : List (List (ℕ × ℚ)))
    (h : RowsOf rows A) : RowsOf (transposedRows m n rows) A.transpose := by
  refine ⟨by simp [transposedRows], ?_, ?_⟩
  · intro r hr
    obtain ⟨j, hj, rfl⟩ := List.mem_map.1 hr
    refine ⟨?_, ?_⟩
    · rw [transposedRows_keys]
      exact List.nodup_range.filter _
    · intro e he
      obtain ⟨i, hi, hv⟩ := List.mem_filterMap.1 he
      obtain ⟨v, -, rfl⟩ := Option.map_eq_some_iff.1 hv
      exact List.mem_range.1 hi
  · intro j i
    have e : (transposedRows m n rows).getD j [] = (List.range m).filterMap fun i =>
        ((rows.getD i []).lookup (j : ℕ)).map fun v => (i, v) := by
      simp [transposedRows]
    rw [e, Matrix.transpose_apply, ← h.2.2 i j]
    congr 1
    cases hv : (rows.getD i []).lookup (j : ℕ) with
    | none =>
      apply lookup_none
      intro v hi
      obtain ⟨i', -, hv'⟩ := List.mem_filterMap.1 hi
      obtain ⟨w, hw, e⟩ := Option.map_eq_some_iff.1 hv'
      rw [Prod.mk.injEq] at e
      rw [e.1, hv] at hw
      cases hw
    | some v =>
      apply lookup_unique
      · rw [transposedRows_keys]
        exact List.nodup_range.filter _
      · exact List.mem_filterMap.2 ⟨i, List.mem_range.2 i.2, by rw [hv]; rfl⟩

theorem lookup_isSome_iff (l : List (ℕ × ℚ)) (j : ℕ) : (l.lookup j).isSome = true ↔ j ∈ l.map Prod.fst := by
  induction l with
  | nil => simp
  | cons e l ih =>
    rw [List.lookup_cons]
    by_cases h : j = e.1
    · simp [h]
    · have h' : (j == e.1) = false := by simpa using h
      rw [h', ih]
      simp [h]

theorem transposedRows_length {m n : ℕ} (A : Matrix (Fin m) (Fin n) ℚ) (rows : List (List (ℕ × ℚ)))
    (h : RowsOf rows A) :
    ((transposedRows m n rows).map List.length).sum = (rows.map List.length).sum := by
  have h1 : ∀ j, ((List.range m).filterMap fun i => ((rows.getD i []).lookup j).map fun v => (i, v)).length
      = ∑ i ∈ Finset.range m, if j ∈ (rows.getD i []).map Prod.fst then 1 else 0 := by
    intro j
    rw [← List.length_map (f := Prod.fst), transposedRows_keys, Finset.sum_ite, Finset.sum_const_zero, add_zero,
      Finset.sum_const, smul_eq_mul, mul_one]
    have : (Finset.range m).filter (fun i => j ∈ (rows.getD i []).map Prod.fst)
        = ((List.range m).filter fun i => ((rows.getD i []).lookup j).isSome).toFinset := by
      ext i
      simp only [Finset.mem_filter, Finset.mem_range, List.mem_toFinset, List.mem_filter, List.mem_range,
        lookup_isSome_iff]
    rw [this, List.toFinset_card_of_nodup (List.nodup_range.filter _)]
  have h2 : ((transposedRows m n rows).map List.length).sum
      = ∑ j ∈ Finset.range n, ∑ i ∈ Finset.range m, if j ∈ (rows.getD i []).map Prod.fst then 1 else 0 := by
    unfold transposedRows
    rw [List.map_map]
    change ∑ j ∈ Finset.range n, _ = _
    exact Finset.sum_congr rfl fun j _ => h1 j
  have h3 : (rows.map List.length).sum = ∑ i ∈ Finset.range m, (rows.getD i []).length := by
    have e : rows = (List.range m).map fun i => rows.getD i [] := by
      apply List.ext_getElem (by simp [h.1])
      intro i h1 h2
      simp [h1]
    conv_lhs => rw [e, List.map_map]
    rfl
  rw [h2, h3, Finset.sum_comm]
  refine Finset.sum_congr rfl fun i hi => ?_
  have hi' : i < rows.length := by rw [h.1]; exact Finset.mem_range.1 hi
  have hr := h.2.1 (rows.getD i []) (by
    rw [List.getD_eq_getElem?_getD, List.getElem?_eq_getElem hi', Option.getD_some]
    exact List.getElem_mem _)
  generalize rows.getD i [] = r at hr
  rw [Finset.sum_ite, Finset.sum_const_zero, add_zero, Finset.sum_const, smul_eq_mul, mul_one]
  have : (Finset.range n).filter (fun j => j ∈ r.map Prod.fst) = (r.map Prod.fst).toFinset := by
    ext j
    simp only [Finset.mem_filter, Finset.mem_range, List.mem_toFinset, and_iff_right_iff_imp]
    intro hj
    obtain ⟨e, he, rfl⟩ := List.mem_map.1 hj
    exact hr.2 e he
  rw [this, List.toFinset_card_of_nodup hr.1, List.length_map]

theorem rowsEntry_eq {m n : ℕ} {A : Matrix (Fin m) (Fin n) ℚ} {a : Csr ℚ} (h : a.Holds A)
    (hex : ∃ rows, a.HasRows rows) :
    (Matrix.of fun (i : Fin m) (j : Fin n) => rowsEntry hex.choose i j) = A := by
  obtain ⟨rows, h1, h2⟩ := h
  rw [hasRows_unique _ _ _ hex.choose_spec h1]
  ext i j
  exact h2.2.2 i j

theorem exDeviceLib_correct : exDeviceLib.Correct where
  solver := exCuSolver_correct
  gemm := by
    intro m k n A B a b ha hb
    have hex : (∃ ra, a.HasRows ra) ∧ ∃ rb, b.HasRows rb := ⟨⟨_, ha.choose_spec.1⟩, ⟨_, hb.choose_spec.1⟩⟩
    simp only [exDeviceLib, dif_pos hex]
    rw [rowsEntry_eq ha hex.1, rowsEntry_eq hb hex.2]
    exact fullRows_holds _
  transposer := by
    intro m n A rows h
    have e : ((List.range m).zip rows).map Prod.snd = rows := List.map_snd_zip (by simp [h.1])
    refine ⟨transposedRows m n rows, ?_, ?_, transposedRows_length A rows h⟩
    · simp only [exDeviceLib, e]
      exact csrOf_hasRows _
    · have : (fun e : ℕ × ℚ => ((exDeviceLib.transposer m n ((List.range m).zip rows)).2 e.1, e.2)) = id := rfl
      rw [this, List.map_id_fun, List.map_id]
      exact transposedRows_rowsOf A rows h

/-- A device that runs its threads in turn and returns sevens from uninitialised memory. -/
def exDevice : Device ℚ where
  schedule _ size := List.range (nBlocks size * 512)
  junk _ := 7
  smootherSchedule _ size nnz := exSmootherSchedule size nnz
  smootherJunk _ _ := 7

theorem exDevice_valid : exDevice.Valid :=
  ⟨fun _ _ => List.Perm.refl _, fun _ size nnz => exSmootherSchedule_valid size nnz⟩

/-- A matrix on the device. -/
def exDevMat {m n : ℕ} (A : Matrix (Fin m) (Fin n) ℚ) : DevMat ℚ := ⟨csrOf (fullRows A), m, n, true, true⟩

theorem exDevMat_stores {m n : ℕ} (A : Matrix (Fin m) (Fin n) ℚ) : (exDevMat A).Stores A :=
  ⟨fullRows_holds A, rfl, rfl, rfl, rfl⟩

/-- An evaluator with the matrix `A` that finds the restriction `R`. -/
def exDevEvaluator {m n : ℕ} (A : Matrix (Fin n) (Fin n) ℚ) (R : Matrix (Fin m) (Fin n) ℚ) :
    DevEvaluator ℚ where
  type := chars! "CudaMeshEvaluator"
  dim := 2
  global := exDevMat A
  restrictor _ := .ok (exDevMat R)

theorem exDevEvaluator_provides {m n : ℕ} (A : Matrix (Fin n) (Fin n) ℚ) (R : Matrix (Fin m) (Fin n) ℚ) :
    (exDevEvaluator A R).Provides A :=
  ⟨rfl, Or.inl rfl, exDevMat_stores A⟩

end Mfmg
