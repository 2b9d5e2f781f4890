import Verif.Spec.MatrixMarket
import Mathlib.Algebra.Order.Ring.Abs
import Mathlib.Algebra.Order.Field.Rat
import Mathlib.Tactic.Linarith
import Mathlib.Tactic.Positivity
import Mathlib.Tactic.FieldSimp
import Mathlib.Tactic.NormNum

/-!
# C124: a matrix or vector written to a file is the matrix or vector

Full claim: when a function that writes a file returns, the file contains the matrix or the vector.
-/

set_option autoImplicit false

namespace Mfmg

section

variable {K : Type}

/-- **C124.** In debug builds: when the function returns, the file contains the matrix. (Partial: debug builds, or writers
that succeed; Trilinos matrices.) -/
theorem C124_matrix_partial (write : MarketWriter (SparseRows K)) (hw : ReportsFailure write) (a : SparseRows K) :
    (∀ file, marketMatrix true write a = .ok file → file = some a) ∧
    ((write a).1 = 0 → ∀ debug, marketMatrix debug write a = .ok (some a)) := by
  constructor
  · intro file h
    by_cases h0 : (write a).1 = 0
    · have : marketMatrix true write a = .ok (write a).2 := by simp [marketMatrix, Outcome.assert, h0]
      rw [this] at h
      rw [← Outcome.ok.inj h, hw a h0]
    · have : marketMatrix true write a = .aborted := by simp [marketMatrix, Outcome.assert, h0]
      rw [this] at h
      cases h
  · intro h0 debug
    rw [← hw a h0]
    cases debug <;> simp [marketMatrix, Outcome.assert, h0]

/-- The same for vectors. -/
theorem C124_vector_partial (write : MarketWriter (List K)) (hw : ReportsFailure write) (v : List K) :
    (∀ file, marketVector true write v = .ok file → file = some v) ∧
    ((write v).1 = 0 → ∀ debug, marketVector debug write v = .ok (some v)) := by
  constructor
  · intro file h
    by_cases h0 : (write v).1 = 0
    · have : marketVector true write v = .ok (write v).2 := by simp [marketVector, Outcome.assert, h0]
      rw [this] at h
      rw [← Outcome.ok.inj h, hw v h0]
    · have : marketVector true write v = .aborted := by simp [marketVector, Outcome.assert, h0]
      rw [this] at h
      cases h
  · intro h0 debug
    rw [← hw v h0]
    cases debug <;> simp [marketVector, Outcome.assert, h0]

/-- The claim is false in release builds: whenever the file cannot be written, for whatever reason and whatever matrix or
vector, the function returns as if it had been; there is no other way to notice it than to look at the file. -/
theorem C124_release_violated (write : MarketWriter (SparseRows K)) (a : SparseRows K) (writev : MarketWriter (List K))
    (v : List K) (h : (write a).1 ≠ 0) (hv : (writev v).1 ≠ 0) :
    (marketMatrix false write a = .ok (write a).2 ∧ marketMatrix true write a = .aborted) ∧
    (marketVector false writev v = .ok (writev v).2 ∧ marketVector true writev v = .aborted) := by
  refine ⟨⟨?_, ?_⟩, ?_, ?_⟩
  · simp [marketMatrix, Outcome.assert]
  · simp [marketMatrix, Outcome.assert, h]
  · simp [marketVector, Outcome.assert]
  · simp [marketVector, Outcome.assert, hv]

end

section dealii

variable {K : Type} [Field K] [LinearOrder K]

omit [Field K] [LinearOrder K] in
theorem setEntry_fold (es : List (ℕ × K)) (hes : (es.map Prod.fst).Nodup) (row : List (ℕ × K)) :
    es.foldl setEntry row = row.map fun f => (es.find? fun e => e.1 == f.1).getD f := by
  induction es generalizing row with
  | nil => simp
  | cons e es ih =>
    rw [List.map_cons, List.nodup_cons] at hes
    rw [List.foldl_cons, ih hes.2, setEntry, List.map_map]
    apply List.map_congr_left
    intro f _
    simp only [Function.comp]
    by_cases hf : f.1 = e.1
    · rw [if_pos hf, List.find?_cons_of_pos (by simp [hf])]
      have : es.find? (fun g => g.1 == e.1) = none := by
        rw [List.find?_eq_none]
        intro g hg
        simp only [beq_iff_eq]
        intro h
        exact hes.1 (h ▸ List.mem_map_of_mem hg)
      rw [this]
      rfl
    · rw [if_neg hf, List.find?_cons_of_neg (by simp [Ne.symm hf])]

theorem trilinosRowOf_eq (row : List (ℕ × K)) (hrow : (row.map Prod.fst).Nodup) :
    trilinosRowOf row = row.map fun e => (e.1, if dropTolerance < |e.2| then e.2 else 0) := by
  unfold trilinosRowOf
  have hsub : ((row.filter fun e => decide (dropTolerance < |e.2|)).map Prod.fst).Nodup :=
    hrow.sublist (List.filter_sublist.map _)
  rw [setEntry_fold _ hsub, List.map_map]
  apply List.map_congr_left
  intro e he
  simp only [Function.comp]
  have huniq : ∀ g ∈ row, g.1 = e.1 → g = e := fun g hg h => List.inj_on_of_nodup_map hrow hg he h
  by_cases h : dropTolerance < |e.2|
  · rw [if_pos h]
    have hex : (row.filter fun e => decide (dropTolerance < |e.2|)).find? (fun g => g.1 == e.1) = some e := by
      cases hfd : (row.filter fun e => decide (dropTolerance < |e.2|)).find? (fun g => g.1 == e.1) with
      | none =>
        rw [List.find?_eq_none] at hfd
        exact absurd (by simp) (hfd e (List.mem_filter.2 ⟨he, by simpa using h⟩))
      | some g =>
        have h1 := List.mem_of_find?_eq_some hfd
        have h2 := List.find?_some hfd
        rw [huniq g (List.mem_filter.1 h1).1 (by simpa using h2)]
    rw [hex]
    rfl
  · rw [if_neg h]
    have hno : (row.filter fun e => decide (dropTolerance < |e.2|)).find? (fun g => g.1 == e.1) = none := by
      rw [List.find?_eq_none]
      intro g hg hge
      have h3 := List.mem_filter.1 hg
      rw [huniq g h3.1 (by simpa using hge)] at h3
      exact h (by simpa using h3.2)
    rw [hno]
    rfl

/-- **C124**, deal.II matrices: if all entries that are not zero exceed `1e-13`, the file contains the matrix.  (Partial:
smaller entries are lost, see `C124_small_violated`; failures as above.) -/
theorem C124_dealii_partial (write : MarketWriter (SparseRows K)) (hw : ReportsFailure write) (a : SparseRows K)
    (ha : DistinctColumns a) (hlarge : ∀ row ∈ a, ∀ e ∈ row, e.2 = 0 ∨ 1 / 10 ^ 13 < |e.2|) :
    (∀ file, marketDealii true write a = .ok file → file = some a) ∧
    ((write a).1 = 0 → ∀ debug, marketDealii debug write a = .ok (some a)) := by
  have h : a.map trilinosRowOf = a := by
    conv_rhs => rw [← List.map_id a]
    apply List.map_congr_left
    intro row hr
    rw [trilinosRowOf_eq row (ha row hr)]
    conv_rhs => rw [id, ← List.map_id row]
    apply List.map_congr_left
    intro e he
    rcases hlarge row hr e he with h0 | h0
    · ext
      · rfl
      · simp [h0]
    · rw [if_pos (show dropTolerance < |e.2| from h0)]
      rfl
  unfold marketDealii
  rw [h]
  exact C124_matrix_partial write hw a

variable [IsStrictOrderedRing K]

/-- A bound of all entries. -/
theorem entries_bounded (a : SparseRows K) : ∃ B : K, 0 < B ∧ ∀ row ∈ a, ∀ e ∈ row, |e.2| ≤ B := by
  have hlist : ∀ l : List (ℕ × K), ∃ B : K, 0 < B ∧ ∀ e ∈ l, |e.2| ≤ B := by
    intro l
    induction l with
    | nil => exact ⟨1, one_pos, by simp⟩
    | cons e l ih =>
      obtain ⟨B, h1, h2⟩ := ih
      refine ⟨B + |e.2|, by positivity, ?_⟩
      intro f hf
      rcases List.mem_cons.1 hf with rfl | hf
      · linarith
      · linarith [h2 f hf, abs_nonneg e.2]
  obtain ⟨B, h1, h2⟩ := hlist a.flatten
  exact ⟨B, h1, fun row hr e he => h2 e (List.mem_flatten.2 ⟨row, hr, he⟩)⟩

/-- The claim is false for deal.II matrices, also in debug builds: every matrix, expressed in large enough units, is
written to the file as the zero matrix. -/
theorem C124_small_violated (write : MarketWriter (SparseRows K)) (hw : ReportsFailure write)
    (hok : ∀ a, (write a).1 = 0) (a : SparseRows K) (ha : DistinctColumns a) :
    ∃ c₀ : K, 0 < c₀ ∧ ∀ c, 0 < c → c ≤ c₀ → ∀ debug, ∃ file,
      marketDealii debug write (scaledRows c a) = .ok (some file) ∧
      file = a.map fun row => row.map fun e => (e.1, 0) := by
  obtain ⟨B, hB, hbound⟩ := entries_bounded a
  refine ⟨1 / 10 ^ 13 / B, by positivity, ?_⟩
  intro c hc hle debug
  refine ⟨_, ?_, rfl⟩
  have h : (scaledRows c a).map trilinosRowOf = a.map fun row => row.map fun e => (e.1, 0) := by
    unfold scaledRows
    rw [List.map_map]
    apply List.map_congr_left
    intro row hr
    simp only [Function.comp]
    rw [trilinosRowOf_eq _ (by rw [List.map_map]; exact ha row hr), List.map_map]
    apply List.map_congr_left
    intro e he
    simp only [Function.comp]
    rw [if_neg]
    rw [not_lt, abs_mul, abs_of_pos hc]
    have h1 : c * |e.2| ≤ 1 / 10 ^ 13 / B * B := mul_le_mul hle (hbound row hr e he) (abs_nonneg _) (by positivity)
    have h2 : (1 / 10 ^ 13 / B * B : K) = 1 / 10 ^ 13 := by field_simp
    rw [h2] at h1
    exact h1
  unfold marketDealii
  rw [h]
  exact (C124_matrix_partial write hw _).2 (hok _) debug

end dealii

section examples

/-- A writer that works. -/
def goodWriter {α : Type} : MarketWriter α := fun a => (0, some a)

theorem goodWriter_reports {α : Type} : ReportsFailure (goodWriter (α := α)) := fun _ _ => rfl

/-- The disk is full. -/
def fullDisk {α : Type} : MarketWriter α := fun _ => (-1, none)

/-- Two rows. -/
def exSparseRows : SparseRows ℚ := [[(0, 2), (1, -1)], [(1, 2), (0, -1)]]

theorem exSparseRows_distinct : DistinctColumns exSparseRows := by
  simp [DistinctColumns, exSparseRows]

example : marketMatrix false goodWriter exSparseRows = .ok (some exSparseRows) :=
  (C124_matrix_partial goodWriter goodWriter_reports exSparseRows).2 rfl false

example : marketVector false goodWriter [1, (2 : ℚ)] = .ok (some [1, 2]) :=
  (C124_vector_partial goodWriter goodWriter_reports [1, 2]).2 rfl false

example : marketMatrix false fullDisk exSparseRows = .ok none :=
  (C124_release_violated fullDisk exSparseRows fullDisk [1, 2] (by decide) (by decide)).1.1

example : marketDealii false goodWriter exSparseRows = .ok (some exSparseRows) :=
  (C124_dealii_partial goodWriter goodWriter_reports exSparseRows exSparseRows_distinct (by
    intro row hr e he
    right
    simp only [exSparseRows, List.mem_cons, List.not_mem_nil, or_false] at hr
    rcases hr with rfl | rfl <;>
      (simp only [List.mem_cons, List.not_mem_nil, or_false] at he
       rcases he with rfl | rfl <;> norm_num))).2 rfl false

example := C124_small_violated goodWriter goodWriter_reports (fun _ => rfl) exSparseRows exSparseRows_distinct

end examples

end Mfmg
