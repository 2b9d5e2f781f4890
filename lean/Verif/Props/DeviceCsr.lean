import Verif.Spec.DeviceCsr
import Mathlib.Data.List.Basic
import Mathlib.Data.List.TakeWhile
import Mathlib.Algebra.Order.BigOperators.Group.List
import Mathlib.Tactic.IntervalCases

/-!
# C44: conversion to the device CSR format
-/

set_option autoImplicit false

namespace Mfmg

variable {K : Type}

/-! ### The CSR arrays of a list of rows -/

/-- The CSR arrays of the given rows. -/
def csrOf (rows : List (List (ℕ × K))) : Csr K where
  val := rows.flatten.map Prod.snd
  col := rows.flatten.map Prod.fst
  rowPtr := (List.range (rows.length + 1)).map (rowStart rows)

theorem rowStart_append (rows : List (List (ℕ × K))) (r : List (ℕ × K)) (i : ℕ)
    (h : i ≤ rows.length) : rowStart (rows ++ [r]) i = rowStart rows i := by
  unfold rowStart
  rw [List.take_append_of_le_length h]

theorem rowStart_length (rows : List (List (ℕ × K))) :
    rowStart rows rows.length = rows.flatten.length := by
  simp [rowStart, List.length_flatten]

theorem csrOf_rowPtr_last (rows : List (List (ℕ × K))) :
    (csrOf rows).rowPtr.getLastD 0 = rows.flatten.length := by
  rw [← rowStart_length]
  simp [csrOf, List.range_succ]

theorem csrOf_append (rows : List (List (ℕ × K))) (r : List (ℕ × K)) :
    csrOf (rows ++ [r]) =
      { val := (csrOf rows).val ++ r.map Prod.snd
        col := (csrOf rows).col ++ r.map Prod.fst
        rowPtr := (csrOf rows).rowPtr ++ [rows.flatten.length + r.length] } := by
  have h1 : (List.range ((rows ++ [r]).length + 1)).map (rowStart (rows ++ [r]))
      = (List.range (rows.length + 1)).map (rowStart rows) ++ [rows.flatten.length + r.length] := by
    rw [List.length_append, List.length_singleton, List.range_succ, List.map_append]
    congr 1
    · apply List.map_congr_left
      intro i hi
      exact rowStart_append rows r i (by simpa [Nat.lt_succ_iff] using hi)
    · have := rowStart_length (rows ++ [r])
      simp only [List.length_append, List.length_singleton] at this
      simp [this]
  simp only [csrOf, List.flatten_append, List.map_append, Csr.mk.injEq]
  refine ⟨by simp, by simp, h1⟩

theorem rowStart_succ (rows : List (List (ℕ × K))) (i : ℕ) (h : i < rows.length) :
    rowStart rows (i + 1) = rowStart rows i + rows[i].length := by
  unfold rowStart
  rw [List.take_succ_eq_append_getElem h, List.map_append, List.sum_append]
  rfl

theorem flatten_slice (rows : List (List (ℕ × K))) (i : ℕ) (h : i < rows.length) :
    (rows.flatten.drop (rowStart rows i)).take rows[i].length = rows[i] := by
  have h1 : rows.flatten = (rows.take i).flatten ++ (rows[i] ++ (rows.drop (i + 1)).flatten) := by
    conv_lhs => rw [← List.take_append_drop i rows, List.drop_eq_getElem_cons h]
    rw [List.flatten_append, List.flatten_cons]
  have h2 : rowStart rows i = (rows.take i).flatten.length := by
    simp [rowStart, List.length_flatten]
  rw [h1, h2, List.drop_left, List.take_left]

theorem csrOf_hasRows (rows : List (List (ℕ × K))) : (csrOf rows).HasRows rows where
  cols := by rw [csrOf, List.length_map, List.length_flatten]
  vals := by rw [csrOf, List.length_map, List.length_flatten]
  ptrs := rfl
  rows_eq := by
    intro i h
    have hz : (csrOf rows).col.zip (csrOf rows).val = rows.flatten := by
      rw [csrOf, List.zip_map']
      exact List.map_id _
    have h1 : (csrOf rows).rowPtr.getD i 0 = rowStart rows i := by
      simp [csrOf, List.getD_eq_getElem?_getD, show i < rows.length + 1 by omega]
    have h2 : (csrOf rows).rowPtr.getD (i + 1) 0 = rowStart rows (i + 1) := by
      simp [csrOf, List.getD_eq_getElem?_getD, h]
    unfold Csr.row
    rw [hz, h1, h2, rowStart_succ rows i h, Nat.add_sub_cancel_left]
    exact flatten_slice rows i h

theorem copyToGpu_ok {α : Type} (debug : Bool) (v : List α) (h : 0 < v.length) :
    copyToGpu debug v = .ok v := by
  have : v.length ≠ 0 := by omega
  simp [copyToGpu, Outcome.assert, this]

theorem uploadCsr_csrOf (debug : Bool) (rows : List (List (ℕ × K)))
    (h : 0 < (rows.map List.length).sum) : uploadCsr debug (csrOf rows) = .ok (csrOf rows) := by
  have h1 := (csrOf_hasRows rows).cols
  have h2 := (csrOf_hasRows rows).vals
  have h3 : 0 < (csrOf rows).rowPtr.length := by simp [csrOf]
  unfold uploadCsr
  rw [copyToGpu_ok debug _ (by omega), copyToGpu_ok debug _ (by omega), copyToGpu_ok debug _ h3]
  rfl

/-! ### Moving the diagonal -/

/-- The row after the diagonal has been moved to its place. -/
def sortedEntries (row : ℕ) (d : ℕ × K) (rest : List (ℕ × K)) : List (ℕ × K) :=
  rest.takeWhile (fun e => decide (e.1 < row)) ++ d :: rest.dropWhile (fun e => decide (e.1 < row))

theorem moveDiag_spec (read : List ℕ → ℕ → Outcome ℕ) (hread : ReadsArray read) (row : ℕ)
    (d : ℕ × K) (pre : List (ℕ × K)) :
    ∀ (rest moved : List (ℕ × K)) (x : ℕ × K), ∃ r : ℕ × List K × List ℕ,
      r.2.1.set (pre.length + r.1 - 1) d.2
        = (pre ++ moved ++ sortedEntries row d rest).map Prod.snd ∧
      r.2.2.set (pre.length + r.1 - 1) d.1
        = (pre ++ moved ++ sortedEntries row d rest).map Prod.fst ∧
      moveDiag read row pre.length rest.length (moved.length + 1)
          ((pre ++ moved ++ x :: rest).map Prod.snd) ((pre ++ moved ++ x :: rest).map Prod.fst)
        = if ∀ e ∈ rest, e.1 < row then (read r.2.2 r.2.2.length >>= fun _ => .ok r) else .ok r := by
  have hset : ∀ (moved : List (ℕ × K)) (x y : ℕ × K) (rest : List (ℕ × K)),
      (pre ++ moved ++ x :: rest).set (pre.length + (moved.length + 1) - 1) y
        = pre ++ moved ++ y :: rest := by
    intro moved x y rest
    have : pre.length + (moved.length + 1) - 1 = (pre ++ moved).length := by
      rw [List.length_append]; omega
    rw [this, List.set_append_right _ _ (le_refl _), Nat.sub_self, List.set_cons_zero]
  have hset1 : ∀ (moved : List (ℕ × K)) (x y : ℕ × K) (rest : List (ℕ × K)),
      ((pre ++ moved ++ x :: rest).map Prod.snd).set (pre.length + (moved.length + 1) - 1) y.2
        = (pre ++ moved ++ y :: rest).map Prod.snd := by
    intro moved x y rest
    rw [← hset moved x y rest, List.map_set]
  have hset2 : ∀ (moved : List (ℕ × K)) (x y : ℕ × K) (rest : List (ℕ × K)),
      ((pre ++ moved ++ x :: rest).map Prod.fst).set (pre.length + (moved.length + 1) - 1) y.1
        = (pre ++ moved ++ y :: rest).map Prod.fst := by
    intro moved x y rest
    rw [← hset moved x y rest, List.map_set]
  intro rest
  induction rest with
  | nil =>
    intro moved x
    refine ⟨(moved.length + 1, (pre ++ moved ++ [x]).map Prod.snd,
      (pre ++ moved ++ [x]).map Prod.fst), hset1 moved x d [], hset2 moved x d [], ?_⟩
    have hl : pre.length + (moved.length + 1) = ((pre ++ moved ++ [x]).map Prod.fst).length := by
      simp only [List.length_map, List.length_append, List.length_singleton]; omega
    simp only [List.length_nil, moveDiag, hl]
    simp
  | cons y rest ih =>
    intro moved x
    have hidx : pre.length + (moved.length + 1) < ((pre ++ moved ++ x :: y :: rest)).length := by
      simp only [List.length_append, List.length_cons]; omega
    have hy : (pre ++ moved ++ x :: y :: rest)[pre.length + (moved.length + 1)] = y := by
      have : pre.length + (moved.length + 1) = (pre ++ moved).length + 1 := by
        rw [List.length_append]; omega
      simp only [this]
      rw [List.getElem_append_right (by omega)]
      simp
    have hr : read ((pre ++ moved ++ x :: y :: rest).map Prod.fst)
        (pre.length + (moved.length + 1)) = .ok y.1 := by
      rw [hread _ _ (by rw [List.length_map]; exact hidx), List.getElem_map, hy]
    have hv : Outcome.get ((pre ++ moved ++ x :: y :: rest).map Prod.snd)
        (pre.length + (moved.length + 1)) "val[offset + pos]" = .ok y.2 := by
      unfold Outcome.get
      rw [List.getElem?_map, List.getElem?_eq_getElem hidx, hy]
      rfl
    by_cases hc : y.1 < row
    · obtain ⟨r, h1, h2, h3⟩ := ih (moved ++ [y]) y
      have e1 : pre ++ (moved ++ [y]) ++ y :: rest = pre ++ moved ++ y :: y :: rest := by simp
      have e2 : pre ++ (moved ++ [y]) ++ sortedEntries row d rest
          = pre ++ moved ++ sortedEntries row d (y :: rest) := by
        simp [sortedEntries, hc]
      have e3 : (moved ++ [y]).length = moved.length + 1 := by simp
      rw [e2] at h1 h2
      rw [e1, e3] at h3
      refine ⟨r, h1, h2, ?_⟩
      rw [List.length_cons, moveDiag, hr]
      simp only [Outcome.ok_bind, hc, if_true, hv]
      rw [hset1, hset2, h3]
      simp only [List.forall_mem_cons, hc, true_and]
    · refine ⟨(moved.length + 1, (pre ++ moved ++ x :: y :: rest).map Prod.snd,
        (pre ++ moved ++ x :: y :: rest).map Prod.fst), ?_, ?_, ?_⟩
      · rw [hset1]; simp [sortedEntries, hc]
      · rw [hset2]; simp [sortedEntries, hc]
      · rw [List.length_cons, moveDiag, hr]
        simp [hc]

/-- The entries of row `row` of the device matrix made from the deal.II row `entries`. -/
def movedRow (row : ℕ) : List (ℕ × K) → List (ℕ × K)
  | [] => []
  | d :: rest => sortedEntries row d rest

theorem movedRow_perm (row : ℕ) (entries : List (ℕ × K)) : (movedRow row entries).Perm entries := by
  cases entries with
  | nil => exact List.Perm.refl _
  | cons d rest =>
    unfold movedRow sortedEntries
    refine List.perm_middle.trans ?_
    rw [List.takeWhile_append_dropWhile]

theorem movedRow_sorted (n row : ℕ) (entries : List (ℕ × K)) (h : DealiiRow n row entries) :
    SortedRow (movedRow row entries) := by
  obtain ⟨d, rest, rfl, _, hs, hne⟩ := h
  unfold SortedRow movedRow sortedEntries
  have hp : rest.Pairwise (fun a b => a.1 < b.1) := List.pairwise_map.1 hs
  rw [List.pairwise_map, List.pairwise_append, List.pairwise_cons]
  have hsplit := List.takeWhile_append_dropWhile (p := fun e : ℕ × K => decide (e.1 < row)) (l := rest)
  have hp' := hp
  rw [← hsplit, List.pairwise_append] at hp'
  have hgt : ∀ e ∈ rest.dropWhile (fun e => decide (e.1 < row)), row < e.1 := by
    intro e he
    cases hdw : rest.dropWhile (fun e => decide (e.1 < row)) with
    | nil => rw [hdw] at he; simp at he
    | cons f l =>
      have hf : ¬ f.1 < row := by
        have := List.head_dropWhile_not (fun e : ℕ × K => decide (e.1 < row)) (l := rest)
          (by rw [hdw]; simp)
        simp only [hdw] at this
        exact of_decide_eq_false this
      have hfm : f ∈ rest := by
        rw [← hsplit, hdw]; simp
      have hf' := (hne f hfm).1
      have hpd := hp'.2.1
      rw [hdw] at he hpd
      rcases List.mem_cons.1 he with rfl | he
      · omega
      · have := (List.pairwise_cons.1 hpd).1 e he
        omega
  have hlt : ∀ e ∈ rest.takeWhile (fun e => decide (e.1 < row)), e.1 < row := by
    intro e he
    simpa using List.mem_takeWhile_imp he
  refine ⟨hp'.1, ⟨hgt, hp'.2.1⟩, ?_⟩
  intro a ha b hb
  rcases List.mem_cons.1 hb with rfl | hb
  · exact hlt a ha
  · exact hp'.2.2 a ha b hb

theorem convertRow_square (read : List ℕ → ℕ → Outcome ℕ) (hread : ReadsArray read) (row : ℕ)
    (done : List (List (ℕ × K))) (d : ℕ × K) (rest : List (ℕ × K)) :
    ∃ l : List ℕ, convertRow read true row (d :: rest) (csrOf done)
      = if ∀ e ∈ rest, e.1 < row then
          (read l l.length >>= fun _ => .ok (csrOf (done ++ [movedRow row (d :: rest)])))
        else .ok (csrOf (done ++ [movedRow row (d :: rest)])) := by
  obtain ⟨r, h1, h2, h3⟩ := moveDiag_spec read hread row d done.flatten rest [] d
  refine ⟨r.2.2, ?_⟩
  have hv : (csrOf done).val ++ (d :: rest).map Prod.snd
      = (done.flatten ++ [] ++ d :: rest).map Prod.snd := by simp [csrOf]
  have hc : (csrOf done).col ++ (d :: rest).map Prod.fst
      = (done.flatten ++ [] ++ d :: rest).map Prod.fst := by simp [csrOf]
  have g1 : Outcome.get ((done.flatten ++ [] ++ d :: rest).map Prod.fst) done.flatten.length
      "column_index[offset]" = .ok d.1 := by
    unfold Outcome.get
    rw [List.getElem?_map, List.append_nil, List.getElem?_append_right (le_refl _), Nat.sub_self]
    rfl
  have g2 : Outcome.get ((done.flatten ++ [] ++ d :: rest).map Prod.snd) done.flatten.length
      "diag_element" = .ok d.2 := by
    unfold Outcome.get
    rw [List.getElem?_map, List.append_nil, List.getElem?_append_right (le_refl _), Nat.sub_self]
    rfl
  have hfin : ({ val := r.2.1.set (done.flatten.length + r.1 - 1) d.2
                 col := r.2.2.set (done.flatten.length + r.1 - 1) d.1
                 rowPtr := (csrOf done).rowPtr ++ [done.flatten.length + (d :: rest).length] } : Csr K)
      = csrOf (done ++ [movedRow row (d :: rest)]) := by
    rw [csrOf_append, h1, h2, (movedRow_perm row (d :: rest)).length_eq]
    simp [csrOf, movedRow]
  unfold convertRow
  simp only [csrOf_rowPtr_last, hv, hc, if_true, g1, g2, Outcome.ok_bind, List.length_cons,
    Nat.add_sub_cancel]
  have h3' := h3
  simp only [List.length_nil, Nat.zero_add] at h3'
  rw [h3']
  rw [List.length_cons] at hfin
  split_ifs with hall
  · cases read r.2.2 r.2.2.length with
    | ok c => exact congrArg Outcome.ok hfin
    | throws m => rfl
    | aborted => rfl
    | ub w => rfl
  · exact congrArg Outcome.ok hfin

/-! ### All rows -/

/-- The rows of the device matrix made from the given rows of a square deal.II matrix, the first of
which is row `row`. -/
def movedRows : ℕ → List (List (ℕ × K)) → List (List (ℕ × K))
  | _, [] => []
  | row, r :: rs => movedRow row r :: movedRows (row + 1) rs

theorem movedRows_length (row : ℕ) (rows : List (List (ℕ × K))) :
    (movedRows row rows).length = rows.length := by
  induction rows generalizing row with
  | nil => rfl
  | cons r rs ih => simp [movedRows, ih]

theorem movedRows_getElem (row : ℕ) (rows : List (List (ℕ × K))) (i : ℕ) (h : i < rows.length)
    (h' : i < (movedRows row rows).length) :
    (movedRows row rows)[i] = movedRow (row + i) rows[i] := by
  induction rows generalizing row i with
  | nil => simp at h
  | cons r rs ih =>
    cases i with
    | zero => rfl
    | succ i =>
      simp only [movedRows, List.getElem_cons_succ]
      rw [ih (row + 1) i (by simpa using h)]
      congr 1; omega

theorem convertRows_total (read : List ℕ → ℕ → Outcome ℕ) (hread : ReadsArray read)
    (hend : ∀ l, ∃ c, read l l.length = .ok c) (n : ℕ) :
    ∀ (rows : List (List (ℕ × K))) (row : ℕ) (done : List (List (ℕ × K))),
      (∀ i (h : i < rows.length), DealiiRow n (row + i) rows[i]) →
      convertRows read true row rows (csrOf done) = .ok (csrOf (done ++ movedRows row rows)) := by
  intro rows
  induction rows with
  | nil => intro row done _; simp [convertRows, movedRows]
  | cons r rs ih =>
    intro row done hrows
    obtain ⟨d, rest, hr, _⟩ := hrows 0 (by simp)
    simp only [List.getElem_cons_zero, Nat.add_zero] at hr
    obtain ⟨l, hl⟩ := convertRow_square read hread row done (row, d) rest
    obtain ⟨c, hc⟩ := hend l
    have h1 : convertRow read true row r (csrOf done) = .ok (csrOf (done ++ [movedRow row r])) := by
      rw [hr, hl, hc]; simp
    rw [convertRows, h1, Outcome.ok_bind, ih (row + 1) (done ++ [movedRow row r])]
    · simp [movedRows]
    · intro i hi
      have := hrows (i + 1) (by simpa using hi)
      rw [List.getElem_cons_succ] at this
      have e : row + 1 + i = row + (i + 1) := by omega
      rw [e]; exact this

theorem strictRead_reads : ReadsArray strictRead := by
  intro l i h
  simp [strictRead, Outcome.get, List.getElem?_eq_getElem h]

theorem strictRead_end (l : List ℕ) : strictRead l l.length = .ub "column_index[offset + pos]" := by
  simp [strictRead, Outcome.get]

/-- C44: `convert_matrix` of a square deal.II matrix with at least one row always has undefined
behaviour, in every build: in the last row every column except the diagonal is smaller than the row
index, so the loop runs to the end of `column_index` and reads the element after it before it tests
`pos < counter`. -/
theorem C44_square_violated (debug : Bool) (n : ℕ) (rows : List (List (ℕ × K)))
    (hn : rows.length = n) (hpos : 0 < n)
    (hrows : ∀ i (h : i < rows.length), DealiiRow n i rows[i]) :
    convertDealii strictRead debug n rows = .ub "column_index[offset + pos]" := by
  have key : ∀ (rs : List (List (ℕ × K))) (row : ℕ) (done : List (List (ℕ × K))), rs ≠ [] →
      row + rs.length = n → (∀ i (h : i < rs.length), DealiiRow n (row + i) rs[i]) →
      convertRows strictRead true row rs (csrOf done) = .ub "column_index[offset + pos]" := by
    intro rs
    induction rs with
    | nil => intro _ _ h; exact absurd rfl h
    | cons r rs ih =>
      intro row done _ hlen hdr
      obtain ⟨d, rest, hr, _, _, hne⟩ := hdr 0 (by simp)
      simp only [List.getElem_cons_zero, Nat.add_zero] at hr hne
      obtain ⟨l, hl⟩ := convertRow_square strictRead strictRead_reads row done (row, d) rest
      rw [convertRows, hr, hl]
      by_cases hall : ∀ e ∈ rest, e.1 < row
      · rw [if_pos hall, strictRead_end]
        rfl
      · rw [if_neg hall, Outcome.ok_bind]
        apply ih
        · rintro rfl
          apply hall
          intro e he
          have := hne e he
          simp at hlen
          omega
        · simp only [List.length_cons] at hlen; omega
        · intro i hi
          have := hdr (i + 1) (by simpa using hi)
          rw [List.getElem_cons_succ] at this
          have e : row + 1 + i = row + (i + 1) := by omega
          rw [e]; exact this
  have h0 : ({ val := [], col := [], rowPtr := [0] } : Csr K) = csrOf [] := by
    simp [csrOf, rowStart]
  unfold convertDealii
  rw [h0, hn, beq_self_eq_true, key rows 0 [] (by rintro rfl; simp at hn; omega) (by omega)
    (by simpa using hrows)]
  rfl

/-- C44, the part that holds for square matrices: if the read of the element after the end of
`column_index` returns *some* value (as it does in practice), then for every matrix the device matrix
has, row by row, exactly the stored entries of the host matrix, sorted by column, whatever that value
is.  Missing: the read is undefined behaviour (`C44_square_violated`). -/
theorem C44_square_partial (read : List ℕ → ℕ → Outcome ℕ) (hread : ReadsArray read)
    (hend : ∀ l, ∃ c, read l l.length = .ok c) (debug : Bool) (n : ℕ)
    (rows : List (List (ℕ × K))) (hn : rows.length = n) (hpos : 0 < n)
    (hrows : ∀ i (h : i < rows.length), DealiiRow n i rows[i]) :
    ∃ c rows', convertDealii read debug n rows = .ok c ∧ c.HasRows rows' ∧
      rows'.length = rows.length ∧
      ∀ i (h : i < rows.length) (h' : i < rows'.length),
        rows'[i].Perm rows[i] ∧ SortedRow rows'[i] := by
  have h0 : ({ val := [], col := [], rowPtr := [0] } : Csr K) = csrOf [] := by
    simp [csrOf, rowStart]
  refine ⟨csrOf (movedRows 0 rows), movedRows 0 rows, ?_, csrOf_hasRows _,
    movedRows_length 0 rows, ?_⟩
  · unfold convertDealii
    rw [h0, hn, beq_self_eq_true, convertRows_total read hread hend n rows 0 []
      (by simpa using hrows), Outcome.ok_bind, List.nil_append]
    apply uploadCsr_csrOf
    have hlen : (movedRows 0 rows).length = n := by rw [movedRows_length, hn]
    have h1 : (movedRows 0 rows)[0]'(by omega) ∈ movedRows 0 rows := List.getElem_mem _
    have h2 : 0 < ((movedRows 0 rows)[0]'(by omega)).length := by
      rw [movedRows_getElem 0 rows 0 (by omega) (by omega), (movedRow_perm _ _).length_eq]
      obtain ⟨d, rest, hr, _⟩ := hrows 0 (by omega)
      rw [hr]; simp
    have h3 := List.le_sum_of_mem (List.mem_map_of_mem (f := List.length) h1)
    omega
  · intro i h h'
    rw [movedRows_getElem 0 rows i h h', Nat.zero_add]
    exact ⟨movedRow_perm _ _, movedRow_sorted n i _ (hrows i h)⟩

/-- A 3×3 matrix as deal.II stores it: diagonal first. -/
def exSquare : List (List (ℕ × ℕ)) :=
  [[(0, 20), (1, 1), (2, 2)], [(1, 21), (0, 3), (2, 4)], [(2, 22), (0, 5), (1, 6)]]

theorem exSquare_rows : ∀ i (h : i < exSquare.length), DealiiRow 3 i exSquare[i] := by
  intro i h
  have : i < 3 := h
  interval_cases i
  · exact ⟨20, [(1, 1), (2, 2)], rfl, by decide, by decide, by decide⟩
  · exact ⟨21, [(0, 3), (2, 4)], rfl, by decide, by decide, by decide⟩
  · exact ⟨22, [(0, 5), (1, 6)], rfl, by decide, by decide, by decide⟩

example : convertDealii strictRead false 3 exSquare = .ub "column_index[offset + pos]" :=
  C44_square_violated false 3 exSquare rfl (by decide) exSquare_rows

/-- An array read that returns 7 past the end. -/
def exRead (l : List ℕ) (i : ℕ) : Outcome ℕ := .ok (l.getD i 7)

example : convertDealii exRead true 3 exSquare = .ok
    { val := [20, 1, 2, 3, 21, 4, 5, 6, 22], col := [0, 1, 2, 0, 1, 2, 0, 1, 2],
      rowPtr := [0, 3, 6, 9] } := by decide +kernel

example : ∃ c rows', convertDealii exRead true 3 exSquare = .ok c ∧ c.HasRows rows' ∧
      rows'.length = exSquare.length ∧
      ∀ i (h : i < exSquare.length) (h' : i < rows'.length),
        rows'[i].Perm exSquare[i] ∧ SortedRow rows'[i] :=
  C44_square_partial exRead (by intro l i h; simp [exRead, List.getD_eq_getElem?_getD, h])
    (fun l => ⟨7, by simp [exRead]⟩) true 3 exSquare rfl (by decide) exSquare_rows

theorem convertRows_rect (read : List ℕ → ℕ → Outcome ℕ) :
    ∀ (rows : List (List (ℕ × K))) (row : ℕ) (done : List (List (ℕ × K))),
      convertRows read false row rows (csrOf done) = .ok (csrOf (done ++ rows)) := by
  intro rows
  induction rows with
  | nil => intro row done; simp [convertRows]
  | cons r rs ih =>
    intro row done
    have h1 : convertRow read false row r (csrOf done) = .ok (csrOf (done ++ [r])) := by
      simp only [convertRow, csrOf_rowPtr_last]
      rw [csrOf_append]
      rfl
    rw [convertRows, h1, Outcome.ok_bind, ih]
    simp

/-- C44: a rectangular deal.II matrix with at least one stored entry is converted without undefined
behaviour, and every row of the device matrix has the entries of the host row in the same order. -/
theorem C44_rectangular (debug : Bool) (n : ℕ) (rows : List (List (ℕ × K)))
    (hn : rows.length ≠ n) (hnnz : 0 < (rows.map List.length).sum) :
    ∃ c, convertDealii strictRead debug n rows = .ok c ∧ c.HasRows rows := by
  refine ⟨csrOf rows, ?_, csrOf_hasRows rows⟩
  have h0 : ({ val := [], col := [], rowPtr := [0] } : Csr K) = csrOf [] := by
    simp [csrOf, rowStart]
  have h1 : (rows.length == n) = false := by simpa using hn
  unfold convertDealii
  rw [h0, h1, convertRows_rect, Outcome.ok_bind, List.nil_append]
  exact uploadCsr_csrOf debug rows hnnz

example : ∃ c, convertDealii strictRead true 3 [[(0, 1), (2, 5)], [(1, 7)]] = .ok c ∧
    c.HasRows [[(0, 1), (2, 5)], [(1, 7)]] :=
  C44_rectangular true 3 _ (by decide) (by decide)

theorem convertTrilinos_fold (gid : ℕ → ℕ) (rows done : List (List (ℕ × K))) :
    rows.foldl (fun (s : Csr K) r =>
      { val := s.val ++ r.map Prod.snd
        col := s.col ++ r.map (fun e => gid e.1)
        rowPtr := s.rowPtr ++ [s.rowPtr.getLastD 0 + r.length] }) (csrOf done)
      = csrOf (done ++ rows.map (List.map fun e => (gid e.1, e.2))) := by
  induction rows generalizing done with
  | nil => simp
  | cons r rs ih =>
    rw [List.foldl_cons, csrOf_rowPtr_last]
    have : ({ val := (csrOf done).val ++ r.map Prod.snd
              col := (csrOf done).col ++ r.map (fun e => gid e.1)
              rowPtr := (csrOf done).rowPtr ++ [done.flatten.length + r.length] } : Csr K)
        = csrOf (done ++ [r.map fun e => (gid e.1, e.2)]) := by
      rw [csrOf_append]
      simp [Function.comp_def]
    rw [this, ih]
    simp

/-- C44: the locally owned part of a Trilinos matrix with at least one local entry is converted
exactly, with global column indices, the entries of each row in the same order. -/
theorem C44_trilinos (debug : Bool) (gid : ℕ → ℕ) (rows : List (List (ℕ × K)))
    (hnnz : 0 < (rows.map List.length).sum) :
    ∃ c, convertTrilinos debug gid rows = .ok c ∧
      c.HasRows (rows.map (List.map fun e => (gid e.1, e.2))) := by
  refine ⟨_, ?_, csrOf_hasRows _⟩
  have h0 : ({ val := [], col := [], rowPtr := [0] } : Csr K) = csrOf [] := by
    simp [csrOf, rowStart]
  unfold convertTrilinos
  rw [h0, convertTrilinos_fold, List.nil_append]
  apply uploadCsr_csrOf
  simpa [Function.comp_def] using hnnz

example : ∃ c, convertTrilinos true (· + 10) [[(0, 1), (2, 5)], [(1, 7)]] = .ok c ∧
    c.HasRows [[(10, 1), (12, 5)], [(11, 7)]] :=
  C44_trilinos true (· + 10) _ (by decide)

/-- C44: on a process whose part of the matrix has no entry (a process without rows, for instance)
the conversion of a Trilinos matrix fails: a failed assertion in debug builds, undefined behaviour in
release builds. -/
theorem C44_empty_violated (gid : ℕ → ℕ) (rows : List (List (ℕ × K)))
    (hnnz : (rows.map List.length).sum = 0) :
    convertTrilinos true gid rows = .aborted ∧
    convertTrilinos false gid rows = .ub "val[0] of an empty vector" := by
  have h0 : ({ val := [], col := [], rowPtr := [0] } : Csr K) = csrOf [] := by
    simp [csrOf, rowStart]
  have hl : (csrOf (rows.map (List.map fun e : ℕ × K => (gid e.1, e.2)))).val.length = 0 := by
    rw [(csrOf_hasRows _).vals]
    simpa [Function.comp_def] using hnnz
  unfold convertTrilinos
  rw [h0, convertTrilinos_fold, List.nil_append]
  constructor <;> simp [uploadCsr, copyToGpu, Outcome.assert, hl]

example : convertTrilinos true id ([[], []] : List (List (ℕ × ℕ))) = .aborted :=
  (C44_empty_violated id [[], []] (by decide)).1

/-- C44: an Epetra matrix whose arrays hold the given rows, with local column indices, is converted
exactly, with global column indices, if there is a local entry. -/
theorem C44_epetra (debug : Bool) (gid : ℕ → ℕ) (data : Csr K) (rows : List (List (ℕ × K)))
    (hd : data.HasRows rows) (hnnz : 0 < (rows.map List.length).sum) :
    ∃ c, convertEpetra debug gid data = .ok c ∧
      c.HasRows (rows.map (List.map fun e => (gid e.1, e.2))) := by
  have hl : 0 < (data.col.map gid).length := by rw [List.length_map, hd.cols]; exact hnnz
  have hlens : (rows.map (List.map fun e : ℕ × K => (gid e.1, e.2))).map List.length
      = rows.map List.length := by simp [Function.comp_def]
  refine ⟨{ val := data.val, col := data.col.map gid, rowPtr := data.rowPtr }, ?_, ?_, ?_, ?_, ?_⟩
  · unfold convertEpetra
    rw [copyToGpu_ok debug _ hl]
    rfl
  · rw [hlens]; simpa using hd.cols
  · rw [hlens]; exact hd.vals
  · show data.rowPtr = _
    rw [hd.ptrs, List.length_map]
    apply List.map_congr_left
    intro i _
    unfold rowStart
    rw [List.map_take, List.map_take, hlens]
  · intro i h
    have h' : i < rows.length := by simpa using h
    have := hd.rows_eq i h'
    unfold Csr.row at this ⊢
    rw [List.getElem_map, ← this, List.zip_map_left, List.map_take, List.map_drop]
    rfl

example : ∃ c, convertEpetra true (· + 10) (csrOf [[(0, 1), (2, 5)], [(1, 7)]]) = .ok c ∧
    c.HasRows [[(10, 1), (12, 5)], [(11, 7)]] :=
  C44_epetra true (· + 10) _ _ (csrOf_hasRows _) (by decide)

/-- C44: converting a device matrix back to the host passes, for every locally owned row, exactly
the entries of that row of the device matrix to the host matrix. -/
theorem C44_to_trilinos (c : Csr K) (rows : List (List (ℕ × K))) (hc : c.HasRows rows)
    (owned : List ℕ) (ho : owned.length = rows.length) :
    convertToTrilinos c owned = .ok (owned.zip rows) := by
  have key : ∀ (left : List ℕ) (pos : ℕ), pos + left.length = rows.length →
      setCalls c pos left = .ok (left.zip (rows.drop pos)) := by
    intro left
    induction left with
    | nil => intro pos _; simp [setCalls]
    | cons row left ih =>
      intro pos hpos
      simp only [List.length_cons] at hpos
      have hp : pos < rows.length := by omega
      have g1 : Outcome.get c.rowPtr pos "row_ptr[pos]" = .ok (rowStart rows pos) := by
        rw [hc.ptrs]
        simp [Outcome.get, show pos < rows.length + 1 by omega]
      have g2 : Outcome.get c.rowPtr (pos + 1) "row_ptr[pos + 1]"
          = .ok (rowStart rows (pos + 1)) := by
        rw [hc.ptrs]
        simp [Outcome.get, hp]
      have hle : rowStart rows (pos + 1) ≤ (rows.map List.length).sum := by
        unfold rowStart
        conv_rhs => rw [← List.take_append_drop (pos + 1) rows, List.map_append, List.sum_append]
        exact Nat.le_add_right _ _
      have hrow := hc.rows_eq pos hp
      unfold Csr.row at hrow
      rw [hc.ptrs] at hrow
      simp only [List.getD_eq_getElem?_getD, List.getElem?_map,
        List.getElem?_range (show pos < rows.length + 1 by omega),
        List.getElem?_range (show pos + 1 < rows.length + 1 by omega), Option.map_some,
        Option.getD_some] at hrow
      rw [setCalls, g1, g2]
      simp only [Outcome.ok_bind]
      rw [if_neg (by rw [hc.cols, hc.vals]; omega), ih (pos + 1) (by omega)]
      simp only [Outcome.ok_bind, Outcome.pure_eq]
      rw [hrow, List.drop_eq_getElem_cons hp, List.zip_cons_cons]
  have := key owned 0 (by omega)
  rwa [List.drop_zero] at this

/-- C44: host to device and back is the identity on the entries of every row. -/
theorem C44_round_trip (debug : Bool) (gid : ℕ → ℕ) (rows : List (List (ℕ × K)))
    (hnnz : 0 < (rows.map List.length).sum) (owned : List ℕ) (ho : owned.length = rows.length) :
    (convertTrilinos debug gid rows >>= fun c => convertToTrilinos c owned)
      = .ok (owned.zip (rows.map (List.map fun e => (gid e.1, e.2)))) := by
  obtain ⟨c, h1, h2⟩ := C44_trilinos debug gid rows hnnz
  rw [h1, Outcome.ok_bind]
  exact C44_to_trilinos c _ h2 owned (by simpa using ho)

example : (convertTrilinos true (· + 10) [[(0, 1), (2, 5)], [(1, 7)]] >>= fun c =>
    convertToTrilinos c [3, 8]) = .ok [(3, [(10, 1), (12, 5)]), (8, [(11, 7)])] :=
  C44_round_trip true (· + 10) _ (by decide) [3, 8] rfl

example : convertToTrilinos (csrOf exSquare) [0, 1, 2] = .ok ([0, 1, 2].zip exSquare) :=
  C44_to_trilinos _ _ (csrOf_hasRows _) [0, 1, 2] rfl

end Mfmg
