import Verif.Lemmas.LargeSizes

/-!
# C117: numbers of rows and entries in integers of fixed width
-/

set_option autoImplicit false

namespace Mfmg

theorem rowsBefore_trueRow (sizes : List ℕ) (p k : ℕ) : rowsBefore sizes p + k = trueRow sizes p k := rfl

/-- **C117**, rows of the restriction matrix.  Full claim: for any numbers of eigenvectors on the processes, the
row numbers are the numbers without overflow.  Missing part: this holds if the number of rows of each process fits in
32 bits and the total in the `w` bits of `global_dof_index`; see `C117_rows_violated` and `C117_count_violated` for
the other cases.  Then the announced total is right, the processes own adjacent ranges, and every number below the
total is given to exactly one eigenvector. -/
theorem C117_rows_partial (w : ℕ) (sizes : List ℕ) (hs : ∀ s ∈ sizes, s < 2 ^ 32) (htot : sizes.sum < 2 ^ w) :
    totalRowsW w sizes = sizes.sum ∧
      (∀ p k, HasEigenvector sizes p k → rowNumberW w sizes p k = trueRow sizes p k) ∧
      (∀ p, p < sizes.length →
        rowRangeW w sizes p = (trueRow sizes p 0, trueRow sizes p (sizes.getD p 0))) ∧
      ∀ r, r < sizes.sum → ∃! pk : ℕ × ℕ,
        HasEigenvector sizes pk.1 pk.2 ∧ rowNumberW w sizes pk.1 pk.2 = r := by
  obtain ⟨-, hle, huniq⟩ := C21_row_ranges sizes
  have hnum : ∀ p k, HasEigenvector sizes p k → rowNumberW w sizes p k = trueRow sizes p k := by
    intro p k hk
    have := hle p hk.1
    rw [rowsBefore_trueRow] at this
    rw [rowNumberW_eq w hs hk, Nat.mod_eq_of_lt]
    have h2 := hk.2
    simp only [trueRow] at this ⊢
    omega
  refine ⟨?_, hnum, ?_, ?_⟩
  · rw [totalRowsW, announced_map hs, sumW_eq, Nat.mod_eq_of_lt htot]
  · intro p hp
    have h1 := hle p hp
    rw [rowsBefore_trueRow] at h1
    have e : sizes.getD p 0 = sizes[p] := by simp [hp]
    have h2 : announcedRows (sizes.getD p 0) = sizes.getD p 0 :=
      Nat.mod_eq_of_lt (by rw [e]; exact hs _ (List.getElem_mem _))
    simp only [trueRow] at h1 ⊢
    rw [rowRangeW, rowsBeforeW_eq w hs, h2, Nat.mod_eq_of_lt (by omega), Nat.mod_eq_of_lt (by omega)]
    rfl
  · intro r hr
    obtain ⟨pk, ⟨h1, h2, h3⟩, h4⟩ := huniq r hr
    refine ⟨pk, ⟨⟨h1, h2⟩, by rw [hnum _ _ ⟨h1, h2⟩]; exact h3⟩, ?_⟩
    rintro qk ⟨g1, g2⟩
    exact h4 qk ⟨g1.1, g1.2, by rw [hnum _ _ g1] at g2; exact g2⟩

example := C117_rows_partial 32 [2 ^ 31, 5, 2 ^ 31 - 6] (by decide) (by decide)

/-- **C117**, pattern of the restriction matrix.  If the numbers fit, the sparsity pattern that a process builds has
the positions it should have: the dofs of the agglomerates in the true rows of their eigenvectors. -/
theorem C117_pattern_partial {K : Type} (w : ℕ) (css : List (List (CopyData K)))
    (hs : ∀ cs ∈ css, (rowsOf cs).length < 2 ^ 32)
    (htot : (css.map (fun cs => (rowsOf cs).length)).sum < 2 ^ w) (rank : ℕ) (cs : List (CopyData K))
    (hcs : css[rank]? = some cs) :
    ∃ ps, patternW w (rowsBeforeW w (css.map (fun cs => (rowsOf cs).length)) rank)
        (collect cs).dofMaps (collect cs).nLocal 0 0 = .ok ps ∧
      ∀ r x, (r, x) ∈ ps ↔
        ∃ (k : ℕ) (c : CopyData K) (v : List K), (rowsOf cs)[k]? = some (c, v) ∧
          r = trueRow (css.map (fun cs => (rowsOf cs).length)) rank k ∧ x ∈ c.dofMap := by
  set sizes := css.map (fun cs => (rowsOf cs).length) with hsz
  have hs' : ∀ s ∈ sizes, s < 2 ^ 32 := by
    intro s hm
    rw [hsz, List.mem_map] at hm
    obtain ⟨cs, hm, rfl⟩ := hm
    exact hs cs hm
  obtain ⟨hlt, hget⟩ := List.getElem?_eq_some_iff.mp hcs
  have hlt' : rank < sizes.length := by rw [hsz, List.length_map]; exact hlt
  have hsize : sizes.getD rank 0 = (rowsOf cs).length := by simp [hsz, hcs]
  have hle := (C21_row_ranges sizes).2.1 rank hlt'
  rw [hsize] at hle
  have hn : (collect cs).nLocal.sum = (rowsOf cs).length := by
    rw [collect_eq]
    simp [rowsOf, List.length_flatMap]
  have hb : rowsBeforeW w sizes rank = (sizes.take rank).sum := by
    rw [rowsBeforeW_eq w hs', Nat.mod_eq_of_lt]
    simp only [rowsBefore] at hle
    omega
  have hlocal : (rowsOf cs).length < 2 ^ 32 := hs cs (List.mem_of_getElem? hcs)
  obtain ⟨ps, h1, h2⟩ := C21_pattern (sizes.take rank).sum cs
  refine ⟨ps, ?_, h2⟩
  rw [hb, patternW_eq w _ _ _ 0 0 (by rw [hn]; simp only [rowsBefore] at hle; omega) (by rw [hn]; omega)]
  exact h1

example := C117_pattern_partial (K := ℚ) 32
  [[⟨[1, 2], [[1, 2], [3, 4]], [1, 1], [0, 1]⟩], [⟨[1], [[5, 6]], [1, 1], [1, 2]⟩]] (by decide) (by decide) 1 _ rfl

/-- **C117**, more rows than numbers.  If all processes together have more rows than `global_dof_index` has values,
rows of different processes get the same number: `r` and `r + 2 ^ w` for every `r`; and the matrix is made with a wrong
number of rows.  No error is reported. -/
theorem C117_rows_violated (w : ℕ) (hw : 32 ≤ w) (sizes : List ℕ) (hs : ∀ s ∈ sizes, s < 2 ^ 32) (r : ℕ)
    (htot : r + 2 ^ w < sizes.sum) :
    (∃ p k q l, HasEigenvector sizes p k ∧ HasEigenvector sizes q l ∧ p ≠ q ∧
      trueRow sizes p k = r ∧ trueRow sizes q l = r + 2 ^ w ∧
      rowNumberW w sizes p k = rowNumberW w sizes q l) ∧
    totalRowsW w sizes ≠ sizes.sum := by
  obtain ⟨-, -, huniq⟩ := C21_row_ranges sizes
  have h32 : (2 : ℕ) ^ 32 ≤ 2 ^ w := Nat.pow_le_pow_right (by norm_num) hw
  constructor
  · obtain ⟨⟨p, k⟩, ⟨h1, h2, h3⟩, -⟩ := huniq r (by omega)
    obtain ⟨⟨q, l⟩, ⟨g1, g2, g3⟩, -⟩ := huniq (r + 2 ^ w) htot
    simp only [rowsBefore_trueRow] at h3 g3
    refine ⟨p, k, q, l, ⟨h1, h2⟩, ⟨g1, g2⟩, ?_, h3, g3, ?_⟩
    · rintro rfl
      have e : sizes.getD p 0 = sizes[p]'h1 := by simp [h1]
      have := hs (sizes[p]'h1) (List.getElem_mem _)
      simp only [trueRow] at h2 g2 h3 g3
      omega
    · rw [rowNumberW_eq w hs ⟨h1, h2⟩, rowNumberW_eq w hs ⟨g1, g2⟩, h3, g3, Nat.add_mod_right]
  · rw [totalRowsW, announced_map hs, sumW_eq]
    have := Nat.mod_lt sizes.sum (Nat.two_pow_pos w)
    omega

example := C117_rows_violated 32 le_rfl [2 ^ 31, 2 ^ 31, 7] (by decide) 3 (by decide)

/-- **C117**, more than `2 ^ 32` rows on one process.  The matrix then has fewer rows than there are eigenvectors,
even with 64-bit indices. -/
theorem C117_count_violated (w : ℕ) (sizes : List ℕ) (h : ∃ s ∈ sizes, 2 ^ 32 ≤ s) :
    totalRowsW w sizes < sizes.sum := by
  have key : ∀ l : List ℕ, (l.map announcedRows).sum ≤ l.sum := by
    intro l
    induction l with
    | nil => simp
    | cons a l ih =>
      simp only [List.map_cons, List.sum_cons]
      exact Nat.add_le_add (Nat.mod_le _ _) ih
  obtain ⟨s, hm, h32⟩ := h
  obtain ⟨l1, l2, rfl⟩ := List.append_of_mem hm
  rw [totalRowsW, sumW_eq]
  refine lt_of_le_of_lt (Nat.mod_le _ _) ?_
  have k1 := key l1
  have k2 := key l2
  have k3 : announcedRows s < s := lt_of_lt_of_le (Nat.mod_lt _ (by norm_num)) h32
  simp only [List.map_append, List.map_cons, List.sum_append, List.sum_cons]
  omega

example := C117_count_violated 64 [3, 2 ^ 32 + 1] ⟨2 ^ 32 + 1, by simp, by norm_num⟩

/-- **C117**, offsets.  The offsets of the check of the restriction matrix are summed in `int`, yet they are right for
all numbers that fit in `unsigned int`, beyond the range of `int` too. -/
theorem C117_offset (counts : List ℕ) (i : ℕ) (h : (counts.take i).sum < 2 ^ 32) :
    intOffset counts i = (counts.take i).sum := by
  have key : ∀ (l : List ℕ) (a : ℕ),
      l.foldl (fun acc c => asInt32 (toUnsigned acc + c)) (asInt32 a) = asInt32 (a + l.sum) := by
    intro l
    induction l with
    | nil => intro a; simp
    | cons c l ih =>
      intro a
      rw [List.foldl_cons, toUnsigned_asInt32, asInt32_mod, ih, List.sum_cons, Nat.add_assoc]
  have := key (counts.take i) 0
  rw [Nat.zero_add] at this
  rw [intOffset]
  exact (congrArg toUnsigned this).trans (by rw [toUnsigned_asInt32, Nat.mod_eq_of_lt h])

example := C117_offset [2 ^ 31, 2 ^ 30, 1] 2 (by decide)

variable {K : Type}

/-- **C117**, conversion to the device.  Full claim: the arrays on the device hold the matrix.  Missing part: this
holds if the process has less than `2 ^ 31` entries and the columns are below `2 ^ 31`; see `C117_entries_violated`
and `C117_columns_violated`. -/
theorem C117_csr_partial (debug : Bool) (gid : ℕ → ℕ) (rows : List (List (ℕ × K)))
    (hpos : 0 < (rows.map List.length).sum) (hnnz : (rows.map List.length).sum < 2 ^ 31)
    (hgid : ∀ r ∈ rows, ∀ e ∈ r, gid e.1 < 2 ^ 31) :
    ∃ d c, convertTrilinos32 debug gid rows = .ok d ∧ d.Holds c ∧
      c.HasRows (rows.map (List.map fun e => (gid e.1, e.2))) := by
  set rows' := rows.map (List.map fun e => (gid e.1, e.2)) with hr
  refine ⟨encCols (csrOf rows'), csrOf rows', ?_, ⟨rfl, ?_, rfl⟩, csrOf_hasRows _⟩
  · have h1 := trilinos32_fold gid rows { val := [], col := [], rowPtr := [0] } (by simpa using hnnz)
    rw [idealRow_fold, ← hr] at h1
    rw [convertTrilinos32]
    refine (congrArg (· >>= uploadCsr32 debug) h1).trans ?_
    rw [Outcome.ok_bind]
    exact uploadCsr32_ok debug _ (csrOf rows') rfl (by simp [encCols]) (by simp [encCols])
      (uploadCsr_csrOf debug rows' (by simpa [hr, Function.comp_def] using hpos))
  · refine List.map_congr_left fun n hn => asInt32_small ?_
    simp only [csrOf, hr, List.mem_map, List.mem_flatten] at hn
    obtain ⟨e, ⟨l, ⟨r, hr, rfl⟩, he⟩, rfl⟩ := hn
    obtain ⟨e', he', rfl⟩ := List.mem_map.mp he
    exact hgid r hr e' he'

example := C117_csr_partial true (· + 10) [[(0, (1 : ℚ)), (2, 5)], [(1, 7)]] (by decide) (by decide) (by decide)

/-- **C117**, too many entries on one process.  With `2 ^ 31` entries or more, the conversion of a Trilinos matrix
overflows: undefined behaviour, in debug builds too. -/
theorem C117_entries_violated (debug : Bool) (gid : ℕ → ℕ) (rows : List (List (ℕ × K)))
    (hnnz : 2 ^ 31 ≤ (rows.map List.length).sum) :
    ∃ why, convertTrilinos32 debug gid rows = .ub why := by
  have h1 := trilinos32_overflow gid rows { val := [], col := [], rowPtr := [0] } (by simp)
    (by simpa using hnnz)
  refine ⟨"overflow of row_ptr[row] + n_entries", ?_⟩
  rw [convertTrilinos32]
  exact (congrArg (· >>= uploadCsr32 debug) h1).trans (by rw [Outcome.ub_bind])

example := C117_entries_violated true id [List.replicate (2 ^ 31) (0, (1 : ℚ))]
  (by rw [List.map_singleton, List.length_replicate, List.sum_singleton])

/-- **C117**, deal.II matrices that are not square: the row pointers on the device are the true ones reduced to the
range of `int`, so they are right exactly if the matrix has less than `2 ^ 31` entries; nothing is reported
otherwise. -/
theorem C117_rectangular_partial (debug : Bool) (rows : List (List (ℕ × K)))
    (hpos : 0 < (rows.map List.length).sum) (hcol : ∀ r ∈ rows, ∀ e ∈ r, e.1 < 2 ^ 31) :
    ∃ d, convertRectangular32 debug rows = .ok d ∧
      ((∃ c, d.Holds c ∧ c.HasRows rows) ↔ (rows.map List.length).sum < 2 ^ 31) := by
  have hid : rows.map (List.map fun e : ℕ × K => (id e.1, e.2)) = rows := by simp
  have hfold : rows.foldl dealiiRow32 (encAll { val := [], col := [], rowPtr := [0] })
      = encAll (csrOf rows) := by
    rw [dealii32_fold, idealRow_fold, hid]
  have hlast : rowStart rows rows.length = (rows.map List.length).sum := by simp [rowStart]
  refine ⟨encAll (csrOf rows), ?_, ?_, ?_⟩
  · rw [convertRectangular32]
    refine (congrArg (uploadCsr32 debug) hfold).trans ?_
    exact uploadCsr32_ok debug _ (csrOf rows) rfl (by simp [encAll]) (by simp [encAll])
      (uploadCsr_csrOf debug rows hpos)
  · rintro ⟨c, hh, hc⟩
    have h1 := hh.rowPtr
    rw [hc.ptrs] at h1
    have h2 := congrArg (fun l => l[rows.length]?) h1
    simp only [encAll, csrOf, List.getElem?_map, List.getElem?_range (Nat.lt_succ_self rows.length),
      Option.map_some, Option.some.injEq, hlast] at h2
    exact (asInt32_eq_iff _).mp h2
  · intro hn
    refine ⟨csrOf rows, ⟨rfl, ?_, ?_⟩, csrOf_hasRows _⟩
    · refine List.map_congr_left fun n hn => asInt32_small ?_
      simp only [csrOf, List.mem_map, List.mem_flatten] at hn
      obtain ⟨e, ⟨r, hr, he⟩, rfl⟩ := hn
      exact hcol r hr e he
    · refine List.map_congr_left fun n hm => asInt32_small ?_
      simp only [csrOf, List.mem_map, List.mem_range] at hm
      obtain ⟨i, hi, rfl⟩ := hm
      refine lt_of_le_of_lt ?_ hn
      rw [← hlast]
      exact rowStart_mono rows (by omega)

example := C117_rectangular_partial true [[(0, (1 : ℚ)), (2, 5)], [(1, 7)]] (by decide) (by decide)

/-- **C117**, columns.  A column number that does not fit in `int` is another, if it is below `2 ^ 32` a negative,
number on the device. -/
theorem C117_columns_violated (gid : ℕ → ℕ) (s d : Csr32 K) (j : ℕ) (v : K) (hj : 2 ^ 31 ≤ gid j)
    (h : trilinosRow32 gid s [(j, v)] = .ok d) :
    ∃ c : ℤ, d.col = s.col ++ [c] ∧ c ≠ gid j ∧ (gid j < 2 ^ 32 → c < 0) := by
  rw [trilinosRow32] at h
  split at h
  · cases h
  · cases h
    refine ⟨asInt32 (gid j), rfl, ?_, ?_⟩
    · intro hc
      have := (asInt32_eq_iff _).mp hc
      omega
    · intro h2
      simp only [asInt32]
      split <;> omega

example := C117_columns_violated (fun j => j + 2 ^ 31) (⟨[], [], [0]⟩ : Csr32 ℚ) _ 5 1 (by decide) rfl

/-- **C117**, to the device and back.  The columns that come back are right even if they do not fit in `int`, as long
as they fit in `unsigned int`. -/
theorem C117_round_trip_partial (debug : Bool) (gid : ℕ → ℕ) (rows : List (List (ℕ × K)))
    (hpos : 0 < (rows.map List.length).sum) (hnnz : (rows.map List.length).sum < 2 ^ 31)
    (hgid : ∀ r ∈ rows, ∀ e ∈ r, gid e.1 < 2 ^ 32) (owned : List ℕ) (ho : owned.length = rows.length) :
    (convertTrilinos32 debug gid rows >>= fun d => setCalls32 d 0 owned)
      = .ok (owned.zip (rows.map (List.map fun e => (gid e.1, e.2)))) := by
  set rows' := rows.map (List.map fun e => (gid e.1, e.2)) with hr
  have h1 := trilinos32_fold gid rows { val := [], col := [], rowPtr := [0] } (by simpa using hnnz)
  rw [idealRow_fold, ← hr] at h1
  have h2 : convertTrilinos32 debug gid rows = .ok (encCols (csrOf rows')) := by
    rw [convertTrilinos32]
    refine (congrArg (· >>= uploadCsr32 debug) h1).trans ?_
    rw [Outcome.ok_bind]
    exact uploadCsr32_ok debug _ (csrOf rows') rfl (by simp [encCols]) (by simp [encCols])
      (uploadCsr_csrOf debug rows' (by simpa [hr, Function.comp_def] using hpos))
  rw [h2, Outcome.ok_bind, setCalls32_enc]
  · exact C44_to_trilinos (csrOf rows') rows' (csrOf_hasRows _) owned (by simpa [hr] using ho)
  · intro n hn
    simp only [csrOf, hr, List.mem_map, List.mem_flatten] at hn
    obtain ⟨e, ⟨l, ⟨r, hr, rfl⟩, he⟩, rfl⟩ := hn
    obtain ⟨e', he', rfl⟩ := List.mem_map.mp he
    exact hgid r hr e' he'
  · intro i b e hb he
    have hi : i + 1 < rows'.length + 1 := by
      have := (List.getElem?_eq_some_iff.mp he).1
      simpa [csrOf] using this
    simp only [csrOf, List.getElem?_map, List.getElem?_range hi,
      List.getElem?_range (by omega : i < rows'.length + 1), Option.map_some, Option.some.injEq] at hb he
    rw [← hb, ← he]
    exact rowStart_mono rows' (by omega)

example := C117_round_trip_partial true (· + 2 ^ 31) [[(0, (1 : ℚ)), (2, 5)], [(1, 7)]] (by decide) (by decide)
  (by decide) [3, 8] rfl

end Mfmg
