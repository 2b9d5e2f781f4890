import Verif.Spec.LargeSizes
import Verif.Props.Restriction
import Verif.Props.DeviceCsr
import Verif.Props.DeviceEigen

/-!
# Lemmas about integers of fixed width
-/

set_option autoImplicit false

namespace Mfmg

theorem toUnsigned_asInt32 (n : ℕ) : toUnsigned (asInt32 n) = n % 2 ^ 32 := by
  simp only [toUnsigned, asInt32]
  split <;> omega

theorem asInt32_mod (n l : ℕ) : asInt32 (n % 2 ^ 32 + l) = asInt32 (n + l) := by
  simp only [asInt32, Nat.mod_add_mod]

theorem asInt32_eq_iff (n : ℕ) : asInt32 n = n ↔ n < 2 ^ 31 := by
  simp only [asInt32]
  split <;> omega

theorem sumW_fold (w : ℕ) (counts : List ℕ) (a : ℕ) :
    counts.foldl (fun acc c => (acc + c) % 2 ^ w) (a % 2 ^ w) = (a + counts.sum) % 2 ^ w := by
  induction counts generalizing a with
  | nil => simp
  | cons c cs ih =>
    rw [List.foldl_cons, Nat.mod_add_mod, ih, List.sum_cons, Nat.add_assoc]

theorem sumW_eq (w : ℕ) (counts : List ℕ) : sumW w counts = counts.sum % 2 ^ w := by
  have := sumW_fold w counts 0
  simpa [sumW] using this

theorem announced_map {sizes : List ℕ} (h : ∀ s ∈ sizes, s < 2 ^ 32) :
    sizes.map announcedRows = sizes := by
  conv_rhs => rw [← List.map_id sizes]
  exact List.map_congr_left fun s hs => Nat.mod_eq_of_lt (h s hs)

theorem rowsBeforeW_eq (w : ℕ) {sizes : List ℕ} (h : ∀ s ∈ sizes, s < 2 ^ 32) (p : ℕ) :
    rowsBeforeW w sizes p = (sizes.take p).sum % 2 ^ w := by
  rw [rowsBeforeW, announced_map h, sumW_eq]

theorem rowNumberW_eq (w : ℕ) {sizes : List ℕ} (h : ∀ s ∈ sizes, s < 2 ^ 32) {p k : ℕ}
    (hk : HasEigenvector sizes p k) : rowNumberW w sizes p k = trueRow sizes p k % 2 ^ w := by
  have hk' : k < 2 ^ 32 := by
    obtain ⟨hp, hk⟩ := hk
    have e : sizes.getD p 0 = sizes[p] := by simp [hp]
    rw [e] at hk
    exact lt_trans hk (h _ (List.getElem_mem _))
  rw [rowNumberW, rowsBeforeW_eq w h, Nat.mod_eq_of_lt hk', Nat.mod_add_mod, trueRow]

theorem patternRowsW_eq (w first : ℕ) (dofs : List ℕ) (n row : ℕ) (h : first + row + n ≤ 2 ^ w)
    (h' : row + n < 2 ^ 32) : patternRowsW w first dofs n row = patternRows dofs n (first + row) := by
  induction n generalizing row with
  | zero => rfl
  | succ n ih =>
    rw [patternRowsW, patternRows, Nat.mod_eq_of_lt (by omega : first + row < 2 ^ w),
      Nat.mod_eq_of_lt (by omega : row + 1 < 2 ^ 32), ih (row + 1) (by omega) (by omega), Nat.add_assoc]

theorem patternW_eq (w first : ℕ) (dofMaps : List (List ℕ)) (ns : List ℕ) (i row : ℕ)
    (h : first + row + ns.sum ≤ 2 ^ w) (h' : row + ns.sum < 2 ^ 32) :
    patternW w first dofMaps ns i row = pattern dofMaps ns i (first + row) := by
  induction ns generalizing i row with
  | nil => rfl
  | cons n ns ih =>
    rw [List.sum_cons] at h h'
    have e := ih (i + 1) (row + n) (by omega) (by omega)
    have em : (row + n) % 2 ^ 32 = row + n := Nat.mod_eq_of_lt (by omega)
    cases n with
    | zero => simp only [patternW, pattern, em, e, Nat.add_assoc]
    | succ n =>
      simp only [patternW, pattern, em, e, patternRowsW_eq w first _ (n + 1) row (by omega) (by omega),
        Nat.add_assoc]

variable {K : Type}

theorem rowStart_mono (rows : List (List (ℕ × K))) {i j : ℕ} (h : i ≤ j) : rowStart rows i ≤ rowStart rows j := by
  rw [rowStart, rowStart, List.map_take, List.map_take]
  exact List.Sublist.sum_le_sum (List.take_sublist_take_left h) fun _ _ => Nat.zero_le _

/-- One step of the conversion of a Trilinos matrix with unbounded numbers. -/
def idealRow (gid : ℕ → ℕ) (s : Csr K) (r : List (ℕ × K)) : Csr K where
  val := s.val ++ r.map Prod.snd
  col := s.col ++ r.map (fun e => gid e.1)
  rowPtr := s.rowPtr ++ [s.rowPtr.getLastD 0 + r.length]

theorem idealRow_fold (gid : ℕ → ℕ) (rows : List (List (ℕ × K))) :
    rows.foldl (idealRow gid) { val := [], col := [], rowPtr := [0] }
      = csrOf (rows.map (List.map fun e => (gid e.1, e.2))) := by
  have h0 : ({ val := [], col := [], rowPtr := [0] } : Csr K) = csrOf [] := by
    simp [csrOf, rowStart]
  rw [h0]
  exact (convertTrilinos_fold gid rows []).trans (by rw [List.nil_append])

/-- Columns converted to `int`, row pointers kept. -/
def encCols (s : Csr K) : Csr32 K := ⟨s.val, s.col.map asInt32, s.rowPtr.map (fun n : ℕ => (n : ℤ))⟩

/-- Columns and row pointers converted to `int`. -/
def encAll (s : Csr K) : Csr32 K := ⟨s.val, s.col.map asInt32, s.rowPtr.map asInt32⟩

theorem getLastD_map (f : ℕ → ℤ) (h0 : f 0 = 0) (l : List ℕ) : (l.map f).getLastD 0 = f (l.getLastD 0) := by
  rw [List.getLastD_eq_getLast?, List.getLastD_eq_getLast?, List.getLast?_map]
  cases l.getLast? <;> simp [h0]

theorem trilinosRow32_enc (gid : ℕ → ℕ) (s : Csr K) (r : List (ℕ × K)) :
    trilinosRow32 gid (encCols s) r =
      if s.rowPtr.getLastD 0 + r.length < 2 ^ 31 then .ok (encCols (idealRow gid s r))
      else .ub "overflow of row_ptr[row] + n_entries" := by
  have hl : (encCols s).rowPtr.getLastD 0 = ((s.rowPtr.getLastD 0 : ℕ) : ℤ) :=
    getLastD_map (fun n : ℕ => (n : ℤ)) rfl _
  rw [trilinosRow32, hl]
  by_cases h : s.rowPtr.getLastD 0 + r.length < 2 ^ 31
  · rw [if_neg (by omega), if_pos h]
    simp [encCols, idealRow, Function.comp_def]
  · rw [if_pos (by omega), if_neg h]

theorem idealRow_last (gid : ℕ → ℕ) (s : Csr K) (r : List (ℕ × K)) :
    (idealRow gid s r).rowPtr.getLastD 0 = s.rowPtr.getLastD 0 + r.length := by
  simp [idealRow]

theorem trilinos32_fold (gid : ℕ → ℕ) (rows : List (List (ℕ × K))) (s : Csr K)
    (h : s.rowPtr.getLastD 0 + (rows.map List.length).sum < 2 ^ 31) :
    rows.foldlM (trilinosRow32 gid) (encCols s) = .ok (encCols (rows.foldl (idealRow gid) s)) := by
  induction rows generalizing s with
  | nil => rfl
  | cons r rs ih =>
    rw [List.map_cons, List.sum_cons] at h
    rw [List.foldlM_cons, trilinosRow32_enc, if_pos (by omega), Outcome.ok_bind,
      ih _ (by rw [idealRow_last]; omega), List.foldl_cons]

theorem trilinos32_overflow (gid : ℕ → ℕ) (rows : List (List (ℕ × K))) (s : Csr K)
    (hs : s.rowPtr.getLastD 0 < 2 ^ 31) (h : 2 ^ 31 ≤ s.rowPtr.getLastD 0 + (rows.map List.length).sum) :
    rows.foldlM (trilinosRow32 gid) (encCols s) = .ub "overflow of row_ptr[row] + n_entries" := by
  induction rows generalizing s with
  | nil => exact absurd h (by rw [List.map_nil, List.sum_nil]; omega)
  | cons r rs ih =>
    rw [List.map_cons, List.sum_cons] at h
    rw [List.foldlM_cons, trilinosRow32_enc]
    by_cases hr : s.rowPtr.getLastD 0 + r.length < 2 ^ 31
    · rw [if_pos hr, Outcome.ok_bind]
      exact ih _ (by rw [idealRow_last]; exact hr) (by rw [idealRow_last]; omega)
    · rw [if_neg hr, Outcome.ub_bind]

theorem dealiiRow32_enc (s : Csr K) (r : List (ℕ × K)) :
    dealiiRow32 (encAll s) r = encAll (idealRow id s r) := by
  have hl : (encAll s).rowPtr.getLastD 0 = asInt32 (s.rowPtr.getLastD 0) := getLastD_map asInt32 rfl _
  rw [dealiiRow32, hl, toUnsigned_asInt32, asInt32_mod]
  simp [encAll, idealRow, Function.comp_def]

theorem dealii32_fold (rows : List (List (ℕ × K))) (s : Csr K) :
    rows.foldl dealiiRow32 (encAll s) = encAll (rows.foldl (idealRow id) s) := by
  induction rows generalizing s with
  | nil => rfl
  | cons r rs ih => rw [List.foldl_cons, List.foldl_cons, dealiiRow32_enc, ih]

theorem uploadCsr32_ok (debug : Bool) (d : Csr32 K) (c : Csr K) (h1 : d.val = c.val)
    (h2 : d.col.length = c.col.length) (h3 : d.rowPtr.length = c.rowPtr.length)
    (h : uploadCsr debug c = .ok c) : uploadCsr32 debug d = .ok d := by
  have hp : 0 < c.val.length ∧ 0 < c.col.length ∧ 0 < c.rowPtr.length := by
    by_contra hcon
    have : c.val.length = 0 ∨ c.col.length = 0 ∨ c.rowPtr.length = 0 := by omega
    rcases this with h0 | h0 | h0 <;>
      cases hd : debug <;> by_cases hv : c.val.length = 0 <;> by_cases hc : c.col.length = 0 <;>
        simp_all [uploadCsr, copyToGpu, Outcome.assert]
  obtain ⟨p1, p2, p3⟩ := hp
  rw [uploadCsr32, copyToGpu_ok debug _ (by rw [h1]; exact p1), Outcome.ok_bind,
    copyToGpu_ok debug _ (by rw [h2]; exact p2), Outcome.ok_bind,
    copyToGpu_ok debug _ (by rw [h3]; exact p3), Outcome.ok_bind]
  rfl

theorem setCalls32_enc (c : Csr K) (hc : ∀ n ∈ c.col, n < 2 ^ 32)
    (hm : ∀ i b e, c.rowPtr[i]? = some b → c.rowPtr[i + 1]? = some e → b ≤ e) (owned : List ℕ) (pos : ℕ) :
    setCalls32 (encCols c) pos owned = setCalls c pos owned := by
  have hcol : (c.col.map asInt32).map toUnsigned = c.col := by
    rw [List.map_map]
    conv_rhs => rw [← List.map_id c.col]
    exact List.map_congr_left fun n hn => by
      rw [Function.comp, toUnsigned_asInt32, Nat.mod_eq_of_lt (hc n hn)]; rfl
  induction owned generalizing pos with
  | nil => rfl
  | cons row rows ih =>
    rw [setCalls32, setCalls, ih]
    simp only [Outcome.get, encCols, List.getElem?_map]
    cases hb : c.rowPtr[pos]? with
    | none => rfl
    | some b =>
      cases he : c.rowPtr[pos + 1]? with
      | none => rfl
      | some e =>
        have hbe := hm pos b e hb he
        simp only [Option.map_some, Outcome.ok_bind, List.length_map, hcol]
        have e1 : ((b : ℤ) < 0 ∨ (e : ℤ) < b ∨ (c.col.length : ℤ) < e ∨ (c.val.length : ℤ) < e) ↔
            (c.col.length < e ∨ c.val.length < e) := by omega
        have e2 : ((e : ℤ) - b).toNat = e - b := by omega
        simp only [e1, e2, Int.toNat_natCast]

end Mfmg
