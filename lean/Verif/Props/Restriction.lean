import Verif.Lemmas.Restriction
import Mathlib.Data.Rat.Defs
import Mathlib.Algebra.Field.Rat
import Mathlib.Tactic.NormNum
import Mathlib.Tactic.LinearCombination

/-!
# Properties of the restriction matrix (C20, C21, C22)
-/

set_option autoImplicit false

namespace Mfmg

section

variable {K : Type} [Field K]

/-- Two processes, three agglomerates on the line of dofs 0-1-2-3; dofs 1 and 2 are shared. -/
def exAgg0 : CopyData ℚ := ⟨[0, 1], [[1, 1], [1, -1]], [2, 1], [0, 1]⟩
def exAgg1 : CopyData ℚ := ⟨[0, 1], [[1, 1], [-1, 1]], [3, 1], [2, 1]⟩
def exAgg2 : CopyData ℚ := ⟨[0, 1], [[1, 1], [1, 2]], [1, 5], [2, 3]⟩
def exRanks : List (List (CopyData ℚ)) := [[exAgg0, exAgg1], [exAgg2]]
def exGdiag : ℕ → ℚ := fun x => [2, 2, 4, 5].getD x 0

theorem exRanks_wf : ∀ cs ∈ exRanks, ∀ c ∈ cs, c.WellFormed := by
  intro cs hcs c hc
  simp only [exRanks, List.mem_cons, List.not_mem_nil, or_false] at hcs
  rcases hcs with rfl | rfl <;>
    simp only [List.mem_cons, List.not_mem_nil, or_false] at hc
  · rcases hc with rfl | rfl <;> exact ⟨by decide, rfl, by decide⟩
  · subst hc; exact ⟨by decide, rfl, by decide⟩

/-- **C20**, rows.  For every number of processes and agglomerates, in debug and release builds, the
assembly succeeds, row `p` of the restriction matrix is the `p`-th local eigenvector (process by
process, agglomerate by agglomerate) multiplied entrywise by agglomerate diagonal / global
diagonal and extended by zero, and there are no other rows. -/
theorem C20_rows (debug dynAdds : Bool) (gdiag : ℕ → K) (css : List (List (CopyData K)))
    (hcs : ∀ cs ∈ css, ∀ c ∈ cs, c.WellFormed) :
    ∃ a, assembleAll debug dynAdds gdiag (css.map collect) = .ok a ∧
      (∀ (p : ℕ) (c : CopyData K) (v : List K), (rowsOf css.flatten)[p]? = some (c, v) →
        ∀ x, a.R p x = extend c.dofMap c.diag x / gdiag x * extend c.dofMap v x) ∧
      (∀ p, (rowsOf css.flatten).length ≤ p → ∀ x, a.R p x = 0) := by
  obtain ⟨a, h, h'⟩ := assembleAll_spec debug dynAdds gdiag css hcs
  refine ⟨a, h, ?_, ?_⟩
  · intro p c v hp x
    have := rowsMat_add (fR gdiag) (rowsOf css.flatten) 0 p x
    rw [Nat.zero_add, hp] at this
    rw [(h' p x).1, this]
    rfl
  · intro p hp x
    have := rowsMat_add (fR gdiag) (rowsOf css.flatten) 0 p x
    rw [Nat.zero_add, List.getElem?_eq_none hp] at this
    rw [(h' p x).1, this]

example : ∃ a, assembleAll true true exGdiag (exRanks.map collect) = .ok a ∧ a.R 2 1 = 1 / 2 ∧
    a.R 5 3 = 2 := by
  obtain ⟨a, h, h1, -⟩ := C20_rows true true exGdiag exRanks exRanks_wf
  refine ⟨a, h, ?_, ?_⟩
  · rw [h1 2 exAgg1 [1, 1] rfl]; norm_num [exAgg1, exGdiag, extend_cons]
  · rw [h1 5 exAgg2 [1, 2] rfl]; norm_num [exAgg2, exGdiag, extend_cons]

theorem sum_map_div {α : Type} (l : List α) (f : α → K) (g : K) :
    (l.map (fun a => f a / g)).sum = (l.map f).sum / g := by
  induction l with
  | nil => simp
  | cons a l ih => simp [ih, add_div]

/-- **C20**, partition of unity.  If the agglomerate diagonals sum to the nonzero global diagonal at
a dof, the weights (agglomerate diagonal / global diagonal) sum to 1 there, and any global vector
`w` that is on each agglomerate a combination of the local eigenvectors is reproduced exactly at
that dof by the same combination of the rows of the restriction matrix (`R^T y = w`).  Constants
are the case `w = 1`. -/
theorem C20_partition_of_unity (debug dynAdds : Bool) (gdiag : ℕ → K)
    (css : List (List (CopyData K))) (hcs : ∀ cs ∈ css, ∀ c ∈ cs, c.WellFormed) :
    ∃ a, assembleAll debug dynAdds gdiag (css.map collect) = .ok a ∧
      ∀ x, gdiag x ≠ 0 → DiagSums gdiag css.flatten x →
        (css.flatten.map (fun c => extend c.dofMap c.diag x / gdiag x)).sum = 1 ∧
        ∀ (w : ℕ → K) (ys : List (List K)), List.Forall₂ (Combines w) css.flatten ys →
          ∑ p ∈ Finset.range ys.flatten.length, ys.flatten.getD p 0 * a.R p x = w x := by
  obtain ⟨a, h, h'⟩ := assembleAll_spec debug dynAdds gdiag css hcs
  refine ⟨a, h, ?_⟩
  intro x hx hsum
  have hone : (css.flatten.map (fun c => extend c.dofMap c.diag x / gdiag x)).sum = 1 := by
    rw [sum_map_div, hsum, div_self hx]
  refine ⟨hone, ?_⟩
  intro w ys hys
  have hlen : ys.flatten.length = (rowsOf css.flatten).length := by
    clear hsum hone h' h hcs
    generalize css.flatten = cs at hys
    induction hys with
    | nil => rfl
    | cons hc _ ih => simp [rowsOf, hc.1] at ih ⊢; omega
  have : ∀ p ∈ Finset.range ys.flatten.length, ys.flatten.getD p 0 * a.R p x
      = ys.flatten.getD p 0 * rowsMat (fR gdiag) (rowsOf css.flatten) 0 p x :=
    fun p _ => by rw [(h' p x).1]
  rw [Finset.sum_congr rfl this, hlen, sum_rowsMat _ _ _ hlen]
  suffices hkey : (List.zipWith (fun y cv => y * fR gdiag cv.1 cv.2 x) ys.flatten
      (rowsOf css.flatten)).sum
        = (css.flatten.map (fun c => extend c.dofMap c.diag x / gdiag x)).sum * w x by
    rw [hkey, hone, one_mul]
  clear hsum hone h' h hcs this hlen
  generalize css.flatten = cs at hys
  induction hys with
  | nil => simp [rowsOf]
  | @cons c y cs ys hc _ ih =>
    have hsplit : rowsOf (c :: cs) = c.eigenvectors.map (fun v => (c, v)) ++ rowsOf cs := by
      simp [rowsOf]
    rw [hsplit, List.flatten_cons, List.zipWith_append (by simp [hc.1]), List.sum_append, ih,
      List.map_cons, List.sum_cons, add_mul]
    congr 1
    have h1 : ∀ (y : List K) (vs : List (List K)),
        (List.zipWith (fun y cv => y * fR gdiag cv.1 cv.2 x) y (vs.map (fun v => (c, v)))).sum
        = extend c.dofMap c.diag x / gdiag x
          * (List.zipWith (fun y v => y * extend c.dofMap v x) y vs).sum := by
      intro y vs
      induction y generalizing vs with
      | nil => simp
      | cons t y ih =>
        cases vs with
        | nil => simp
        | cons v vs =>
          rw [List.map_cons, List.zipWith_cons_cons, List.zipWith_cons_cons, List.sum_cons,
            List.sum_cons, ih, fR]
          ring
    rw [h1]
    by_cases hm : x ∈ c.dofMap
    · rw [hc.2 x hm]
    · rw [extend_not_mem hm]; simp

/-- The hypotheses hold for the constant vector on the example (every dof satisfies `DiagSums`). -/
example : (∀ x ∈ [0, 1, 2, 3], exGdiag x ≠ 0 ∧ DiagSums exGdiag exRanks.flatten x) ∧
    List.Forall₂ (Combines (fun _ => (1 : ℚ))) exRanks.flatten [[1, 0], [1, 0], [1, 0]] := by
  constructor
  · intro x hx
    simp only [List.mem_cons, List.not_mem_nil, or_false] at hx
    rcases hx with rfl | rfl | rfl | rfl <;>
      norm_num [exGdiag, DiagSums, exRanks, exAgg0, exAgg1, exAgg2, extend_cons]
  · simp only [exRanks, List.flatten_cons, List.flatten_nil, List.append_nil, List.cons_append,
      List.nil_append, List.forall₂_cons, List.Forall₂.nil, and_true]
    refine ⟨⟨rfl, ?_⟩, ⟨rfl, ?_⟩, ⟨rfl, ?_⟩⟩ <;> intro x hx <;>
      simp only [exAgg0, exAgg1, exAgg2, List.mem_cons, List.not_mem_nil, or_false] at hx <;>
      rcases hx with rfl | rfl <;>
      norm_num [exAgg0, exAgg1, exAgg2, extend_cons]

end

/-! ### C21 -/

theorem rowsBefore_succ (counts : List ℕ) (p : ℕ) :
    rowsBefore counts (p + 1) = rowsBefore counts p + counts.getD p 0 := by
  rw [rowsBefore, rowsBefore, List.take_add_one]
  cases h : counts[p]? <;> simp [List.getD, h]

theorem rowsBefore_mono (counts : List ℕ) {p q : ℕ} (h : p ≤ q) :
    rowsBefore counts p ≤ rowsBefore counts q := by
  induction q, h using Nat.le_induction with
  | base => exact le_rfl
  | succ q _ ih => rw [rowsBefore_succ]; omega

theorem rowsBefore_length (counts : List ℕ) : rowsBefore counts counts.length = counts.sum := by
  simp [rowsBefore]

/-- **C21**, row ranges.  `counts` are the all-gathered numbers of local rows and process `p` owns
the rows from `rowsBefore counts p` on.  The ranges are ordered by rank (hence disjoint), stay below
the total, and every row below the total belongs to exactly one position of exactly one process. -/
theorem C21_row_ranges (counts : List ℕ) :
    (∀ p q : ℕ, p < q → rowsBefore counts p + counts.getD p 0 ≤ rowsBefore counts q) ∧
    (∀ p : ℕ, p < counts.length → rowsBefore counts p + counts.getD p 0 ≤ counts.sum) ∧
    (∀ r : ℕ, r < counts.sum → ∃! pk : ℕ × ℕ,
      pk.1 < counts.length ∧ pk.2 < counts.getD pk.1 0 ∧ rowsBefore counts pk.1 + pk.2 = r) := by
  have hord : ∀ p q : ℕ, p < q → rowsBefore counts p + counts.getD p 0 ≤ rowsBefore counts q := by
    intro p q h
    rw [← rowsBefore_succ]
    exact rowsBefore_mono counts h
  refine ⟨hord, ?_, ?_⟩
  · intro p hp
    rw [← rowsBefore_length]
    exact hord p _ hp
  · intro r hr
    have hex : ∀ n, r < rowsBefore counts n →
        ∃ p < n, rowsBefore counts p ≤ r ∧ r < rowsBefore counts (p + 1) := by
      intro n
      induction n with
      | zero => intro h; simp [rowsBefore] at h
      | succ n ih =>
        intro h
        by_cases h' : r < rowsBefore counts n
        · obtain ⟨p, hp, hp'⟩ := ih h'; exact ⟨p, by omega, hp'⟩
        · exact ⟨n, by omega, by omega, h⟩
    obtain ⟨p, hp, h1, h2⟩ := hex counts.length (by rwa [rowsBefore_length])
    rw [rowsBefore_succ] at h2
    refine ⟨(p, r - rowsBefore counts p), ⟨hp, by simp only; omega, by simp only; omega⟩, ?_⟩
    rintro ⟨q, k⟩ ⟨hq, hk, hr'⟩
    simp only at hq hk hr'
    have : q = p := by
      rcases Nat.lt_trichotomy q p with h | h | h
      · have := hord q p h; omega
      · exact h
      · have := hord p q h; omega
    subst this
    simp only [Prod.mk.injEq, true_and]
    omega

example : rowsBefore [4, 0, 2, 3] 2 = 4 ∧ rowsBefore [4, 0, 2, 3] 3 = 6 ∧
    5 < ([4, 0, 2, 3] : List ℕ).sum := by decide

/-- Position of the rows of process `rank` in the list of all rows. -/
theorem rowsOf_flatten_get {K : Type} (css : List (List (CopyData K))) (rank : ℕ)
    (cs : List (CopyData K)) (hrank : css[rank]? = some cs) (k : ℕ) (hk : k < (rowsOf cs).length) :
    (rowsOf css.flatten)[rowsBefore (css.map (fun cs => (collect cs).eigenvectors.length)) rank + k]?
      = (rowsOf cs)[k]? := by
  induction css generalizing rank with
  | nil => simp at hrank
  | cons c css ih =>
    cases rank with
    | zero =>
      simp only [List.getElem?_cons_zero, Option.some.injEq] at hrank
      subst hrank
      simp only [rowsBefore, List.take_zero, List.sum_nil, List.flatten_cons, Nat.zero_add]
      rw [show rowsOf (c ++ css.flatten) = rowsOf c ++ rowsOf css.flatten by simp [rowsOf],
        List.getElem?_append_left hk]
    | succ rank =>
      simp only [List.getElem?_cons_succ] at hrank
      have hl : (collect c).eigenvectors.length = (rowsOf c).length := by
        simp [collect_eq, rowsOf, List.length_flatMap]
      rw [List.flatten_cons,
        show rowsOf (c ++ css.flatten) = rowsOf c ++ rowsOf css.flatten by simp [rowsOf],
        ← ih rank hrank]
      simp only [rowsBefore, List.map_cons, List.take_succ_cons, List.sum_cons, hl]
      rw [Nat.add_assoc, List.getElem?_append_right (Nat.le_add_right _ _), Nat.add_sub_cancel_left]

/-- **C21**, every eigenvector has its own row: after the assembly on all processes, the `k`-th
local eigenvector of process `rank` is exactly row `rowsBefore rank + k` of the eigenvector matrix
(and, weighted, of the restriction matrix).  With `C21_row_ranges`, no two eigenvectors share a
row. -/
theorem C21_own_row {K : Type} [Field K] (debug dynAdds : Bool) (gdiag : ℕ → K)
    (css : List (List (CopyData K))) (hcs : ∀ cs ∈ css, ∀ c ∈ cs, c.WellFormed) :
    ∃ a, assembleAll debug dynAdds gdiag (css.map collect) = .ok a ∧
      ∀ (rank : ℕ) (cs : List (CopyData K)) (k : ℕ) (c : CopyData K) (v : List K),
        css[rank]? = some cs → (rowsOf cs)[k]? = some (c, v) → ∀ x,
        a.V (rowsBefore (css.map (fun cs => (rowsOf cs).length)) rank + k) x = extend c.dofMap v x ∧
        a.R (rowsBefore (css.map (fun cs => (rowsOf cs).length)) rank + k) x
          = extend c.dofMap c.diag x / gdiag x * extend c.dofMap v x := by
  obtain ⟨a, h, h'⟩ := assembleAll_spec debug dynAdds gdiag css hcs
  refine ⟨a, h, ?_⟩
  intro rank cs k c v hrank hk x
  have hklt : k < (rowsOf cs).length := by
    by_contra hcon
    rw [List.getElem?_eq_none (by omega)] at hk
    cases hk
  have hpos := rowsOf_flatten_get css rank cs hrank k hklt
  have hcount : (css.map (fun cs => (collect cs).eigenvectors.length))
      = css.map (fun cs => (rowsOf cs).length) := by
    apply List.map_congr_left
    intro c _
    simp [collect_eq, rowsOf, List.length_flatMap]
  rw [hcount, hk] at hpos
  generalize rowsBefore (css.map (fun cs => (rowsOf cs).length)) rank + k = r at hpos ⊢
  have e1 := rowsMat_add (fR gdiag) (rowsOf css.flatten) 0 r x
  have e2 := rowsMat_add (fV (K := K)) (rowsOf css.flatten) 0 r x
  rw [Nat.zero_add, hpos] at e1 e2
  exact ⟨by rw [(h' r x).2.1, e2]; rfl, by rw [(h' r x).1, e1]; rfl⟩

example : exRanks[1]? = some [exAgg2] ∧ (rowsOf [exAgg2])[1]? = some (exAgg2, [1, 2]) ∧
    rowsBefore (exRanks.map (fun cs => (rowsOf cs).length)) 1 + 1 = 5 := ⟨rfl, rfl, rfl⟩

theorem mem_patternRows (dofs : List ℕ) (n row r x : ℕ) :
    (r, x) ∈ patternRows dofs n row ↔ x ∈ dofs ∧ row ≤ r ∧ r < row + n := by
  induction n generalizing row with
  | zero => simp [patternRows]
  | succ n ih =>
    simp only [patternRows, List.mem_append, List.mem_map, Prod.mk.injEq, ih]
    constructor
    · rintro (⟨c, hc, rfl, rfl⟩ | ⟨h1, h2, h3⟩)
      · exact ⟨hc, by omega, by omega⟩
      · exact ⟨h1, by omega, by omega⟩
    · rintro ⟨h1, h2, h3⟩
      by_cases h : r = row
      · exact Or.inl ⟨x, h1, h.symm, rfl⟩
      · exact Or.inr ⟨h1, by omega, by omega⟩

/-- **C21**, sparsity pattern: the pattern built before the assembly contains position `(r, x)`
exactly when `r` is the row of a local eigenvector and `x` a dof of its agglomerate, so all entries
added later (`C20_rows`) fit in it. -/
theorem C21_pattern {K : Type} (first : ℕ) (cs : List (CopyData K)) :
    ∃ ps, pattern (collect cs).dofMaps (collect cs).nLocal 0 first = .ok ps ∧
      ∀ r x, (r, x) ∈ ps ↔
        ∃ (k : ℕ) (c : CopyData K) (v : List K), (rowsOf cs)[k]? = some (c, v) ∧ r = first + k ∧
          x ∈ c.dofMap := by
  rw [collect_eq]
  simp only
  have key : ∀ (pre cs : List (CopyData K)) (row : ℕ),
      ∃ ps, pattern ((pre ++ cs).map (·.dofMap)) (cs.map (fun c => c.eigenvectors.length))
          pre.length row = .ok ps ∧
        ∀ r x, (r, x) ∈ ps ↔
          ∃ (k : ℕ) (c : CopyData K) (v : List K), (rowsOf cs)[k]? = some (c, v) ∧ r = row + k ∧
            x ∈ c.dofMap := by
    intro pre cs
    induction cs generalizing pre with
    | nil => intro row; exact ⟨[], by simp [pattern], by simp [rowsOf]⟩
    | cons c cs ih =>
      intro row
      obtain ⟨ps, h, hps⟩ := ih (pre ++ [c]) (row + c.eigenvectors.length)
      simp only [List.append_assoc, List.singleton_append, List.length_append, List.length_cons,
        List.length_nil, Nat.zero_add] at h
      have hm : ((pre ++ c :: cs).map (·.dofMap))[pre.length]? = some c.dofMap := by simp
      refine ⟨patternRows c.dofMap c.eigenvectors.length row ++ ps, ?_, ?_⟩
      · rw [List.map_cons]
        generalize c.eigenvectors.length = n at h ⊢
        cases n with
        | zero => simp only [pattern, patternRows, Outcome.ok_bind, h]; simp
        | succ n => simp only [pattern, Outcome.get_eq hm, Outcome.ok_bind, Outcome.pure_eq, h]
      · intro r x
        rw [List.mem_append, mem_patternRows, hps]
        have hsplit : rowsOf (c :: cs) = c.eigenvectors.map (fun v => (c, v)) ++ rowsOf cs := by
          simp [rowsOf]
        have hlen : (c.eigenvectors.map (fun v => (c, v))).length = c.eigenvectors.length := by simp
        constructor
        · rintro (⟨hx, h1, h2⟩ | ⟨k, d, v, hk, hr, hx⟩)
          · have hlt : r - row < c.eigenvectors.length := by omega
            refine ⟨r - row, c, c.eigenvectors[r - row], ?_, by omega, hx⟩
            rw [hsplit, List.getElem?_append_left (by rw [hlen]; exact hlt)]
            simp [hlt]
          · refine ⟨c.eigenvectors.length + k, d, v, ?_, by omega, hx⟩
            rw [hsplit, List.getElem?_append_right (by rw [hlen]; omega), hlen, Nat.add_sub_cancel_left, hk]
        · rintro ⟨k, d, v, hk, hr, hx⟩
          rw [hsplit] at hk
          by_cases hlt : k < c.eigenvectors.length
          · rw [List.getElem?_append_left (by rw [hlen]; exact hlt)] at hk
            rw [List.getElem?_map, List.getElem?_eq_getElem hlt] at hk
            simp only [Option.map_some, Option.some.injEq, Prod.mk.injEq] at hk
            left; rw [hk.1]; exact ⟨hx, by omega, by rw [← hk.1]; omega⟩
          · rw [List.getElem?_append_right (by rw [hlen]; omega), hlen] at hk
            right; exact ⟨k - c.eigenvectors.length, d, v, hk, by omega, hx⟩
  exact key [] cs first

example : pattern (collect [exAgg0, exAgg1]).dofMaps (collect [exAgg0, exAgg1]).nLocal 0 7
    = .ok [(7, 0), (7, 1), (8, 0), (8, 1), (9, 2), (9, 1), (10, 2), (10, 1)] := rfl

/-! ### C22 -/

/-- **C22**, the three matrices filled together satisfy `R = V + delta` entry by entry, whether or
not insertions into the not yet compressed delta matrix accumulate. -/
theorem C22_restriction_is_sum {K : Type} [Field K] (debug dynAdds : Bool) (gdiag : ℕ → K)
    (css : List (List (CopyData K))) (hcs : ∀ cs ∈ css, ∀ c ∈ cs, c.WellFormed) :
    ∃ a, assembleAll debug dynAdds gdiag (css.map collect) = .ok a ∧
      ∀ r x, a.R r x = a.V r x + a.delta r x := by
  obtain ⟨a, h, h'⟩ := assembleAll_spec debug dynAdds gdiag css hcs
  refine ⟨a, h, ?_⟩
  intro r x
  obtain ⟨h1, h2, h3⟩ := h' r x
  rw [h1, h2, h3]
  generalize 0 = p
  generalize rowsOf css.flatten = l
  induction l generalizing p with
  | nil => simp [rowsMat]
  | cons cv l ih =>
    obtain ⟨c, v⟩ := cv
    simp only [rowsMat, ih]
    by_cases hr : r = p
    · simp only [hr, if_true, fR, fV, fD]; ring
    · simp only [hr, if_false]; ring

/-- Dof `x` belongs to one agglomerate only: to `c`, at one position of the list. -/
def OnlyIn {K : Type} (cs : List (CopyData K)) (x : ℕ) : Prop :=
  ∃ pre c post, cs = pre ++ c :: post ∧ x ∈ c.dofMap ∧ ∀ d ∈ pre ++ post, x ∉ d.dofMap

/-- **C22**, delta vanishes at every dof that belongs to a single agglomerate. -/
theorem C22_delta_vanishes {K : Type} [Field K] (debug dynAdds : Bool) (gdiag : ℕ → K)
    (css : List (List (CopyData K))) (hcs : ∀ cs ∈ css, ∀ c ∈ cs, c.WellFormed) :
    ∃ a, assembleAll debug dynAdds gdiag (css.map collect) = .ok a ∧
      ∀ x, gdiag x ≠ 0 → DiagSums gdiag css.flatten x → OnlyIn css.flatten x →
        ∀ r, a.delta r x = 0 ∧ a.R r x = a.V r x := by
  obtain ⟨a, h, h'⟩ := assembleAll_spec debug dynAdds gdiag css hcs
  refine ⟨a, h, ?_⟩
  intro x hx hsum honly r
  obtain ⟨pre, c0, post, hdec, hc0, hout⟩ := honly
  have hz : ∀ l : List (CopyData K), (∀ d ∈ l, x ∉ d.dofMap) →
      (l.map (fun c => extend c.dofMap c.diag x)).sum = 0 := by
    intro l hl
    induction l with
    | nil => rfl
    | cons d l ih =>
      rw [List.map_cons, List.sum_cons, extend_not_mem (hl d List.mem_cons_self),
        ih (fun e he => hl e (List.mem_cons_of_mem _ he)), add_zero]
  have hd : extend c0.dofMap c0.diag x = gdiag x := by
    rw [DiagSums, hdec, List.map_append, List.map_cons, List.sum_append, List.sum_cons,
      hz pre (fun d hd => hout d (by simp [hd])), hz post (fun d hd => hout d (by simp [hd])),
      add_zero, zero_add] at hsum
    exact hsum
  have hrow : ∀ c v, (c, v) ∈ rowsOf css.flatten →
      fD gdiag c v x = 0 ∧ fR gdiag c v x = fV c v x := by
    intro c v hcv
    simp only [rowsOf, List.mem_flatMap, List.mem_map, Prod.mk.injEq] at hcv
    obtain ⟨d, hd', w, _, rfl, rfl⟩ := hcv
    rw [hdec] at hd'
    have : d = c0 ∨ x ∉ d.dofMap := by
      simp only [List.mem_append, List.mem_cons] at hd'
      rcases hd' with h | h | h
      · exact Or.inr (hout d (by simp [h]))
      · exact Or.inl h
      · exact Or.inr (hout d (by simp [h]))
    rcases this with rfl | hn
    · simp [fD, fR, fV, hd, div_self hx]
    · simp [fD, fR, fV, extend_not_mem hn]
  rw [(h' r x).1, (h' r x).2.1, (h' r x).2.2]
  revert hrow
  generalize 0 = p
  generalize rowsOf css.flatten = l
  intro hrow
  induction l generalizing p with
  | nil => simp [rowsMat]
  | cons cv l ih =>
    obtain ⟨c, v⟩ := cv
    obtain ⟨i1, i2⟩ := ih (p + 1) (fun c v hcv => hrow c v (List.mem_cons_of_mem _ hcv))
    obtain ⟨e1, e2⟩ := hrow c v List.mem_cons_self
    simp [rowsMat, i1, i2, e1, e2]

example : exGdiag 3 ≠ 0 ∧ DiagSums exGdiag exRanks.flatten 3 ∧ OnlyIn exRanks.flatten 3 :=
  ⟨by norm_num [exGdiag],
    by norm_num [exGdiag, DiagSums, exRanks, exAgg0, exAgg1, exAgg2, extend_cons],
    [exAgg0, exAgg1], exAgg2, [], rfl, by decide, by decide⟩

/-- On the example delta is not zero at the shared dof 1 (weight 1/2, eigenvector entry 1). -/
example : ∃ a, assembleAll true false exGdiag (exRanks.map collect) = .ok a ∧
    a.delta 0 1 = -1 / 2 := by
  obtain ⟨a, h, h'⟩ := assembleAll_spec true false exGdiag exRanks exRanks_wf
  refine ⟨a, h, ?_⟩
  rw [(h' 0 1).2.2]
  norm_num [exRanks, rowsOf, rowsMat, fD, exAgg0, exAgg1, exAgg2, exGdiag, extend_cons]

end Mfmg
