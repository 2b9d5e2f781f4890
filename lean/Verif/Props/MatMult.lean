import Verif.Spec.MatMult
import Mathlib.Data.List.Basic
import Mathlib.Data.List.Nodup
import Mathlib.Algebra.Order.BigOperators.Group.List
import Mathlib.Algebra.BigOperators.Ring.List
import Mathlib.Algebra.Order.Ring.Abs
import Mathlib.Algebra.Order.Ring.Rat
import Mathlib.Algebra.Order.Field.Rat
import Mathlib.Tactic.Ring
import Mathlib.Tactic.Linarith
import Mathlib.Tactic.NormNum

/-!
# The matrix-free product with a transpose (C38)
-/

set_option autoImplicit false

namespace Mfmg

section

variable {K : Type} [Field K]

omit [Field K] in
theorem foldl_assign : ∀ (l : List (ℕ × K)) (v : ℕ → K) (k : ℕ), (l.map Prod.fst).Nodup →
    (l.foldl (fun v e => fun k => if k = e.1 then e.2 else v k) v) k
      = ((l.find? (fun e => e.1 == k)).map Prod.snd).getD (v k) := by
  intro l
  induction l with
  | nil => intro v k _; rfl
  | cons e l ih =>
    intro v k h
    rw [List.map_cons, List.nodup_cons] at h
    rw [List.foldl_cons, ih _ _ h.2, List.find?_cons]
    by_cases hk : e.1 = k
    · have : l.find? (fun e => e.1 == k) = none := by
        rw [List.find?_eq_none]
        intro x hx hxk
        apply h.1
        rw [hk, ← eq_of_beq hxk]
        exact List.mem_map_of_mem hx
      simp [this, hk]
    · have hb : (e.1 == k) = false := by simp [hk]
      rw [hb]
      simp [Ne.symm hk]

theorem sum_range_single (f : ℕ → K) (r : ℕ) : ∀ n, r < n → (∀ i, i ≠ r → f i = 0) →
    ((List.range n).map f).sum = f r := by
  intro n hr h
  induction n with
  | zero => omega
  | succ n ih =>
    rw [List.range_succ, List.map_append, List.sum_append]
    simp only [List.map_cons, List.map_nil, List.sum_cons, List.sum_nil, add_zero]
    by_cases hn : r = n
    · subst hn
      have : ((List.range r).map f).sum = 0 := by
        apply List.sum_eq_zero
        intro x hx
        obtain ⟨i, hi, rfl⟩ := List.mem_map.1 hx
        exact h i (by have := List.mem_range.1 hi; omega)
      rw [this, zero_add]
    · rw [ih (by omega), h n (Ne.symm hn), add_zero]

/-- **C38**, rows: on any number of processes and whatever the distribution, `extract_row` returns
exactly the row. -/
theorem C38_extract_row (procs : ℕ) (B : DistMatrix K) (hB : B.WellFormed procs) (j k : ℕ)
    (hj : j < B.rows) : extractRow procs B j k = B.value j k := by
  obtain ⟨ho, hd⟩ := hB j hj
  unfold extractRow
  rw [sum_range_single _ (B.rowOwner j) _ ho]
  · unfold ghostedRow
    rw [if_pos rfl, foldl_assign _ _ _ hd]
    rfl
  · intro i hi
    unfold ghostedRow
    rw [if_neg (Ne.symm hi)]
    rfl

variable [LinearOrder K]

theorem mem_columnSets (eps : K) (owner : ℕ → ℕ) (nRows rank j : ℕ) (dst : ℕ → K)
    (i j' : ℕ) (x : K) : (i, j', x) ∈ columnSets eps owner nRows rank j dst ↔
      j' = j ∧ i < nRows ∧ owner i = rank ∧ x = dst i ∧ eps < |x| := by
  unfold columnSets
  rw [List.mem_filterMap]
  constructor
  · rintro ⟨a, ha, h⟩
    split_ifs at h with h1 h2
    simp only [Option.some.injEq, Prod.mk.injEq] at h
    obtain ⟨rfl, rfl, rfl⟩ := h
    exact ⟨rfl, List.mem_range.1 ha, h1, rfl, h2⟩
  · rintro ⟨rfl, hi, ho, rfl, hx⟩
    exact ⟨i, List.mem_range.2 hi, by rw [if_pos ho, if_pos hx]⟩

/-- **C38**, what is stored: process `rank` sets entry `(i, j)` to `x` if and only if it owns row `i`,
`x` is that entry of `A Bᵀ`, and `x` is larger than the tolerance. -/
theorem C38_stored (procs n : ℕ) (eps : K) (B : DistMatrix K) (hB : B.WellFormed procs) (nRows : ℕ)
    (owner : ℕ → ℕ) (apply : (ℕ → K) → (ℕ → K)) (a : ℕ → ℕ → K) (hA : IsMatrix n a apply)
    (rank i j : ℕ) (x : K) :
    (i, j, x) ∈ transposeMultiply procs eps B nRows owner apply rank ↔
      i < nRows ∧ j < B.rows ∧ owner i = rank ∧ x = productTransposed n a B i j ∧ eps < |x| := by
  unfold transposeMultiply
  rw [List.mem_flatMap]
  have key : ∀ j, j < B.rows → apply (extractRow procs B j) i = productTransposed n a B i j := by
    intro j hj
    rw [hA]
    unfold productTransposed
    congr 1
    apply List.map_congr_left
    intro k _
    rw [C38_extract_row procs B hB j k hj]
  constructor
  · rintro ⟨j', hj', h⟩
    obtain ⟨rfl, hi, ho, hx, he⟩ := (mem_columnSets ..).1 h
    have hj := List.mem_range.1 hj'
    exact ⟨hi, hj, ho, by rw [hx, key _ hj], he⟩
  · rintro ⟨hi, hj, ho, hx, he⟩
    exact ⟨j, List.mem_range.2 hj, (mem_columnSets ..).2 ⟨rfl, hi, ho, by rw [hx, key _ hj], he⟩⟩

omit [LinearOrder K] in
theorem insertedValue_eq (sets : List (ℕ × ℕ × K)) (i j : ℕ) (y : K)
    (huniq : ∀ x, (i, j, x) ∈ sets → x = y) :
    insertedValue sets i j = y ∧ (∃ x, (i, j, x) ∈ sets) ∨
      insertedValue sets i j = 0 ∧ ¬ ∃ x, (i, j, x) ∈ sets := by
  unfold insertedValue
  have : ∀ (l : List (ℕ × ℕ × K)) (c : K), (∀ x, (i, j, x) ∈ l → x = y) →
      ((l.foldl (fun c s => if s.1 = i ∧ s.2.1 = j then s.2.2 else c) c = y ∧ ∃ x, (i, j, x) ∈ l) ∨
      (l.foldl (fun c s => if s.1 = i ∧ s.2.1 = j then s.2.2 else c) c = c ∧
        ¬ ∃ x, (i, j, x) ∈ l)) := by
    intro l
    induction l with
    | nil => intro c _; exact Or.inr ⟨rfl, by simp⟩
    | cons s l ih =>
      intro c h
      obtain ⟨a, b, x⟩ := s
      rw [List.foldl_cons]
      have h' : ∀ x, (i, j, x) ∈ l → x = y := fun x hx => h x (List.mem_cons_of_mem _ hx)
      by_cases hab : a = i ∧ b = j
      · obtain ⟨rfl, rfl⟩ := hab
        have hxy : x = y := h x (by simp)
        subst hxy
        left
        rw [if_pos ⟨rfl, rfl⟩]
        refine ⟨?_, x, by simp⟩
        rcases ih x h' with ⟨h1, _⟩ | ⟨h1, _⟩ <;> exact h1
      · rw [if_neg hab]
        rcases ih c h' with ⟨h1, x', hx'⟩ | ⟨h1, h2⟩
        · exact Or.inl ⟨h1, x', List.mem_cons_of_mem _ hx'⟩
        · refine Or.inr ⟨h1, ?_⟩
          rintro ⟨x', hx'⟩
          rcases List.mem_cons.1 hx' with hx' | hx'
          · simp only [Prod.mk.injEq] at hx'
            exact hab ⟨hx'.1.symm, hx'.2.1.symm⟩
          · exact h2 ⟨x', hx'⟩
  exact this sets 0 huniq

/-- **C38**, the values: the matrix assembled on the process owning row `i` holds, at `(i, j)`, the
entry of `A Bᵀ` if that is larger than the tolerance and zero otherwise. -/
theorem C38_values (procs n : ℕ) (eps : K) (B : DistMatrix K) (hB : B.WellFormed procs) (nRows : ℕ)
    (owner : ℕ → ℕ) (apply : (ℕ → K) → (ℕ → K)) (a : ℕ → ℕ → K) (hA : IsMatrix n a apply)
    (i j : ℕ) (hi : i < nRows) (hj : j < B.rows) :
    insertedValue (transposeMultiply procs eps B nRows owner apply (owner i)) i j
      = if eps < |productTransposed n a B i j| then productTransposed n a B i j else 0 := by
  have hm := C38_stored procs n eps B hB nRows owner apply a hA (owner i) i j
  rcases insertedValue_eq (transposeMultiply procs eps B nRows owner apply (owner i)) i j
    (productTransposed n a B i j) (fun x hx => ((hm x).1 hx).2.2.2.1) with ⟨h1, x, hx⟩ | ⟨h1, h2⟩
  · have := (hm x).1 hx
    rw [h1, if_pos]
    rw [← this.2.2.2.1]
    exact this.2.2.2.2
  · rw [h1, if_neg]
    intro he
    exact h2 ⟨_, (hm _).2 ⟨hi, hj, rfl, rfl, he⟩⟩

variable [IsStrictOrderedRing K]

/-- **C38**, the error: every entry differs from the exact one by at most the tolerance. -/
theorem C38_error (procs n : ℕ) (eps : K) (heps : 0 ≤ eps) (B : DistMatrix K)
    (hB : B.WellFormed procs) (nRows : ℕ) (owner : ℕ → ℕ) (apply : (ℕ → K) → (ℕ → K))
    (a : ℕ → ℕ → K) (hA : IsMatrix n a apply) (i j : ℕ) (hi : i < nRows) (hj : j < B.rows) :
    |insertedValue (transposeMultiply procs eps B nRows owner apply (owner i)) i j
      - productTransposed n a B i j| ≤ eps := by
  rw [C38_values procs n eps B hB nRows owner apply a hA i j hi hj]
  split_ifs with h
  · rw [sub_self, abs_zero]; exact heps
  · rw [zero_sub, abs_neg]; exact not_lt.1 h

/-- **C38**, consequence for the coarse operator `R (A Rᵀ)`: each of its entries differs from the exact
Galerkin product by at most the tolerance times the sum of the moduli in the row of `R`. -/
theorem C38_galerkin (procs n : ℕ) (eps : K) (heps : 0 ≤ eps) (R : DistMatrix K)
    (hR : R.WellFormed procs) (owner : ℕ → ℕ) (apply : (ℕ → K) → (ℕ → K))
    (a : ℕ → ℕ → K) (hA : IsMatrix n a apply) (r j : ℕ) (hj : j < R.rows) :
    |((List.range n).map (fun i => R.value r i *
        insertedValue (transposeMultiply procs eps R n owner apply (owner i)) i j)).sum
      - ((List.range n).map (fun i => R.value r i * productTransposed n a R i j)).sum|
      ≤ eps * ((List.range n).map (fun i => |R.value r i|)).sum := by
  have : ∀ m, m ≤ n → |((List.range m).map (fun i => R.value r i *
        insertedValue (transposeMultiply procs eps R n owner apply (owner i)) i j)).sum
      - ((List.range m).map (fun i => R.value r i * productTransposed n a R i j)).sum|
      ≤ eps * ((List.range m).map (fun i => |R.value r i|)).sum := by
    intro m
    induction m with
    | zero => intro _; simp
    | succ m ih =>
      intro hm
      simp only [List.range_succ, List.map_append, List.sum_append, List.map_cons, List.map_nil,
        List.sum_cons, List.sum_nil, add_zero]
      have h1 := ih (by omega)
      have h2 := C38_error procs n eps heps R hR n owner apply a hA m j (by omega) hj
      generalize insertedValue (transposeMultiply procs eps R n owner apply (owner m)) m j = c at *
      generalize productTransposed n a R m j = d at *
      have h3 : |R.value r m * c - R.value r m * d| ≤ eps * |R.value r m| := by
        rw [← mul_sub, abs_mul, mul_comm]
        exact mul_le_mul_of_nonneg_right h2 (abs_nonneg _)
      generalize ((List.range m).map (fun i => R.value r i *
        insertedValue (transposeMultiply procs eps R n owner apply (owner i)) i j)).sum = s at *
      generalize ((List.range m).map (fun i => R.value r i * productTransposed n a R i j)).sum = t at *
      calc |s + R.value r m * c - (t + R.value r m * d)|
          = |(s - t) + (R.value r m * c - R.value r m * d)| := by congr 1; ring
        _ ≤ |s - t| + |R.value r m * c - R.value r m * d| := abs_add_le _ _
        _ ≤ _ := by rw [mul_add]; exact add_le_add h1 h3
  exact this n (le_refl n)

end

/-! ### A concrete case: two processes, a tridiagonal operator -/

/-- Two rows, owned by process 1 and 0. -/
def exB : DistMatrix ℚ where
  rows := 2
  rowOwner := fun j => 1 - j
  entries := fun j => if j = 0 then [(2, 1), (0, 1 / 2)] else [(1, 1), (2, 1)]

/-- `[[2,-1,0],[-1,2,-1],[0,-1,2]]`. -/
def exTri (i k : ℕ) : ℚ := if i = k then 2 else if i = k + 1 ∨ k = i + 1 then -1 else 0

theorem exB_wf : exB.WellFormed 2 := by
  intro j hj
  have : j = 0 ∨ j = 1 := by have : j < 2 := hj; omega
  rcases this with rfl | rfl <;> exact ⟨by decide, by decide⟩

example : insertedValue (transposeMultiply 2 (1 / 10 ^ 14) exB 3 (fun i => i / 2)
    (fun v i => ((List.range 3).map (fun k => exTri i k * v k)).sum) (1 / 2)) 1 0 = -3 / 2 := by
  rw [C38_values 2 3 _ exB exB_wf 3 (fun i => i / 2) _ exTri (fun _ _ => rfl) 1 0 (by decide)
    (by decide)]
  decide +kernel

end Mfmg
