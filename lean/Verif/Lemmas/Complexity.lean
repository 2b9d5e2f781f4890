import Verif.Spec.Complexity
import Verif.Lemmas.StoreThreads
import Verif.Props.SetupAll

/-!
# Counting statements, rows and nonzero entries
-/

set_option autoImplicit false

namespace Mfmg

open Finset

section work

variable {V : ℕ → Type}

theorem Costs.ofProgram_append (c : Costs) (p q : List (VStmt V)) :
    c.ofProgram (p ++ q) = c.ofProgram p + c.ofProgram q := by
  simp [Costs.ofProgram]

theorem cost_smoothLoop (c : Costs) (P : Parts V) (t l k : ℕ) (b x : VecName) (n : ℕ) :
    c.ofProgram (smoothLoopStmts P t l k b x n) = n * (2 * c.product l l + 6 * c.vector l) := by
  induction n with
  | zero => simp [smoothLoopStmts, Costs.ofProgram]
  | succ n ih =>
    rw [smoothLoopStmts, Costs.ofProgram_append, ih]
    simp only [smoothStmts, Costs.ofProgram, Costs.ofStmt, List.map_cons, List.map_nil, List.sum_cons, List.sum_nil]
    ring

/-- The cost of `apply` on level `l` with `d` levels below. -/
theorem cost_apply (c : Costs) (P : Parts V) (junk : ∀ l, ℕ → V l) (t d : ℕ) :
    ∀ (l k : ℕ) (b x : VecName), c.ofProgram (applyStmts P junk t d l k b x)
      = ∑ j ∈ range d, c.level P.nSmoothingSteps (l + j)
        + ∑ j ∈ range (d + 1), (if l + j > 0 ∨ P.isPreconditioner then c.vector (l + j) else 0) + c.coarse (l + d) := by
  have hz : ∀ (l : ℕ) (x : VecName), c.ofProgram (V := V) (if l > 0 ∨ P.isPreconditioner then [.zero l x] else [])
      = if l > 0 ∨ P.isPreconditioner then c.vector l else 0 := by
    intro l x
    split <;> simp [Costs.ofProgram, Costs.ofStmt]
  induction d with
  | zero =>
    intro l k b x
    rw [applyStmts, Costs.ofProgram_append, hz]
    simp [Costs.ofProgram, Costs.ofStmt]
  | succ d ih =>
    intro l k b x
    rw [applyStmts]
    simp only [Costs.ofProgram_append, hz, ih, cost_smoothLoop]
    have e1 : ∑ j ∈ range (d + 1), c.level P.nSmoothingSteps (l + j)
        = ∑ j ∈ range d, c.level P.nSmoothingSteps (l + 1 + j) + c.level P.nSmoothingSteps l := by
      rw [Finset.sum_range_succ']
      congr 1
      exact Finset.sum_congr rfl fun j _ => by rw [show l + (j + 1) = l + 1 + j by omega]
    have e2 : ∑ j ∈ range (d + 1 + 1), (if l + j > 0 ∨ P.isPreconditioner then c.vector (l + j) else 0)
        = ∑ j ∈ range (d + 1), (if l + 1 + j > 0 ∨ P.isPreconditioner then c.vector (l + 1 + j) else 0)
          + if l > 0 ∨ P.isPreconditioner then c.vector l else 0 := by
      rw [Finset.sum_range_succ']
      congr 1
      exact Finset.sum_congr rfl fun j _ => by rw [show l + (j + 1) = l + 1 + j by omega]
    rw [e1, e2, show l + (d + 1) = l + 1 + d by omega]
    generalize ∑ j ∈ range d, c.level P.nSmoothingSteps (l + 1 + j) = S
    generalize ∑ j ∈ range (d + 1), (if l + 1 + j > 0 ∨ P.isPreconditioner then c.vector (l + 1 + j) else 0) = T
    simp only [Costs.ofProgram, Costs.ofStmt, List.map_cons, List.map_nil, List.sum_cons, List.sum_nil, Costs.level]
    ring

/-- The local vectors that statements of `apply` on level `l` write to. -/
theorem apply_names (P : Parts V) (junk : ∀ l, ℕ → V l) (t d : ℕ) :
    ∀ (l k : ℕ) (b x : VecName), ∀ s ∈ applyStmts P junk t d l k b x, ∀ c ∈ s.writes,
      c = .vec l x ∨ (∃ q, c = .problem q) ∨
      (∃ j i, i ∈ [0, 1, 3, 4, 5] ∧ c = .vec (l + j) (.temp t (k + 3 * j + i))) ∨
      ∃ j i, i ∈ [1, 2] ∧ c = .vec (l + j + 1) (.temp t (k + 3 * j + i)) := by
  have hsm : ∀ (l k n : ℕ) (b x : VecName), ∀ s ∈ smoothLoopStmts P t l k b x n, ∀ c ∈ s.writes,
      c = .vec l x ∨ c = .vec l (.temp t k) ∨ c = .vec l (.temp t (k + 1)) := by
    intro l k n b x
    induction n with
    | zero => simp [smoothLoopStmts]
    | succ n ih =>
      intro s hs c hc
      rw [smoothLoopStmts, List.mem_append] at hs
      rcases hs with hs | hs
      · simp only [smoothStmts, List.mem_cons, List.not_mem_nil, or_false] at hs
        rcases hs with rfl | rfl | rfl | rfl | rfl | rfl | rfl | rfl <;>
          simp only [VStmt.writes, List.mem_singleton] at hc <;> simp [hc]
      · exact ih s hs c hc
  have hz : ∀ (l : ℕ) (x : VecName), ∀ s ∈ (if l > 0 ∨ P.isPreconditioner then [VStmt.zero l x] else [] : List (VStmt V)),
      ∀ c ∈ s.writes, c = .vec l x := by
    intro l x s hs c hc
    split at hs
    · simp only [List.mem_singleton] at hs
      subst hs
      simpa [VStmt.writes] using hc
    · simp at hs
  induction d with
  | zero =>
    intro l k b x s hs c hc
    rw [applyStmts, List.mem_append] at hs
    rcases hs with hs | hs
    · exact Or.inl (hz l x s hs c hc)
    · simp only [List.mem_singleton] at hs
      subst hs
      simp only [VStmt.writes, List.mem_cons, Option.mem_toList, Option.map_eq_some_iff] at hc
      rcases hc with rfl | ⟨q, -, rfl⟩
      · exact Or.inl rfl
      · exact Or.inr (Or.inl ⟨q, rfl⟩)
  | succ d ih =>
    intro l k b x s hs c hc
    have own : ∀ i, i ∈ [0, 1, 3, 4, 5] → c = .vec l (.temp t (k + i)) → c = .vec l x ∨ (∃ q, c = .problem q) ∨
        (∃ j i, i ∈ [0, 1, 3, 4, 5] ∧ c = .vec (l + j) (.temp t (k + 3 * j + i))) ∨
        ∃ j i, i ∈ [1, 2] ∧ c = .vec (l + j + 1) (.temp t (k + 3 * j + i)) :=
      fun i hi h => Or.inr (Or.inr (Or.inl ⟨0, i, hi, h⟩))
    have next : ∀ i, i ∈ [1, 2] → c = .vec (l + 1) (.temp t (k + i)) → c = .vec l x ∨ (∃ q, c = .problem q) ∨
        (∃ j i, i ∈ [0, 1, 3, 4, 5] ∧ c = .vec (l + j) (.temp t (k + 3 * j + i))) ∨
        ∃ j i, i ∈ [1, 2] ∧ c = .vec (l + j + 1) (.temp t (k + 3 * j + i)) :=
      fun i hi h => Or.inr (Or.inr (Or.inr ⟨0, i, hi, h⟩))
    rw [applyStmts] at hs
    simp only [List.mem_append] at hs
    rcases hs with (((((hs | hs) | hs) | hs) | hs) | hs) | hs
    · exact Or.inl (hz l x s hs c hc)
    · rcases hsm l k _ b x s hs c hc with h | h | h
      · exact Or.inl h
      · exact own 0 (by simp) h
      · exact own 1 (by simp) h
    · simp only [List.mem_cons, List.not_mem_nil, or_false] at hs
      rcases hs with rfl | rfl | rfl | rfl | rfl | rfl <;> simp only [VStmt.writes, List.mem_singleton] at hc
      · exact own 0 (by simp) hc
      · exact own 0 (by simp) hc
      · exact own 0 (by simp) hc
      · exact next 1 (by simp) hc
      · exact next 1 (by simp) hc
      · exact next 2 (by simp) hc
    · rcases ih (l + 1) (k + 3) _ _ s hs c hc with h | h | ⟨j, i, hi, h⟩ | ⟨j, i, hi, h⟩
      · exact next 2 (by simp) h
      · exact Or.inr (Or.inl h)
      · refine Or.inr (Or.inr (Or.inl ⟨j + 1, i, hi, ?_⟩))
        rw [h, show l + 1 + j = l + (j + 1) by omega, show k + 3 + 3 * j + i = k + 3 * (j + 1) + i by omega]
      · refine Or.inr (Or.inr (Or.inr ⟨j + 1, i, hi, ?_⟩))
        rw [h, show l + 1 + j + 1 = l + (j + 1) + 1 by omega, show k + 3 + 3 * j + i = k + 3 * (j + 1) + i by omega]
    · simp only [List.mem_cons, List.not_mem_nil, or_false] at hs
      rcases hs with rfl | rfl | rfl <;> simp only [VStmt.writes, List.mem_singleton] at hc
      · exact own 3 (by simp) hc
      · exact own 3 (by simp) hc
      · exact Or.inl hc
    · rcases hsm l (k + 4) _ b x s hs c hc with h | h | h
      · exact Or.inl h
      · exact own 4 (by simp) h
      · exact own 5 (by simp) h
    · simp only [List.mem_cons, List.not_mem_nil, or_false] at hs
      rcases hs with rfl | rfl | rfl | rfl <;> simp only [VStmt.writes, List.mem_singleton] at hc
      · exact own 3 (by simp) hc
      · exact next 2 (by simp) hc
      · exact next 1 (by simp) hc
      · exact own 0 (by simp) hc

end work

section nonzero

variable {K : Type} [Field K] [DecidableEq K] {m n : ℕ}

/-- Rows that meet a column. -/
def rowsAt (R : Matrix (Fin m) (Fin n) K) (i : Fin n) : Finset (Fin m) := univ.filter fun k => R k i ≠ 0

theorem nonzeros_le {R : Matrix (Fin m) (Fin n) K} {s : ℕ} (hs : ∀ i, (rowsAt R i).card ≤ s) :
    nonzeros R ≤ s * n := by
  have h : (univ.filter fun p : Fin m × Fin n => R p.1 p.2 ≠ 0) ⊆ univ.biUnion fun i : Fin n => (rowsAt R i) ×ˢ {i} := by
    intro p hp
    simp only [mem_filter, mem_univ, true_and] at hp
    simp only [mem_biUnion, mem_univ, true_and, mem_product, mem_singleton, rowsAt, mem_filter]
    exact ⟨p.2, hp, rfl⟩
  refine (card_le_card h).trans (card_biUnion_le.trans ?_)
  refine (sum_le_card_nsmul _ _ s fun i _ => ?_).trans ?_
  · rw [card_product, card_singleton, mul_one]
    exact hs i
  · simp [mul_comm]

/-- The Galerkin product has at most `s²` nonzero entries for each one of the matrix. -/
theorem nonzeros_galerkin {R : Matrix (Fin m) (Fin n) K} {s : ℕ} (hs : ∀ i, (rowsAt R i).card ≤ s)
    (A : Matrix (Fin n) (Fin n) K) : nonzeros (galerkin R A) ≤ s ^ 2 * nonzeros A := by
  have h : (univ.filter fun p : Fin m × Fin m => galerkin R A p.1 p.2 ≠ 0)
      ⊆ (univ.filter fun p : Fin n × Fin n => A p.1 p.2 ≠ 0).biUnion fun p => (rowsAt R p.1) ×ˢ (rowsAt R p.2) := by
    intro p hp
    replace hp := (mem_filter.1 hp).2
    simp only [galerkin, Matrix.mul_apply] at hp
    obtain ⟨j, -, hj⟩ := exists_ne_zero_of_sum_ne_zero hp
    obtain ⟨i, -, hi⟩ := exists_ne_zero_of_sum_ne_zero (left_ne_zero_of_mul hj)
    simp only [mem_biUnion, mem_filter, mem_univ, true_and, mem_product, rowsAt, Prod.exists]
    exact ⟨i, j, right_ne_zero_of_mul hi, left_ne_zero_of_mul hi, right_ne_zero_of_mul hj⟩
  refine (card_le_card h).trans (card_biUnion_le.trans ?_)
  refine (sum_le_card_nsmul _ _ (s ^ 2) fun p _ => ?_).trans ?_
  · rw [card_product, sq]
    exact Nat.mul_le_mul (hs _) (hs _)
  · rw [smul_eq_mul, mul_comm, nonzeros]

end nonzero

section rows

variable {K : Type}

/-- The rows of agglomerates, counted. -/
theorem rowsOf_length (cs : List (CopyData K)) {nEig : ℕ} (h : ∀ c ∈ cs, c.eigenvectors.length ≤ nEig) :
    (rowsOf cs).length ≤ nEig * cs.length := by
  induction cs with
  | nil => simp [rowsOf]
  | cons c cs ih =>
    have h1 := ih fun c hc => h c (List.mem_cons_of_mem _ hc)
    have h2 := h c List.mem_cons_self
    simp only [rowsOf, List.flatMap_cons, List.length_append, List.length_map, List.length_cons] at h1 ⊢
    rw [Nat.mul_add, Nat.mul_one]
    omega

/-- The rows of the agglomerates with dof `x`, counted. -/
theorem rowsOf_countP (cs : List (CopyData K)) {nEig : ℕ} (h : ∀ c ∈ cs, c.eigenvectors.length ≤ nEig) (x : ℕ) :
    (rowsOf cs).countP (fun cv => decide (x ∈ cv.1.dofMap)) ≤ nEig * cs.countP (fun c => decide (x ∈ c.dofMap)) := by
  induction cs with
  | nil => simp [rowsOf]
  | cons c cs ih =>
    have h1 := ih fun c hc => h c (List.mem_cons_of_mem _ hc)
    have h2 := h c List.mem_cons_self
    simp only [rowsOf, List.flatMap_cons, List.countP_append, List.countP_cons, List.countP_map] at h1 ⊢
    have h3 : List.countP ((fun cv : CopyData K × List K => decide (x ∈ cv.1.dofMap)) ∘ fun v => (c, v)) c.eigenvectors
        ≤ nEig * (if decide (x ∈ c.dofMap) = true then 1 else 0) := by
      by_cases hx : x ∈ c.dofMap
      · simpa [hx] using List.countP_le_length.trans h2
      · simp [hx, Function.comp_def]
    rw [Nat.mul_add]
    omega

/-- Positions of a list that satisfy a condition. -/
theorem card_positions {α : Type} (l : List α) (p : α → Bool) :
    (univ.filter fun k : Fin l.length => p l[k] = true).card = l.countP p := by
  rw [card_filter]
  have h := Fin.sum_univ_fun_getElem l fun a => if p a = true then 1 else 0
  refine h.trans ?_
  induction l with
  | nil => rfl
  | cons a l ih =>
    rw [List.map_cons, List.sum_cons, List.countP_cons, ih (Fin.sum_univ_fun_getElem l fun a => if p a = true then 1 else 0),
      add_comm]

variable [AddCommMonoid K]

/-- A process has at most as many agglomerates as cells, and at most as many with a given dof as cells with it. -/
theorem result_counts {q : ProcFem K} {name : String} {u : UserIndex} {cs : List (CopyData K)} (h : q.Result name u cs) :
    cs.length ≤ q.ownCells.card ∧
      ∀ x, cs.countP (fun c => decide (x ∈ c.dofMap)) ≤ (q.ownCells.filter fun c => x ∈ q.cellDofs c).card := by
  have hown : ∀ k d, d ∈ q.aggCells u k → d ∈ q.ownCells ∧ u d - 1 = k := by
    intro k d hd
    obtain ⟨h1, h2⟩ := mem_filter.1 hd
    refine ⟨mem_filter.2 ⟨h1, ?_⟩, by omega⟩
    by_contra hf
    have := h.other d (mem_range.1 h1) (by simpa using hf)
    omega
  constructor
  · have : (range cs.length).card ≤ q.ownCells.card := by
      apply card_le_card_of_surjOn (fun d => u d - 1)
      intro k hk
      obtain ⟨d, hd⟩ := h.nonempty k (by simpa using hk)
      exact ⟨d, (hown k d hd).1, (hown k d hd).2⟩
    simpa using this
  · intro x
    rw [← card_positions]
    have h1 : ((univ.filter fun k : Fin cs.length => decide (x ∈ cs[k].dofMap) = true).image Fin.val).card
        ≤ (q.ownCells.filter fun c => x ∈ q.cellDofs c).card := by
      apply card_le_card_of_surjOn (fun d => u d - 1)
      intro k hk
      simp only [coe_image, coe_filter, mem_univ, true_and, decide_eq_true_eq, Set.mem_image, Set.mem_ofPred_eq] at hk
      obtain ⟨⟨k', hk'⟩, hx, rfl⟩ := hk
      obtain ⟨d, hd, hxd⟩ := (h.dofs k' _ (List.getElem?_eq_getElem hk') x).1 hx
      exact ⟨d, mem_coe.2 (mem_filter.2 ⟨(hown k' d hd).1, hxd⟩), (hown k' d hd).2⟩
    rwa [card_image_of_injective _ Fin.val_injective] at h1

/-- The counts of all processes. -/
theorem results_counts {procs : List (ProcFem K)} {rs : List (UserIndex × List (CopyData K))} {name : String}
    (h : List.Forall₂ (fun q r => q.Result name r.1 r.2) procs rs) :
    (rs.map Prod.snd).flatten.length ≤ totalCells procs ∧
      ∀ x, (rs.map Prod.snd).flatten.countP (fun c => decide (x ∈ c.dofMap)) ≤ cellsAt procs x := by
  induction h with
  | nil => simp [totalCells, cellsAt]
  | cons h _ ih =>
    obtain ⟨h1, h2⟩ := result_counts h
    obtain ⟨h3, h4⟩ := ih
    constructor
    · simp only [List.map_cons, List.flatten_cons, List.length_append, totalCells, List.sum_cons] at h3 ⊢
      omega
    · intro x
      have h5 := h2 x
      have h6 := h4 x
      simp only [List.map_cons, List.flatten_cons, List.countP_append, cellsAt, List.sum_cons] at h6 ⊢
      omega

end rows

end Mfmg
