import Verif.Lemmas.Complexity
import Verif.Model.Complexity
import Verif.Props.Store
import Verif.Examples.Multigrid
import Mathlib.Algebra.Order.Field.Basic
import Mathlib.Algebra.Order.BigOperators.Group.Finset

/-!
# C113: work and memory
-/

set_option autoImplicit false

namespace Mfmg

open Finset Spec Example

section application

variable {V : ℕ → Type} [∀ l, AddCommGroup (V l)]

/-- What an application costs: on every level but the coarsest `4 nu + 1` products with the operator and the
preconditioner, one restriction, one prolongation and a fixed number of vector operations; one coarse solve; setting
the iterates to zero.  Missing from the full claim: the reported complexities (`C113_reported_violated`). -/
theorem C113_work_partial {H : Hierarchy V} {P : Parts V} (h : MadeOf H P) (junk : ∀ l, ℕ → V l) (t : ℕ) (x b : VecName)
    (c : Costs) :
    c.ofProgram (vmultStmts P junk t x b)
      = ∑ j ∈ range (H.numLevels - 1), c.level H.nSmoothingSteps j
        + ∑ j ∈ range H.numLevels, (if j > 0 ∨ H.isPreconditioner then c.vector j else 0)
        + c.coarse (H.numLevels - 1) := by
  have hp := h.pos
  rw [vmultStmts, cost_apply, h.levels, h.steps, h.preconditioner, show H.numLevels - 1 + 1 = H.numLevels by omega]
  simp only [Nat.zero_add]

/-- Wherever an application stops, at most seven local vectors of each level exist. -/
theorem C113_memory {H : Hierarchy V} {P : Parts V} (h : MadeOf H P) (junk : ∀ l, ℕ → V l) (t i j : ℕ) (hij : i ≠ j)
    (σ : Store V) (x b : V 0) (hx : σ 0 (.user i) = some x) (hb : σ 0 (.user j) = some b)
    (hl : ∀ l k, σ l (.temp t k) = none) (n l : ℕ) :
    ∃ τ, runStmts ((vmultStmts P junk t (.user i) (.user j)).take n) σ = .ok τ ∧
      ∃ s : Finset ℕ, s.card ≤ 7 ∧ ∀ k, τ l (.temp t k) ≠ none → k ∈ s := by
  obtain ⟨τ, hτ, -⟩ := C86_exception h junk t i j hij σ x b hx hb hl n
  refine ⟨τ, hτ, ({3 * l, 3 * l + 1, 3 * l + 3, 3 * l + 4, 3 * l + 5, 3 * (l - 1) + 1, 3 * (l - 1) + 2} : Finset ℕ),
    ?_, ?_⟩
  · exact (card_insert_le _ _).trans (Nat.succ_le_succ card_le_six)
  · intro k hk
    by_contra hno
    apply hk
    rw [← hl l k]
    apply runStmts_frame hτ
    intro s hs hw
    simp only [mem_insert, mem_singleton, not_or] at hno
    rcases apply_names P junk t _ 0 0 _ _ s (List.mem_of_mem_take hs) _ hw with h1 | ⟨q, h1⟩ | ⟨j', i', hi, h1⟩ | ⟨j', i', hi, h1⟩
    · simp at h1
    · simp at h1
    · simp only [VCell.vec.injEq, VecName.temp.injEq, true_and] at h1
      simp only [List.mem_cons, List.not_mem_nil, or_false] at hi
      omega
    · simp only [VCell.vec.injEq, VecName.temp.injEq, true_and] at h1
      simp only [List.mem_cons, List.not_mem_nil, or_false] at hi
      omega

end application

/-- Levels that shrink: the sum of the sizes. -/
theorem shrinking_sum {N : ℕ → ℚ} {θ : ℚ} (h0 : ∀ j, 0 ≤ N j)
    (h : ∀ j, N (j + 1) ≤ θ * N j) (L : ℕ) : (1 - θ) * ∑ j ∈ range L, N j ≤ N 0 := by
  have hsum : ∀ L, ∑ j ∈ range (L + 1), N j ≤ N 0 + θ * ∑ j ∈ range L, N j := by
    intro L
    rw [Finset.sum_range_succ', Finset.mul_sum, add_comm]
    exact add_le_add le_rfl (Finset.sum_le_sum fun j _ => h j)
  have h1 := hsum L
  rw [Finset.sum_range_succ] at h1
  have h2 := h0 L
  linarith

section application

variable {V : ℕ → Type} [∀ l, AddCommGroup (V l)]

/-- If the matrices have at most `p` entries per row, the restrictions at most `s` per fine dof, and every level has at
most `θ < 1` times the unknowns of the previous one, an application costs at most a constant times the number of
unknowns, whatever the number of levels, and one coarse solve. -/
theorem C113_linear {H : Hierarchy V} {P : Parts V} (hH : MadeOf H P) (junk : ∀ l, ℕ → V l) (t : ℕ) (x b : VecName)
    (c : Costs) (p s : ℕ) (hp : ∀ j, c.product j j ≤ p * c.vector j)
    (hs : ∀ j, c.product j (j + 1) ≤ s * c.vector j) (hs' : ∀ j, c.product (j + 1) j ≤ s * c.vector j)
    (θ : ℚ) (hθ1 : θ < 1) (hN : ∀ j, (c.vector (j + 1) : ℚ) ≤ θ * c.vector j) :
    (1 - θ) * (c.ofProgram (vmultStmts P junk t x b) : ℚ)
      ≤ ((4 * H.nSmoothingSteps + 1) * p + 2 * s + 12 * H.nSmoothingSteps + 11) * c.vector 0
        + (1 - θ) * c.coarse (H.numLevels - 1) := by
  rw [C113_work_partial hH]
  obtain ⟨nu, hnu⟩ : ∃ nu, nu = H.nSmoothingSteps := ⟨_, rfl⟩
  obtain ⟨N, hNdef⟩ : ∃ N : ℕ → ℚ, N = fun j => (c.vector j : ℚ) := ⟨_, rfl⟩
  have hpos : ∀ j, 0 ≤ N j := fun j => by rw [hNdef]; positivity
  have hshrink : ∀ j, N (j + 1) ≤ θ * N j := fun j => by rw [hNdef]; exact hN j
  have hle : ∀ j, N (j + 1) ≤ N j := fun j => (hshrink j).trans (by nlinarith [hpos j])
  have hlev : ∀ j, (c.level nu j : ℚ) ≤ ((4 * nu + 1) * p + 2 * s + 12 * nu + 10) * N j := by
    intro j
    have h1 : (c.product j j : ℚ) ≤ p * N j := by subst hNdef; dsimp only; exact_mod_cast hp j
    have h2 : (c.product j (j + 1) : ℚ) ≤ s * N j := by subst hNdef; dsimp only; exact_mod_cast hs j
    have h3 : (c.product (j + 1) j : ℚ) ≤ s * N j := by subst hNdef; dsimp only; exact_mod_cast hs' j
    have h4 := hle j
    have h5 : (c.level nu j : ℚ) = (4 * nu + 1) * c.product j j + c.product j (j + 1) + c.product (j + 1) j
        + (12 * nu + 6) * N j + 4 * N (j + 1) := by
      rw [hNdef]
      simp [Costs.level]
    have h6 : (4 * (nu : ℚ) + 1) * c.product j j ≤ (4 * nu + 1) * (p * N j) :=
      mul_le_mul_of_nonneg_left h1 (by positivity)
    rw [h5]
    linarith
  have hzero : ∀ j, ((if j > 0 ∨ H.isPreconditioner then c.vector j else 0 : ℕ) : ℚ) ≤ N j := by
    intro j
    split
    · rw [hNdef]
    · simpa using hpos j
  have hs1 : ((∑ j ∈ range (H.numLevels - 1), c.level nu j : ℕ) : ℚ)
      ≤ ((4 * nu + 1) * p + 2 * s + 12 * nu + 10) * ∑ j ∈ range (H.numLevels - 1), N j := by
    rw [Nat.cast_sum, Finset.mul_sum]
    exact Finset.sum_le_sum fun j _ => hlev j
  have hs2 : ((∑ j ∈ range H.numLevels, (if j > 0 ∨ H.isPreconditioner then c.vector j else 0) : ℕ) : ℚ)
      ≤ ∑ j ∈ range H.numLevels, N j := by
    rw [Nat.cast_sum]
    exact Finset.sum_le_sum fun j _ => hzero j
  have hg1 := shrinking_sum hpos hshrink (H.numLevels - 1)
  have hg2 := shrinking_sum hpos hshrink H.numLevels
  have h1θ : 0 ≤ 1 - θ := by linarith
  rw [← hnu]
  have hN0 : (c.vector 0 : ℚ) = N 0 := by rw [hNdef]
  rw [hN0]
  push_cast at hs1 hs2 ⊢
  have hC : (0 : ℚ) ≤ (4 * nu + 1) * p + 2 * s + 12 * nu + 10 := by positivity
  have e1 := mul_le_mul_of_nonneg_left hs1 h1θ
  have e2 := mul_le_mul_of_nonneg_left hs2 h1θ
  have e3 := mul_le_mul_of_nonneg_left hg1 hC
  have e4 : (1 - θ) * (((4 * (nu : ℚ) + 1) * p + 2 * s + 12 * nu + 10) * ∑ j ∈ range (H.numLevels - 1), N j)
      = ((4 * (nu : ℚ) + 1) * p + 2 * s + 12 * nu + 10) * ((1 - θ) * ∑ j ∈ range (H.numLevels - 1), N j) := by ring
  rw [e4] at e1
  linarith

end application

section setup

variable {K : Type} [Field K] [LinearOrder K] [IsStrictOrderedRing K]

omit [IsStrictOrderedRing K] in
/-- The coarse level made by the set-up, on any number of processes: with at most `nEig` vectors per agglomerate and at
most `t` cells at a dof there are at most `nEig` unknowns for each agglomerate, at most as many agglomerates as cells,
at most `nEig * t` entries of the restriction at a dof, and at most `(nEig * t)²` entries of the coarse matrix for each
entry of the matrix. -/
theorem C113_setup (debug dynAdds matrixFree : Bool) (dim : ℕ) (ap : AggParams) (strat : Strategy)
    (hap : dispatch dim ap = .ok strat) (ep : EigParams) (name : String) (hep : Selects matrixFree ep name)
    (procs : List (ProcFem K)) (hs : ∀ q ∈ procs, q.share.Sound debug) (hq : ∀ q ∈ procs, q.Faithful name)
    (gdiag : ℕ → K) (nEig t : ℕ)
    (hEig : ∀ q ∈ procs, ∀ cells c, q.share.solver cells name [] = .ok c → c.eigenvectors.length ≤ nEig)
    (ht : ∀ x, cellsAt procs x ≤ t) (n : ℕ) :
    ∃ (us : List UserIndex) (a : Assembled K) (nAgg m : ℕ),
      setupRestrictor debug dynAdds matrixFree dim ap ep gdiag (procs.map fun q => (q.share, fun _ => 0)) = .ok (us, a) ∧
      (∀ p x, m ≤ p → a.R p x = 0) ∧ m ≤ nEig * nAgg ∧ nAgg ≤ totalCells procs ∧
      nonzeros (a.R.block m n) ≤ nEig * t * n ∧
      ∀ A : Matrix (Fin n) (Fin n) K, nonzeros (galerkin (a.R.block m n) A) ≤ (nEig * t) ^ 2 * nonzeros A := by
  obtain ⟨rs, h1, h2⟩ := setupShares_spec hap hep procs hs hq
  obtain ⟨a, h3, h4, h5⟩ := C20_rows debug dynAdds gdiag (rs.map Prod.snd) (setup_wf h2)
  have hres : List.Forall₂ (fun q r => q.Result name r.1 r.2) procs rs := h2.imp fun _ _ h => h.1
  obtain ⟨h6, h7⟩ := results_counts hres
  have hlen : ∀ c ∈ (rs.map Prod.snd).flatten, c.eigenvectors.length ≤ nEig := by
    clear h1 h3 h4 h5 h6 h7 h2 ht
    induction hres with
    | nil => simp
    | @cons q r procs rs h _ ih =>
      intro c hc
      rw [List.map_cons, List.flatten_cons, List.mem_append] at hc
      rcases hc with hc | hc
      · obtain ⟨k, hk, rfl⟩ := List.getElem_of_mem hc
        exact hEig q List.mem_cons_self _ _ (h.solved k _ (List.getElem?_eq_getElem hk))
      · exact ih (fun q h => hs q (List.mem_cons_of_mem _ h)) (fun q h => hq q (List.mem_cons_of_mem _ h))
          (fun q h => hEig q (List.mem_cons_of_mem _ h)) c hc
  have hcov : ∀ i, (rowsAt (a.R.block (rowsOf (rs.map Prod.snd).flatten).length n) i).card ≤ nEig * t := by
    intro i
    have hsub : rowsAt (a.R.block (rowsOf (rs.map Prod.snd).flatten).length n) i
        ⊆ univ.filter fun k : Fin (rowsOf (rs.map Prod.snd).flatten).length =>
          (fun cv : CopyData K × List K => decide (i.val ∈ cv.1.dofMap)) (rowsOf (rs.map Prod.snd).flatten)[k] = true := by
      intro k hk
      have hk' := (mem_filter.1 hk).2
      refine mem_filter.2 ⟨mem_univ _, ?_⟩
      by_contra hno
      apply hk'
      simp only [decide_eq_true_eq] at hno
      have := h4 k.val (rowsOf (rs.map Prod.snd).flatten)[k].1 (rowsOf (rs.map Prod.snd).flatten)[k].2
        (List.getElem?_eq_getElem k.isLt) i.val
      change a.R k.val i.val = 0
      rw [this, extend_not_mem hno, zero_div, zero_mul]
    refine (card_le_card hsub).trans ?_
    refine (le_of_eq (card_positions _ fun cv : CopyData K × List K => decide (i.val ∈ cv.1.dofMap))).trans ?_
    refine (rowsOf_countP _ hlen i.val).trans (Nat.mul_le_mul_left _ ((h7 i.val).trans (ht i.val)))
  refine ⟨rs.map Prod.fst, a, (rs.map Prod.snd).flatten.length, (rowsOf (rs.map Prod.snd).flatten).length, ?_, ?_, rowsOf_length _ hlen,
    h6, nonzeros_le hcov, nonzeros_galerkin hcov⟩
  · rw [List.map_map] at h3
    simp only [setupRestrictor, h1, Outcome.ok_bind]
    rw [show (rs.map fun r => collect r.2) = rs.map (collect ∘ Prod.snd) from rfl, h3]
    rfl
  · exact fun p x hp => h5 p hp x

end setup

/-- Expected: the reported complexities are the sums over the levels relative to the finest level.  Violated for every
hierarchy: these are at least one, reported is zero. -/
theorem C113_reported_violated {V : ℕ → Type} (H : Hierarchy V) (hpos : 0 < H.numLevels) (size entries : ℕ → ℕ)
    (hs : 0 < size 0) (he : 0 < entries 0) :
    H.gridComplexity ≠ relativeSum size H.numLevels ∧ H.operatorComplexity ≠ relativeSum entries H.numLevels := by
  have key : ∀ f : ℕ → ℕ, 0 < f 0 → (0 : ℚ) < relativeSum f H.numLevels := by
    intro f hf
    have hf' : (0 : ℚ) < f 0 := by exact_mod_cast hf
    refine div_pos (lt_of_lt_of_le hf' ?_) hf'
    exact Finset.single_le_sum (f := fun j => (f j : ℚ)) (fun j _ => by positivity) (mem_range.2 hpos)
  exact ⟨(key size hs).ne, (key entries he).ne⟩

/-- Two levels with two unknowns and one. -/
def exCosts : Costs where
  product := fun j k => 2 * (if max j k = 0 then 2 else if max j k = 1 then 1 else 0)
  vector := fun j => if j = 0 then 2 else if j = 1 then 1 else 0
  coarse := fun _ => 1

/-- The cost of the two-level example with one smoothing step, with and without preconditioning mode. -/
example : exCosts.ofProgram (vmultStmts (exParts true (some 0)) (fun _ _ => (11, 12)) 0 (.user 0) (.user 2)) = 68 ∧
    exCosts.ofProgram (vmultStmts (exParts false (some 0)) (fun _ _ => (11, 12)) 0 (.user 0) (.user 2)) = 66 := by
  constructor
  · rw [C113_work_partial (exParts_madeOf true true (some 0))]
    decide +kernel
  · rw [C113_work_partial (exParts_madeOf false true (some 0))]
    decide +kernel

/-- After twelve statements, wherever the vectors come from. -/
example (l : ℕ) := C113_memory (exParts_madeOf true true (some 0)) (fun _ _ => (11, 12)) 0 0 2 (by decide) exVectors (5, 7)
  (3, 1) rfl rfl (fun l k => by cases l <;> rfl) 12 l

example := C113_linear (exParts_madeOf true true (some 0)) (fun _ _ => (11, 12)) 0 (.user 0) (.user 2) exCosts 2 1
  (fun j => by simp [exCosts])
  (fun j => by
    rcases j with _ | _ | j
    · decide
    · decide
    · simp [exCosts])
  (fun j => by
    rcases j with _ | _ | j
    · decide
    · decide
    · simp [exCosts]) (1 / 2) (by norm_num)
  (fun j => by
    rcases j with _ | _ | j
    · norm_num [exCosts]
    · norm_num [exCosts]
    · simp [exCosts])

/-- Four cells in a row: two agglomerates, one vector each, at most two cells at a dof. -/
example (gdiag : ℕ → ℚ) :=
  C113_setup true false false 2 ⟨some "block", none, some 2, some 1, none⟩ (.block 2 1 1) (by decide +kernel)
    ⟨some "lanczos", false⟩ "lanczos" ⟨rfl, Or.inl rfl, by simp⟩ [rowFem lapMat 0]
    (by simpa using rowFem_sound lapMat 0) (by simpa using rowFem_faithful lapMat 0 lapMat_support) gdiag 1 2
    (by
      intro q hq cells c hc
      obtain rfl := List.mem_singleton.1 hq
      cases hc
      simp)
    (by
      intro x
      simp only [cellsAt, List.map_cons, List.map_nil, List.sum_cons, List.sum_nil, Nat.add_zero]
      refine (card_le_card (t := {x, x - 1}) ?_).trans card_le_two
      intro c hc
      have h := (mem_filter.1 hc).2
      simp only [rowFem, List.mem_cons, List.not_mem_nil, or_false] at h
      simp only [mem_insert, mem_singleton]
      omega) 5

example : (ofData exData 2 1 true true).gridComplexity ≠ relativeSum (fun j => if j = 0 then 2 else 1) 2 :=
  (C113_reported_violated (ofData exData 2 1 true true) (by decide) (fun j => if j = 0 then 2 else 1) (fun _ => 1)
    (by decide) (by decide)).1

end Mfmg
