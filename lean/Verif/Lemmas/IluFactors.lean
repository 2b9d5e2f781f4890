import Verif.Lemmas.IluOrder

/-!
# The triangular factors
-/

set_option autoImplicit false

namespace Mfmg

variable {K : Type} [Field K] {n : ℕ} {graph : Fin n → Fin n → Bool}

/-- The lower factor. -/
def lowerOf (l : List (Fin n)) (G : Matrix (Fin n) (Fin n) K) : Matrix (Fin n) (Fin n) K :=
  Matrix.of fun i j => if i = j then 1 else if Precedes l j i then G i j / G j j else 0

/-- The upper factor. -/
def upperOf (l : List (Fin n)) (G : Matrix (Fin n) (Fin n) K) : Matrix (Fin n) (Fin n) K :=
  Matrix.of fun i j => if i = j ∨ Precedes l i j then G i j else 0

theorem precedes_tail {k : Fin n} {rest : List (Fin n)} (hk : k ∉ rest) {i j : Fin n} (hi : i ∈ rest)
    (hj : j ∈ rest) : Precedes (k :: rest) i j ↔ Precedes rest i j := by
  refine ⟨fun h => ⟨hi, hj, ?_⟩, precedes_cons hk⟩
  have h1 : k ≠ i := fun e => hk (e ▸ hi)
  have h2 : k ≠ j := fun e => hk (e ▸ hj)
  have h3 := h.2.2
  rw [List.idxOf_cons_ne _ h1, List.idxOf_cons_ne _ h2] at h3
  omega

theorem not_precedes_head {k : Fin n} {rest : List (Fin n)} (i : Fin n) :
    ¬ Precedes (k :: rest) i k := by
  intro h
  have h3 := h.2.2
  rw [List.idxOf_cons_self] at h3
  omega

theorem factors_product (l : List (Fin n)) (hl : l.Nodup) (F : Matrix (Fin n) (Fin n) K)
    (h : NonzeroPivots graph l F) {i j : Fin n} (hi : i ∈ l) (hj : j ∈ l) :
    (l.map fun m => lowerOf l (iluFactor graph l F) i m * upperOf l (iluFactor graph l F) m j).sum
      = iluProd graph l F i j := by
  induction l generalizing F with
  | nil => simp at hi
  | cons k rest ih =>
    rw [List.nodup_cons] at hl
    obtain ⟨hk, h⟩ := h
    set G := iluFactor graph (k :: rest) F with hG
    have hG' : G = iluFactor graph rest (iluStep graph k rest F) := rfl
    have hcol : ∀ i, G i k = F i k := fun i => by
      rw [hG', iluFactor_col _ _ hl.1, iluStep_col _ _ _ hl.1]
    have hrow : ∀ j, G k j = F k j := fun j => by
      rw [hG', iluFactor_row _ _ hl.1, iluStep_row _ _ _ hl.1]
    have hne : ∀ m ∈ rest, k ≠ m := fun m hm e => hl.1 (e ▸ hm)
    have hU : ∀ j ∈ k :: rest, upperOf (k :: rest) G k j = F k j := by
      intro j hj
      rcases List.mem_cons.1 hj with rfl | hj
      · simp [upperOf, hrow]
      · simp [upperOf, hrow, precedes_head hl.1 hj]
    rw [List.map_cons, List.sum_cons, hU j hj]
    by_cases hik : i = k
    · subst hik
      rw [iluProd_row]
      have h1 : (rest.map fun m => lowerOf (i :: rest) G i m * upperOf (i :: rest) G m j).sum = 0 := by
        apply List.sum_eq_zero
        intro a ha
        obtain ⟨m, hm, rfl⟩ := List.mem_map.1 ha
        simp [lowerOf, hne m hm, not_precedes_head]
      rw [h1]
      simp [lowerOf]
    · have hi' := (List.mem_cons.1 hi).resolve_left hik
      have hL : lowerOf (k :: rest) G i k = F i k / F k k := by
        simp [lowerOf, hik, precedes_head hl.1 hi', hcol]
      rw [hL]
      by_cases hjk : j = k
      · subst hjk
        rw [iluProd_col]
        have h1 : (rest.map fun m => lowerOf (j :: rest) G i m * upperOf (j :: rest) G m j).sum = 0 := by
          apply List.sum_eq_zero
          intro a ha
          obtain ⟨m, hm, rfl⟩ := List.mem_map.1 ha
          simp [upperOf, (hne m hm).symm, not_precedes_head]
        rw [h1, add_zero, div_mul_cancel₀ _ hk]
      · have hj' := (List.mem_cons.1 hj).resolve_left hjk
        rw [iluProd_in F k rest hik hjk, ← ih hl.2 _ h hi' hj']
        congr 2
        apply List.map_congr_left
        intro m hm
        simp only [lowerOf, upperOf, Matrix.of_apply, precedes_tail hl.1 hm hi',
          precedes_tail hl.1 hm hj', hG']

/-- Within one process the order of all rows is the order of its rows. -/
theorem precedes_flatten {procs : List (List (Fin n))} (h : procs.flatten.Nodup) {i j : Fin n}
    (hs : sameProc procs i j = true) (hp : Precedes procs.flatten i j) :
    ∃ own ∈ procs, Precedes own i j := by
  obtain ⟨own, ho, hi, hj⟩ := sameProc_iff.1 hs
  refine ⟨own, ho, hi, hj, ?_⟩
  obtain ⟨p, q, e⟩ := List.append_of_mem ho
  have hp3 := hp.2.2
  rw [e, List.flatten_append, List.flatten_cons] at hp3 h
  have hd := (List.nodup_append.1 h).2.2
  have hi' : i ∉ p.flatten := fun hm => hd i hm i (by simp [hi]) rfl
  have hj' : j ∉ p.flatten := fun hm => hd j hm j (by simp [hj]) rfl
  rw [List.idxOf_append_of_notMem hi', List.idxOf_append_of_notMem hj', List.idxOf_append_of_mem hi,
    List.idxOf_append_of_mem hj] at hp3
  omega

/-- The factors of all processes. -/
theorem ilu_factors {procs : List (List (Fin n))} (h : ListsAll procs.flatten)
    (A : Matrix (Fin n) (Fin n) K) (hg : IsGraph graph A)
    (hp : NonzeroPivots (uncoupleGraph procs graph) procs.flatten (uncouple procs A)) :
    ∃ L U, IsIncompleteLU graph procs A L U ∧ L * U = iluMatrix graph procs A := by
  set G := iluFactor (uncoupleGraph procs graph) procs.flatten (uncouple procs A) with hG
  have hmul : lowerOf procs.flatten G * upperOf procs.flatten G = iluMatrix graph procs A := by
    ext i j
    rw [Matrix.mul_apply, ← sum_listsAll h,
      factors_product _ h.1 _ hp (h.2 i) (h.2 j), iluMatrix]
  have hzero : ∀ i j, G i j ≠ 0 → uncoupleGraph procs graph i j = true := by
    intro i j h0
    by_contra hf
    have hf := Bool.eq_false_iff.2 hf
    exact h0 (by rw [hG, iluFactor_off _ _ hf, uncouple_off hg i j hf])
  refine ⟨lowerOf procs.flatten G, upperOf procs.flatten G, ⟨?_, ?_, ?_, ?_⟩, hmul⟩
  · intro i
    simp [lowerOf]
  · intro i j hij h0
    simp only [lowerOf, Matrix.of_apply, hij, if_false] at h0
    split_ifs at h0 with hpre
    · have hz := hzero i j fun e => h0 (by rw [e, zero_div])
      rw [uncoupleGraph, Bool.and_eq_true] at hz
      exact ⟨hz.1, precedes_flatten h.1 (by rw [sameProc_symm]; exact hz.2) hpre⟩
    · exact absurd rfl h0
  · intro i j hij h0
    simp only [upperOf, Matrix.of_apply, hij, false_or] at h0
    split_ifs at h0 with hpre
    · have hz := hzero i j h0
      rw [uncoupleGraph, Bool.and_eq_true] at hz
      exact ⟨hz.1, precedes_flatten h.1 hz.2 hpre⟩
    · exact absurd rfl h0
  · intro own ho i hi j hj hgr
    obtain ⟨h1, h2⟩ := uncouple_own (graph := graph) ho A hi hj
    rw [hmul, iluMatrix, iluProd_graph _ _ (h.2 i) (h.2 j) (by rw [h2]; exact hgr), h1]

end Mfmg
