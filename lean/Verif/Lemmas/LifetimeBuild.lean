import Verif.Lemmas.Lifetime
import Mathlib.Algebra.BigOperators.Intervals

/-!
# The objects of a new hierarchy keep the invariant of the reference counts
-/

set_option autoImplicit false

namespace Mfmg

/-- The object at an address of a list of objects. -/
def objAt (ns : List Obj) (i : ℕ) : Obj := ns.getD i {}

/-- Ownership within a list of objects. -/
def OwnsIn (ns : List Obj) : ℕ → ℕ → Prop :=
  Relation.ReflTransGen fun x y => y ∈ (objAt ns x).strong

theorem objAt_left {ns bs : List Obj} {i : ℕ} (h : i < ns.length) :
    objAt (ns ++ bs) i = objAt ns i := by
  simp [objAt, List.getD, List.getElem?_append_left h]

theorem objAt_right {ns bs : List Obj} {k : ℕ} :
    objAt (ns ++ bs) (ns.length + k) = objAt bs k := by
  simp [objAt, List.getD, List.getElem?_append_right]

theorem objAt_ge {ns : List Obj} {i : ℕ} (h : ns.length ≤ i) : objAt ns i = {} := by
  simp [objAt, List.getD, List.getElem?_eq_none h]

theorem OwnsIn.append {ns bs : List Obj} {o w : ℕ} (h : OwnsIn ns o w) : OwnsIn (ns ++ bs) o w := by
  induction h with
  | refl => exact .refl
  | @tail b c _ hb ih =>
    refine .tail ih ?_
    by_cases hlt : b < ns.length
    · rw [objAt_left hlt]; exact hb
    · rw [objAt_ge (by omega)] at hb; cases hb

/-- The objects from address `N` on form a part of a hierarchy under construction; those in `P`
still wait for their owner.  `ok`: what they may own from outside; `loc`: what they may refer to
outside; `ext`: what they use outside. -/
structure Part (N : ℕ) (ok loc ext : ℕ → Prop) (ns : List Obj) (P : List ℕ) : Prop where
  hN : N ≤ ns.length
  strong : ∀ i, N ≤ i → ∀ j ∈ (objAt ns i).strong, (N ≤ j ∧ j < i) ∨ ok j
  refs : ∀ i, N ≤ i → ∀ j ∈ (objAt ns i).refs, (N ≤ j ∧ j < i) ∨ loc j
  uses : ∀ i, N ≤ i → ∀ j ∈ (objAt ns i).uses, (N ≤ j ∧ j < i) ∨ ext j
  wat : ∀ i, N ≤ i → ∀ j ∈ (objAt ns i).watched, j ∈ (objAt ns i).refs
  notLocal : ∀ i, N ≤ i → (objAt ns i).isLocal = false
  noEval : ∀ i, N ≤ i → (objAt ns i).evaluator = none
  owned : ∀ i, N ≤ i → i < ns.length →
    i ∈ P ∨ ∃ S, N ≤ S ∧ S < ns.length ∧ i ∈ (objAt ns S).strong
  pending : ∀ j ∈ P, N ≤ j ∧ j < ns.length
  priv : ∀ i, N ≤ i → ∀ j ∈ (objAt ns i).refs, N ≤ j →
    i ∉ P ∧ ((ns.drop N).flatMap (·.strong)).count i ≤ 1
  kept : ∀ i, N ≤ i → ∀ j ∈ (objAt ns i).refs, N ≤ j →
    ∃ S o, N ≤ S ∧ S < ns.length ∧ [i, o].Sublist (objAt ns S).strong ∧ OwnsIn ns o j

variable {N : ℕ} {ok loc ext : ℕ → Prop} {ns : List Obj} {P : List ℕ}

theorem Part.congr (h : Part N ok loc ext ns P) {Q : List ℕ} (hQ : ∀ i, i ∈ Q ↔ i ∈ P) :
    Part N ok loc ext ns Q := by
  refine ⟨h.hN, h.strong, h.refs, h.uses, h.wat, h.notLocal, h.noEval, ?_, ?_, ?_, h.kept⟩
  · intro i h1 h2; rw [hQ]; exact h.owned i h1 h2
  · intro j hj; exact h.pending j ((hQ j).1 hj)
  · intro i h1 j h2 h3; rw [hQ]; exact h.priv i h1 j h2 h3

/-- Add a block of objects, the last of which is the only one to wait for its owner. -/
theorem Part.append (h : Part N ok loc ext ns P) (hok : ∀ j, ok j → j < N)
    (bs : List Obj) (Q : List ℕ)
    (hS : ∀ k < bs.length, ∀ j ∈ (objAt bs k).strong, (N ≤ j ∧ j < ns.length + k) ∨ ok j)
    (hR : ∀ k < bs.length, ∀ j ∈ (objAt bs k).refs, (N ≤ j ∧ j < ns.length + k) ∨ loc j)
    (hU : ∀ k < bs.length, ∀ j ∈ (objAt bs k).uses, (N ≤ j ∧ j < ns.length + k) ∨ ext j)
    (hW : ∀ k < bs.length, ∀ j ∈ (objAt bs k).watched, j ∈ (objAt bs k).refs)
    (hL : ∀ k < bs.length, (objAt bs k).isLocal = false ∧ (objAt bs k).evaluator = none)
    (hO : ∀ k, k + 1 < bs.length → ∃ k' < bs.length, ns.length + k ∈ (objAt bs k').strong)
    (hP : ∀ k < bs.length, ∀ j ∈ (objAt bs k).refs, N ≤ j → k + 1 < bs.length ∧
      (bs.flatMap (·.strong)).count (ns.length + k) ≤ 1 ∧
      ∃ k' o, k' < bs.length ∧ [ns.length + k, o].Sublist (objAt bs k').strong ∧
        OwnsIn (ns ++ bs) o j)
    (hold : ∀ k < bs.length, ∀ j ∈ (objAt bs k).strong, N ≤ j → j < ns.length →
      ∀ w ∈ (objAt ns j).refs, ¬ N ≤ w)
    (hQ₁ : ∀ i ∈ P, i ∈ Q ∨ ∃ k < bs.length, i ∈ (objAt bs k).strong)
    (hQ₂ : ∀ i, i + 1 = ns.length + bs.length → ns.length ≤ i → i ∈ Q)
    (hQ₃ : ∀ i ∈ Q, i ∈ P ∨ (i + 1 = ns.length + bs.length ∧ ns.length ≤ i)) :
    Part N ok loc ext (ns ++ bs) Q := by
  have hN := h.hN
  -- the objects of the sum are the old ones and the new ones
  have hcases : ∀ i, (i < ns.length ∧ objAt (ns ++ bs) i = objAt ns i) ∨
      (∃ k < bs.length, i = ns.length + k ∧ objAt (ns ++ bs) i = objAt bs k) ∨
      objAt (ns ++ bs) i = {} := by
    intro i
    by_cases h1 : i < ns.length
    · exact Or.inl ⟨h1, objAt_left h1⟩
    · by_cases h2 : i < ns.length + bs.length
      · refine Or.inr (Or.inl ⟨i - ns.length, by omega, by omega, ?_⟩)
        have : i = ns.length + (i - ns.length) := by omega
        rw [this, objAt_right]; congr 1; omega
      · exact Or.inr (Or.inr (objAt_ge (by simp; omega)))
  have hmem : ∀ b ∈ bs, ∃ k < bs.length, objAt bs k = b := by
    intro b hb
    obtain ⟨k, hk, rfl⟩ := List.getElem_of_mem hb
    exact ⟨k, hk, by simp [objAt, List.getD, hk]⟩
  have hdrop : (ns ++ bs).drop N = ns.drop N ++ bs := List.drop_append_of_le_length hN
  refine ⟨by simp; omega, ?_, ?_, ?_, ?_, ?_, ?_, ?_, ?_, ?_, ?_⟩
  · intro i hi j hj
    rcases hcases i with ⟨_, e⟩ | ⟨k, hk, rfl, e⟩ | e
    · rw [e] at hj; exact h.strong i hi j hj
    · rw [e] at hj; exact hS k hk j hj
    · rw [e] at hj; cases hj
  · intro i hi j hj
    rcases hcases i with ⟨_, e⟩ | ⟨k, hk, rfl, e⟩ | e
    · rw [e] at hj; exact h.refs i hi j hj
    · rw [e] at hj; exact hR k hk j hj
    · rw [e] at hj; cases hj
  · intro i hi j hj
    rcases hcases i with ⟨_, e⟩ | ⟨k, hk, rfl, e⟩ | e
    · rw [e] at hj; exact h.uses i hi j hj
    · rw [e] at hj; exact hU k hk j hj
    · rw [e] at hj; cases hj
  · intro i hi j hj
    rcases hcases i with ⟨_, e⟩ | ⟨k, hk, rfl, e⟩ | e
    · rw [e] at hj ⊢; exact h.wat i hi j hj
    · rw [e] at hj ⊢; exact hW k hk j hj
    · rw [e] at hj; cases hj
  · intro i hi
    rcases hcases i with ⟨_, e⟩ | ⟨k, hk, rfl, e⟩ | e
    · rw [e]; exact h.notLocal i hi
    · rw [e]; exact (hL k hk).1
    · rw [e]
  · intro i hi
    rcases hcases i with ⟨_, e⟩ | ⟨k, hk, rfl, e⟩ | e
    · rw [e]; exact h.noEval i hi
    · rw [e]; exact (hL k hk).2
    · rw [e]
  · intro i hi hlt
    rw [List.length_append] at hlt ⊢
    by_cases h1 : i < ns.length
    · rcases h.owned i hi h1 with hP' | ⟨S, hS1, hS2, hS3⟩
      · rcases hQ₁ i hP' with hq | ⟨k, hk, hk2⟩
        · exact Or.inl hq
        · refine Or.inr ⟨ns.length + k, by omega, by omega, ?_⟩
          rw [objAt_right]; exact hk2
      · refine Or.inr ⟨S, hS1, by omega, ?_⟩
        rw [objAt_left hS2]; exact hS3
    · by_cases h2 : i + 1 = ns.length + bs.length
      · exact Or.inl (hQ₂ i h2 (by omega))
      · obtain ⟨k', hk', hk2⟩ := hO (i - ns.length) (by omega)
        refine Or.inr ⟨ns.length + k', by omega, by omega, ?_⟩
        rw [objAt_right]
        rwa [show ns.length + (i - ns.length) = i by omega] at hk2
  · intro j hj
    rw [List.length_append]
    rcases hQ₃ j hj with h1 | h1
    · have := h.pending j h1; omega
    · omega
  · intro i hi j hj hNj
    rw [hdrop, List.flatMap_append, List.count_append]
    rcases hcases i with ⟨hlt, e⟩ | ⟨k, hk, rfl, e⟩ | e
    · rw [e] at hj
      have := h.priv i hi j hj hNj
      refine ⟨?_, ?_⟩
      · intro hq
        rcases hQ₃ i hq with h1 | h1
        · exact this.1 h1
        · omega
      · have h0 : (bs.flatMap (·.strong)).count i = 0 := by
          rw [List.count_eq_zero]
          intro hmemi
          obtain ⟨b, hb, hib⟩ := List.mem_flatMap.1 hmemi
          obtain ⟨k, hk, rfl⟩ := hmem b hb
          exact hold k hk i hib hi hlt j hj hNj
        omega
    · rw [e] at hj
      obtain ⟨h1, h2, _⟩ := hP k hk j hj hNj
      refine ⟨?_, ?_⟩
      · intro hq
        rcases hQ₃ _ hq with h3 | h3
        · have := (h.pending _ h3).2; omega
        · omega
      · have h0 : ((ns.drop N).flatMap (·.strong)).count (ns.length + k) = 0 := by
          rw [List.count_eq_zero]
          intro hmemi
          obtain ⟨b, hb, hib⟩ := List.mem_flatMap.1 hmemi
          obtain ⟨k', hk', rfl⟩ := List.getElem_of_mem hb
          rw [List.getElem_drop] at hib
          have hk'' : N + k' < ns.length := by simp at hk'; omega
          have e' : objAt ns (N + k') = ns[N + k'] := by simp [objAt, List.getD, hk'']
          rw [← e'] at hib
          rcases h.strong (N + k') (by omega) _ hib with h3 | h3
          · omega
          · have := hok _ h3; omega
        omega
    · rw [e] at hj; cases hj
  · intro i hi j hj hNj
    rcases hcases i with ⟨hlt, e⟩ | ⟨k, hk, rfl, e⟩ | e
    · rw [e] at hj
      obtain ⟨S, o, h1, h2, h3, h4⟩ := h.kept i hi j hj hNj
      exact ⟨S, o, h1, by simp; omega, by rw [objAt_left h2]; exact h3, h4.append⟩
    · rw [e] at hj
      obtain ⟨_, _, k', o, h1, h2, h3⟩ := hP k hk j hj hNj
      exact ⟨ns.length + k', o, by omega, by simp; omega, by rw [objAt_right]; exact h2, h3⟩
    · rw [e] at hj; cases hj

/-- Pending objects are not private. -/
theorem Part.pending_refs (h : Part N ok loc ext ns P) {i : ℕ} (hi : i ∈ P) :
    ∀ w ∈ (objAt ns i).refs, ¬ N ≤ w := fun w hw hN =>
  (h.priv i (h.pending i hi).1 w hw hN).1 hi

section Blocks

variable (hok : ∀ j, ok j → j < N) (hloc : ∀ j, loc j → j < N)
include hok hloc

theorem Part.addMatrix (h : Part N ok loc ext ns P) {hd : List ℕ}
    (hd₁ : ∀ j ∈ hd, loc j) (hd₂ : ∀ j ∈ hd, ext j) :
    Part N ok loc ext (Mfmg.addMatrix hd ns) (P ++ [(Mfmg.addMatrix hd ns).length - 1]) := by
  have hN := h.hN
  have hlen : (Mfmg.addMatrix hd ns).length = ns.length + 2 := by simp [Mfmg.addMatrix]
  rw [hlen]
  unfold Mfmg.addMatrix
  refine h.append hok _ _ ?_ ?_ ?_ ?_ ?_ ?_ ?_ ?_ ?_ ?_ ?_
  all_goals simp only [List.length_cons, List.length_nil]
  · rintro (_ | _ | k) hk j hj
    · simp [objAt] at hj
    · simp [objAt] at hj; subst hj; left; omega
    · omega
  · rintro (_ | _ | k) hk j hj
    · simp [objAt] at hj
    · simp [objAt] at hj; exact Or.inr (hd₁ j hj)
    · omega
  · rintro (_ | _ | k) hk j hj
    · simp [objAt] at hj
    · simp [objAt] at hj
      rcases hj with rfl | hj
      · left; omega
      · exact Or.inr (hd₂ j hj)
    · omega
  · rintro (_ | _ | k) hk j hj
    · simp [objAt] at hj
    · simp [objAt] at hj
    · omega
  · rintro (_ | _ | k) hk
    · simp [objAt]
    · simp [objAt]
    · omega
  · rintro (_ | k) hk
    · exact ⟨1, by omega, by simp [objAt]⟩
    · omega
  · rintro (_ | _ | k) hk j hj hNj
    · simp [objAt] at hj
    · simp [objAt] at hj; have := hloc j (hd₁ j hj); omega
    · omega
  · rintro (_ | _ | k) hk j hj hNj hlt
    · simp [objAt] at hj
    · simp [objAt] at hj; omega
    · omega
  · intro i hi; simp [hi]
  · intro i hi _; simp; omega
  · intro i hi
    simp at hi
    rcases hi with hi | hi
    · exact Or.inl hi
    · right; omega

omit hloc in
theorem Part.addHostPair (h : Part N ok loc ext ns P) {p op : ℕ} (hp : ok p) (hop : op ∈ P)
    (hst : op - 1 ∈ (objAt ns op).strong) (hst' : N ≤ op - 1) (us : List ℕ)
    (hus : ∀ j ∈ us, (N ≤ j ∧ j < ns.length + 1)) :
    Part N ok loc ext (ns ++ [{ refs := [op - 1], uses := [op - 1] },
        { strong := [ns.length, p, op], uses := us }]) (P ++ [ns.length + 1]) := by
  have hN := h.hN
  have hopl := (h.pending op hop).2
  have hpN := hok p hp
  refine h.append hok _ _ ?_ ?_ ?_ ?_ ?_ ?_ ?_ ?_ ?_ ?_ ?_
  all_goals simp only [List.length_cons, List.length_nil]
  · rintro (_ | _ | k) hk j hj
    · simp [objAt] at hj
    · simp [objAt] at hj
      rcases hj with rfl | rfl | rfl
      · left; omega
      · exact Or.inr hp
      · left; omega
    · omega
  · rintro (_ | _ | k) hk j hj
    · simp [objAt] at hj; subst hj; left; omega
    · simp [objAt] at hj
    · omega
  · rintro (_ | _ | k) hk j hj
    · simp [objAt] at hj; subst hj; left; omega
    · simp [objAt] at hj; have := hus j hj; left; omega
    · omega
  · rintro (_ | _ | k) hk j hj
    · simp [objAt] at hj
    · simp [objAt] at hj
    · omega
  · rintro (_ | _ | k) hk
    · simp [objAt]
    · simp [objAt]
    · omega
  · rintro (_ | k) hk
    · exact ⟨1, by omega, by simp [objAt]⟩
    · omega
  · rintro (_ | _ | k) hk j hj hNj
    · simp [objAt] at hj
      subst hj
      refine ⟨by omega, ?_, 1, op, by omega, ?_, ?_⟩
      · have h1 : p ≠ ns.length := by omega
        have h2 : op ≠ ns.length := by omega
        simp [h1, h2]
      · simp [objAt]
      · exact OwnsIn.append (.single hst)
    · simp [objAt] at hj
    · omega
  · rintro (_ | _ | k) hk j hj hNj hlt
    · simp [objAt] at hj
    · simp [objAt] at hj
      rcases hj with rfl | rfl | rfl
      · omega
      · omega
      · exact h.pending_refs hop
    · omega
  · intro i hi; simp [hi]
  · intro i hi _; simp; omega
  · intro i hi
    simp at hi
    rcases hi with hi | hi
    · exact Or.inl hi
    · right; omega

theorem Part.addDeviceOne (h : Part N ok loc ext ns P) {p op : ℕ} (hp : ok p) (hop : op ∈ P)
    {hd : List ℕ} (hd₁ : ∀ j ∈ hd, loc j) (us : List ℕ)
    (hus : ∀ j ∈ us, (N ≤ j ∧ j < ns.length) ∨ ext j) :
    Part N ok loc ext (ns ++ [{ strong := [p, op], refs := hd, uses := us }])
      (P ++ [ns.length]) := by
  have hN := h.hN
  have hopl := h.pending op hop
  have hpN := hok p hp
  refine h.append hok _ _ ?_ ?_ ?_ ?_ ?_ ?_ ?_ ?_ ?_ ?_ ?_
  all_goals simp only [List.length_cons, List.length_nil]
  · rintro (_ | k) hk j hj
    · simp [objAt] at hj
      rcases hj with rfl | rfl
      · exact Or.inr hp
      · left; omega
    · omega
  · rintro (_ | k) hk j hj
    · simp [objAt] at hj; exact Or.inr (hd₁ j hj)
    · omega
  · rintro (_ | k) hk j hj
    · simp [objAt] at hj; exact hus j hj
    · omega
  · rintro (_ | k) hk j hj
    · simp [objAt] at hj
    · omega
  · rintro (_ | k) hk
    · simp [objAt]
    · omega
  · intro k hk; omega
  · rintro (_ | k) hk j hj hNj
    · simp [objAt] at hj; have := hloc j (hd₁ j hj); omega
    · omega
  · rintro (_ | k) hk j hj hNj hlt
    · simp [objAt] at hj
      rcases hj with rfl | rfl
      · omega
      · exact h.pending_refs hop
    · omega
  · intro i hi; simp [hi]
  · intro i hi _; simp; omega
  · intro i hi
    simp at hi
    rcases hi with hi | hi
    · exact Or.inl hi
    · right; omega

omit hloc in
theorem Part.addMatrixFreeSmoother (h : Part N ok loc ext ns P) {p op : ℕ} (hp : ok p)
    (hop : op ∈ P) :
    Part N ok loc ext (Mfmg.addMatrixFreeSmoother p op ns) (P ++ [ns.length + 2]) := by
  have hN := h.hN
  have hopl := h.pending op hop
  have hpN := hok p hp
  unfold Mfmg.addMatrixFreeSmoother
  refine h.append hok _ _ ?_ ?_ ?_ ?_ ?_ ?_ ?_ ?_ ?_ ?_ ?_
  all_goals simp only [List.length_cons, List.length_nil]
  · rintro (_ | _ | _ | k) hk j hj
    · simp [objAt] at hj
    · simp [objAt] at hj; left; omega
    · simp [objAt] at hj
      rcases hj with rfl | rfl | rfl
      · left; omega
      · exact Or.inr hp
      · left; omega
    · omega
  · rintro (_ | _ | _ | k) hk j hj
    · simp [objAt] at hj
    · simp [objAt] at hj; left; omega
    · simp [objAt] at hj
    · omega
  · rintro (_ | _ | _ | k) hk j hj
    · simp [objAt] at hj
    · simp [objAt] at hj; left; omega
    · simp [objAt] at hj; left; omega
    · omega
  · rintro (_ | _ | _ | k) hk j hj
    · simp [objAt] at hj
    · simpa [objAt] using hj
    · simp [objAt] at hj
    · omega
  · rintro (_ | _ | _ | k) hk
    · simp [objAt]
    · simp [objAt]
    · simp [objAt]
    · omega
  · rintro (_ | _ | k) hk
    · exact ⟨1, by omega, by simp [objAt]⟩
    · exact ⟨2, by omega, by simp [objAt]⟩
    · omega
  · rintro (_ | _ | _ | k) hk j hj hNj
    · simp [objAt] at hj
    · simp [objAt] at hj
      subst hj
      refine ⟨by omega, ?_, 2, j, by omega, ?_, .refl⟩
      · have h1 : p ≠ ns.length + 1 := by omega
        have h2 : j ≠ ns.length + 1 := by omega
        simp [h1, h2]
      · simp [objAt]
    · simp [objAt] at hj
    · omega
  · rintro (_ | _ | _ | k) hk j hj hNj hlt
    · simp [objAt] at hj
    · simp [objAt] at hj; omega
    · simp [objAt] at hj
      rcases hj with rfl | rfl | rfl
      · omega
      · omega
      · exact h.pending_refs hop
    · omega
  · intro i hi; simp [hi]
  · intro i hi _; simp; omega
  · intro i hi
    simp at hi
    rcases hi with hi | hi
    · exact Or.inl hi
    · right; omega

/-- The loop over the levels. -/
theorem Part.addLevels (dev : Option ℕ) (amgx : Bool) {p : ℕ} (hp : ok p)
    (hd₁ : ∀ j ∈ dev.toList, loc j) (hd₂ : ∀ j ∈ dev.toList, ext j) :
    ∀ (r op : ℕ) (res : List ℕ) (ns : List Obj) (ms : List ℕ),
    Part N ok loc ext ns (ms ++ res ++ [op]) →
    op - 1 ∈ (objAt ns op).strong → N ≤ op - 1 →
    Part N ok loc ext (Mfmg.addLevels dev amgx p r op res ns ms).1
        (Mfmg.addLevels dev amgx p r op res ns ms).2 ∧
      ns <+: (Mfmg.addLevels dev amgx p r op res ns ms).1 ∧
      ∀ i ∈ ms ++ res ++ [op], i ∈ (Mfmg.addLevels dev amgx p r op res ns ms).2
  | 0, op, res, ns, ms, h, hst, hN => by
    have hopl := h.pending op (by simp)
    cases dev with
    | none =>
      simp only [Mfmg.addLevels]
      refine ⟨?_, ?_, ?_⟩
      · refine (h.addHostPair hok hp (by simp) hst hN [ns.length] (by
          intro j hj; simp at hj; subst hj; have := h.hN; omega)).congr ?_
        intro i; simp [addHostSolver]; tauto
      · exact List.prefix_append _ _
      · intro i hi; simp at hi ⊢; tauto
    | some k =>
      simp only [Mfmg.addLevels]
      refine ⟨?_, ?_, ?_⟩
      · refine (h.addDeviceOne hok hloc hp (by simp) (hd := [k]) (by simpa using hd₁)
          ((op - 1) :: (if amgx then [] else [k])) (by
            intro j hj
            rcases List.mem_cons.1 hj with rfl | hj
            · left; omega
            · right
              split_ifs at hj with ha
              · cases hj
              · exact hd₂ j (by simpa using hj))).congr ?_
        intro i; simp [addDeviceSolver]; tauto
      · exact List.prefix_append _ _
      · intro i hi; simp at hi ⊢; tauto
  | r + 1, op, res, ns, ms, h, hst, hN => by
    have hopl := h.pending op (by simp)
    have hns := h.hN
    -- the smoother
    obtain ⟨ns₁, hns₁⟩ : ∃ ns₁, ns₁ = (match dev with
      | none => addHostSmoother p op ns
      | some k => addDeviceSmoother [k] p op ns) := ⟨_, rfl⟩
    have h₁ : Part N ok loc ext ns₁ (ms ++ res ++ [op] ++ [ns₁.length - 1]) := by
      cases dev with
      | none =>
        simp only at hns₁
        subst hns₁
        refine (h.addHostPair hok hp (by simp) hst hN [op, ns.length] (by
          intro j hj; simp at hj; omega)).congr ?_
        intro i; simp [addHostSmoother]
      | some k =>
        simp only at hns₁
        subst hns₁
        refine (h.addDeviceOne hok hloc hp (by simp) (hd := [k]) (by simpa using hd₁)
          [op, k] (by
            intro j hj
            simp at hj
            rcases hj with rfl | rfl
            · left; omega
            · right; exact hd₂ j (by simp))).congr ?_
        intro i; simp [addDeviceSmoother]
    have hp₁ : ns <+: ns₁ := by
      cases dev <;> (simp only at hns₁; subst hns₁; exact List.prefix_append _ _)
    -- the restrictor and the operator of the next level
    have h₂ := h₁.addMatrix hok hloc hd₁ hd₂
    have h₃ := h₂.addMatrix hok hloc hd₁ hd₂
    have hrec := Part.addLevels dev amgx hp hd₁ hd₂ r
      ((Mfmg.addMatrix dev.toList (Mfmg.addMatrix dev.toList ns₁)).length - 1)
      [(Mfmg.addMatrix dev.toList ns₁).length - 1]
      (Mfmg.addMatrix dev.toList (Mfmg.addMatrix dev.toList ns₁))
      (ms ++ [ns₁.length - 1] ++ res ++ [op])
      (h₃.congr (by intro i; simp; tauto))
      (by
        have : (Mfmg.addMatrix dev.toList (Mfmg.addMatrix dev.toList ns₁)).length - 1 =
            (Mfmg.addMatrix dev.toList ns₁).length + 1 := by simp [Mfmg.addMatrix]
        rw [this]
        unfold Mfmg.addMatrix
        rw [objAt_right]
        simp [objAt])
      (by have := h₁.hN; simp [Mfmg.addMatrix]; omega)
    have heq : Mfmg.addLevels dev amgx p (r + 1) op res ns ms =
        Mfmg.addLevels dev amgx p r
      ((Mfmg.addMatrix dev.toList (Mfmg.addMatrix dev.toList ns₁)).length - 1)
      [(Mfmg.addMatrix dev.toList ns₁).length - 1]
      (Mfmg.addMatrix dev.toList (Mfmg.addMatrix dev.toList ns₁))
      (ms ++ [ns₁.length - 1] ++ res ++ [op]) := by
      subst hns₁
      cases dev <;> rfl
    rw [heq]
    refine ⟨hrec.1, ?_, ?_⟩
    · refine hp₁.trans (List.IsPrefix.trans ?_ hrec.2.1)
      unfold Mfmg.addMatrix
      simp only [List.append_assoc]
      exact List.prefix_append _ _
    · intro i hi
      refine hrec.2.2 i ?_
      simp at hi ⊢; tauto

/-- All levels. -/
theorem Part.buildLevels {kind : EvalKind} (amgx : Bool) {e p r : ℕ} {ns : List Obj}
    (hN : N = ns.length) (hp : ok p) (he : kind = .matrixFree → ok e)
    (hk : ∀ k, kind = .device k → loc k ∧ ext k) (hee : kind = .matrixFree → ext e) :
    Part N ok loc ext (Mfmg.buildLevels kind amgx e p r ns).1
        (Mfmg.buildLevels kind amgx e p r ns).2 ∧
      ns <+: (Mfmg.buildLevels kind amgx e p r ns).1 ∧
      ∃ op ∈ (Mfmg.buildLevels kind amgx e p r ns).2, ∀ k ∈ neededRoots kind e 2 amgx,
        k ∈ (objAt (Mfmg.buildLevels kind amgx e p r ns).1 op).uses := by
  have hpf : ∀ {a b : List Obj} {i : ℕ}, a <+: b → i < a.length → objAt b i = objAt a i := by
    rintro a _ i ⟨c, rfl⟩ hi
    exact objAt_left hi
  have h₀ : Part N ok loc ext ns [] := by
    have hz : ∀ i, N ≤ i → objAt ns i = {} := fun i hi => objAt_ge (by omega)
    refine ⟨by omega, ?_, ?_, ?_, ?_, ?_, ?_, ?_, ?_, ?_, ?_⟩
    · intro i hi j hj; rw [hz i hi] at hj; cases hj
    · intro i hi j hj; rw [hz i hi] at hj; cases hj
    · intro i hi j hj; rw [hz i hi] at hj; cases hj
    · intro i hi j hj; rw [hz i hi] at hj; cases hj
    · intro i hi; rw [hz i hi]
    · intro i hi; rw [hz i hi]
    · intro i hi h2; omega
    · intro j hj; cases hj
    · intro i hi j hj; rw [hz i hi] at hj; cases hj
    · intro i hi j hj; rw [hz i hi] at hj; cases hj
  cases kind with
  | matrixBased =>
    have h₁ := h₀.addMatrix hok hloc (hd := []) (by simp) (by simp)
    have := h₁.addLevels hok hloc none amgx hp (by simp) (by simp) r
      ((Mfmg.addMatrix [] ns).length - 1) [] (Mfmg.addMatrix [] ns) []
      (by
        rw [show (Mfmg.addMatrix [] ns).length - 1 = ns.length + 1 by simp [Mfmg.addMatrix]]
        unfold Mfmg.addMatrix
        rw [objAt_right]
        simp [objAt])
      (by simp [Mfmg.addMatrix]; omega)
    exact ⟨this.1, (List.prefix_append _ _).trans this.2.1, _, this.2.2 _ (by simp; rfl),
      by simp [neededRoots]⟩
  | device k =>
    obtain ⟨hk₁, hk₂⟩ := hk k rfl
    have h₁ := h₀.addMatrix hok hloc (hd := [k]) (by simpa using hk₁) (by simpa using hk₂)
    have := h₁.addLevels hok hloc (some k) amgx hp (by simpa using hk₁) (by simpa using hk₂) r
      ((Mfmg.addMatrix [k] ns).length - 1) [] (Mfmg.addMatrix [k] ns) []
      (by
        rw [show (Mfmg.addMatrix [k] ns).length - 1 = ns.length + 1 by simp [Mfmg.addMatrix]]
        unfold Mfmg.addMatrix
        rw [objAt_right]
        simp [objAt])
      (by simp [Mfmg.addMatrix]; omega)
    refine ⟨this.1, (List.prefix_append _ _).trans this.2.1, _, this.2.2 _ (by simp; rfl), ?_⟩
    intro j hj
    simp [neededRoots] at hj
    subst hj
    simp only [Mfmg.buildLevels]
    rw [hpf this.2.1 (by simp [Mfmg.addMatrix])]
    rw [show (Mfmg.addMatrix [j] ns).length - 1 = ns.length + 1 by simp [Mfmg.addMatrix]]
    unfold Mfmg.addMatrix
    rw [objAt_right]
    simp [objAt]
  | matrixFree =>
    have hop : Part N ok loc ext (ns ++ [{ strong := [e], uses := [e] }]) [ns.length] := by
      refine h₀.append hok _ _ ?_ ?_ ?_ ?_ ?_ ?_ ?_ ?_ ?_ ?_ ?_
      all_goals simp only [List.length_cons, List.length_nil]
      · rintro (_ | k) hk j hj
        · simp [objAt] at hj; subst hj; exact Or.inr (he rfl)
        · omega
      · rintro (_ | k) hk j hj
        · simp [objAt] at hj
        · omega
      · rintro (_ | k) hk j hj
        · simp [objAt] at hj; subst hj; exact Or.inr (hee rfl)
        · omega
      · rintro (_ | k) hk j hj
        · simp [objAt] at hj
        · omega
      · rintro (_ | k) hk
        · simp [objAt]
        · omega
      · intro k hk; omega
      · rintro (_ | k) hk j hj hNj
        · simp [objAt] at hj
        · omega
      · rintro (_ | k) hk j hj hNj hlt
        · simp [objAt] at hj; subst hj; have := hok j (he rfl); omega
        · omega
      · intro i hi; cases hi
      · intro i hi _; simp; omega
      · intro i hi; simp at hi; right; omega
    have h₁ := hop.addMatrixFreeSmoother hok hp (op := ns.length) (by simp)
    have h₂ := h₁.addMatrix hok hloc (hd := []) (by simp) (by simp)
    have h₃ := h₂.addMatrix hok hloc (hd := []) (by simp) (by simp)
    obtain ⟨ns₁, hns₁⟩ : ∃ x, x = Mfmg.addMatrixFreeSmoother p ns.length
      (ns ++ [{ strong := [e], uses := [e] }]) := ⟨_, rfl⟩
    have hl₁ : ns₁.length = ns.length + 4 := by rw [hns₁]; simp [Mfmg.addMatrixFreeSmoother]
    rw [← hns₁] at h₂ h₃
    have := Part.addLevels hok hloc none amgx hp (by simp) (by simp) (r - 1)
      ((Mfmg.addMatrix [] (Mfmg.addMatrix [] ns₁)).length - 1) [(Mfmg.addMatrix [] ns₁).length - 1]
      (Mfmg.addMatrix [] (Mfmg.addMatrix [] ns₁)) [ns₁.length - 1, ns.length]
      (h₃.congr (by intro i; simp [hl₁]; tauto))
      (by
        rw [show (Mfmg.addMatrix [] (Mfmg.addMatrix [] ns₁)).length - 1 =
          (Mfmg.addMatrix [] ns₁).length + 1 by simp [Mfmg.addMatrix]]
        unfold Mfmg.addMatrix
        rw [objAt_right]
        simp [objAt])
      (by simp [Mfmg.addMatrix]; omega)
    simp only [Mfmg.buildLevels]
    rw [← hns₁]
    refine ⟨this.1, List.IsPrefix.trans ?_ this.2.1, ns.length, this.2.2 _ (by simp), ?_⟩
    · rw [hns₁]
      simp only [Mfmg.addMatrix, Mfmg.addMatrixFreeSmoother, List.append_assoc]
      exact List.prefix_append _ _
    · intro j hj
      simp [neededRoots] at hj
      subst hj
      rw [hpf this.2.1 (by simp [Mfmg.addMatrix]; omega), hns₁]
      simp only [Mfmg.addMatrix, Mfmg.addMatrixFreeSmoother, List.append_assoc]
      rw [show ns.length = ns.length + 0 from rfl, objAt_right]
      simp [objAt]

end Blocks

/-- The hierarchy owns everything that waits for an owner. -/
theorem Part.hierarchy (hok : ∀ j, ok j → j < N) {ms : List ℕ} (h : Part N ok loc ext ns ms)
    (r : ℕ) {t : Option ℕ} (ht : ∀ j ∈ t.toList, ok j) (ht' : ∀ j ∈ t.toList, ext j) :
    Part N ok loc ext (ns ++ [hierarchyObj r ms t]) [ns.length] := by
  refine h.append hok _ _ ?_ ?_ ?_ ?_ ?_ ?_ ?_ ?_ ?_ ?_ ?_
  all_goals simp only [List.length_cons, List.length_nil]
  · rintro (_ | k) hk j hj
    · simp only [objAt, List.getD_cons_zero, hierarchyObj, List.mem_append] at hj
      rcases hj with hj | hj
      · left; have := h.pending j hj; omega
      · exact Or.inr (ht j hj)
    · omega
  · rintro (_ | k) hk j hj
    · simp [objAt, hierarchyObj] at hj
    · omega
  · rintro (_ | k) hk j hj
    · simp only [objAt, List.getD_cons_zero, hierarchyObj, List.mem_append] at hj
      rcases hj with hj | hj
      · exact Or.inr (ht' j hj)
      · left
        have : j ∈ ms := by
          split_ifs at hj
          · exact List.mem_of_mem_take hj
          · exact hj
        have := h.pending j this; omega
    · omega
  · rintro (_ | k) hk j hj
    · simp [objAt, hierarchyObj] at hj
    · omega
  · rintro (_ | k) hk
    · simp [objAt, hierarchyObj]
    · omega
  · intro k hk; omega
  · rintro (_ | k) hk j hj hNj
    · simp [objAt, hierarchyObj] at hj
    · omega
  · rintro (_ | k) hk j hj hNj hlt
    · simp only [objAt, List.getD_cons_zero, hierarchyObj, List.mem_append] at hj
      rcases hj with hj | hj
      · exact h.pending_refs hj
      · have := hok j (ht j hj); omega
    · omega
  · intro i hi
    refine Or.inr ⟨0, by omega, ?_⟩
    simp [objAt, hierarchyObj, hi]
  · intro i hi _; simp; omega
  · intro i hi; simp at hi; right; omega

end Mfmg
