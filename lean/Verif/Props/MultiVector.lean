import Verif.Spec.MultiVector
import Mathlib.Data.List.Basic
import Mathlib.Data.List.Nodup
import Mathlib.Algebra.BigOperators.Ring.List
import Mathlib.Algebra.Field.Rat
import Mathlib.Data.Rat.Defs
import Mathlib.Algebra.Order.BigOperators.Group.List
import Mathlib.Analysis.Real.Sqrt
import Mathlib.Tactic.Ring
import Mathlib.Tactic.NormNum

/-!
# Multivectors (C41, C60)
-/

set_option autoImplicit false

namespace Mfmg

theorem forLoop_inv {S : Type} (f : ℕ → S → Outcome S) (Inv : ℕ → S → Prop) (n : ℕ)
    (hstep : ∀ i s, i < n → Inv i s → ∃ s', f i s = .ok s' ∧ Inv (i + 1) s') :
    ∀ (left i : ℕ) (s : S), i + left = n → Inv i s →
      ∃ s', forLoop f left i s = .ok s' ∧ Inv n s' := by
  intro left
  induction left with
  | zero => intro i s hi h; exact ⟨s, rfl, by rwa [show n = i by omega]⟩
  | succ left ih =>
    intro i s hi h
    obtain ⟨s', hs', h'⟩ := hstep i s (by omega) h
    obtain ⟨s'', hs'', h''⟩ := ih (i + 1) s' (by omega) h'
    exact ⟨s'', by rw [forLoop, hs', Outcome.ok_bind, hs''], h''⟩

section

variable {K : Type} [Field K]

omit [Field K] in
@[simp] theorem Heap.write_next (h : Heap K) (a : ℕ) (v : List K) : (h.write a v).next = h.next := rfl

omit [Field K] in
theorem Heap.write_same (h : Heap K) (a : ℕ) (v : List K) : (h.write a v).mem a = v := by
  simp [Heap.write]

omit [Field K] in
theorem Heap.write_other (h : Heap K) (a b : ℕ) (v : List K) (hb : b ≠ a) :
    (h.write a v).mem b = h.mem b := by
  simp [Heap.write, hb]

theorem getElem_entry (h : Heap K) (mv : MV) (i p : ℕ) (hi : i < mv.length) :
    h.entry mv i p = (h.mem mv[i]).getD p 0 := by
  unfold Heap.entry
  have : mv.getD i 0 = mv[i] := by
    rw [List.getD_eq_getElem?_getD, List.getElem?_eq_getElem hi, Option.getD_some]
  rw [this]

theorem nodup_getElem_ne {α : Type} (l : List α) (hl : l.Nodup) (i j : ℕ) (hi : i < l.length)
    (hj : j < l.length) (hij : i ≠ j) : l[i] ≠ l[j] := by
  intro h
  exact hij ((List.Nodup.getElem_inj_iff hl).1 h)

/-! ## Loops that change vector `i` in iteration `i` -/

omit [Field K] in
/-- A loop that in iteration `i` replaces vector `i` of `mv` by `g i`, which is computed from the
current heap but comes out the same as from the first heap. -/
theorem forLoop_writes (mv : MV) (hmv : mv.Nodup) (m : ℕ) (hm : m ≤ mv.length) (h₀ : Heap K)
    (f : ℕ → Heap K → Outcome (Heap K)) (g : ℕ → List K)
    (hf : ∀ (i : ℕ) (hi : i < mv.length) (h : Heap K), i < m → h.next = h₀.next →
      (∀ a, (∀ (j : ℕ) (hj : j < mv.length), j < i → a ≠ mv[j]) → h.mem a = h₀.mem a) →
      ∃ h', f i h = .ok h' ∧ h'.next = h.next ∧ h'.mem mv[i] = g i ∧
        ∀ a, a ≠ mv[i] → h'.mem a = h.mem a) :
    ∃ h', forLoop f m 0 h₀ = .ok h' ∧ OnlyChanges h₀ h' mv ∧
      (∀ (i : ℕ) (hi : i < mv.length), i < m → h'.mem mv[i] = g i) ∧
      ∀ (i : ℕ) (hi : i < mv.length), m ≤ i → h'.mem mv[i] = h₀.mem mv[i] := by
  obtain ⟨h', hok, hn, hw, hk⟩ := forLoop_inv f (fun i h => h.next = h₀.next ∧
      (∀ (j : ℕ) (hj : j < mv.length), j < i → h.mem mv[j] = g j) ∧
      (∀ a, (∀ (j : ℕ) (hj : j < mv.length), j < i → a ≠ mv[j]) → h.mem a = h₀.mem a)) m
    (by
      rintro i h hi ⟨h1, h2, h3⟩
      obtain ⟨h', e1, e2, e3, e4⟩ := hf i (by omega) h hi h1 h3
      refine ⟨h', e1, e2.trans h1, ?_, ?_⟩
      · intro j hj hji
        by_cases hjj : j = i
        · subst hjj; exact e3
        · rw [e4 _ (nodup_getElem_ne mv hmv j i hj (by omega) hjj)]
          exact h2 j hj (by omega)
      · intro a ha
        rw [e4 a (ha i (by omega) (by omega))]
        exact h3 a (fun j hj hji => ha j hj (by omega)))
    m 0 h₀ (by omega) ⟨rfl, fun j hj hji => absurd hji (by omega), fun _ _ => rfl⟩
  refine ⟨h', hok, ⟨hn, ?_⟩, ?_, ?_⟩
  · intro a ha
    apply hk
    intro j hj _ haj
    exact ha (haj ▸ List.getElem_mem hj)
  · intro i hi him; exact hw i hi him
  · intro i hi him
    apply hk
    intro j hj hjm
    exact nodup_getElem_ne mv hmv i j hi hj (by omega)

theorem get_ok {α : Type} (l : List α) (i : ℕ) (why : String) (hi : i < l.length) :
    Outcome.get l i why = .ok l[i] := by
  simp [Outcome.get, List.getElem?_eq_getElem hi]

omit [Field K] in
theorem mvSize_uniform (h : Heap K) (mv : MV) (n : ℕ) (hu : h.Uniform mv n) (hne : mv ≠ []) :
    mvSize h mv = n := by
  cases mv with
  | nil => exact absurd rfl hne
  | cons a l => exact hu a (by simp)

theorem assert_ok (debug cond : Bool) (h : cond = true) : Outcome.assert debug cond = .ok () := by
  subst h; simp [Outcome.assert]

/-! ## C41 -/

/-- **C41**, `MvAddMv`: if the vectors of the output are distinct, and none of them is a vector of `B`
or, at another position, of `A`, the output becomes `alpha A + beta B` and nothing else changes.  The
output may be `A` itself. -/
theorem C41_add (debug : Bool) (alpha beta : K) (A B mv : MV) (h : Heap K) (n : ℕ)
    (hA : h.Uniform A n) (hB : h.Uniform B n) (hmvu : h.Uniform mv n)
    (hAB : A.length = B.length) (hmvl : mv.length = B.length) (hmv : mv.Nodup)
    (hmvB : Apart mv B)
    (hmvA : ∀ (i j : ℕ) (hi : i < mv.length) (hj : j < A.length), mv[i] = A[j] → i = j) :
    ∃ h', mvAddMv debug alpha A beta B mv h = .ok h' ∧ OnlyChanges h h' mv ∧ h'.Uniform mv n ∧
      ∀ i p, i < mv.length → p < n →
        h'.entry mv i p = alpha * h.entry A i p + beta * h.entry B i p := by
  unfold mvAddMv
  have hs : ∀ X Y : MV, h.Uniform X n → h.Uniform Y n → X.length = Y.length →
      mvSize h X = mvSize h Y := by
    intro X Y hX hY hXY
    cases X with
    | nil => cases Y with
      | nil => rfl
      | cons _ _ => simp at hXY
    | cons a l => cases Y with
      | nil => simp at hXY
      | cons b l' => exact (hX a (by simp)).trans (hY b (by simp)).symm
  rw [assert_ok _ _ (by simp [hs A B hA hB hAB]), Outcome.ok_bind, assert_ok _ _ (by simp [hAB]),
    Outcome.ok_bind, assert_ok _ _ (by simp [hmvl]), Outcome.ok_bind,
    assert_ok _ _ (by simp [hs mv B hmvu hB hmvl]), Outcome.ok_bind]
  obtain ⟨h', hok, hoc, hg, _⟩ := forLoop_writes mv hmv A.length (by omega) h
    (fun i (h : Heap K) => do
      let dst ← Outcome.get mv i "mv[i]"
      let a ← Outcome.get A i "A[i]"
      let b ← Outcome.get B i "B[i]"
      let h := h.write dst (h.mem a)
      let v ← saddVec alpha beta (h.mem dst) (h.mem b)
      .ok (h.write dst v))
    (fun i => List.zipWith (fun x y => alpha * x + beta * y) (h.mem (A.getD i 0))
      (h.mem (B.getD i 0)))
    (by
      intro i hi h1 him hn hold
      have hiA : i < A.length := him
      have hiB : i < B.length := by omega
      rw [get_ok mv i _ hi, get_ok A i _ hiA, get_ok B i _ hiB]
      simp only [Outcome.ok_bind]
      have ha : h1.mem A[i] = h.mem A[i] := by
        apply hold
        intro j hj hji hEq
        have := hmvA j i hj hiA hEq.symm
        omega
      have hb : h1.mem B[i] = h.mem B[i] := by
        apply hold
        intro j hj hji hEq
        exact hmvB _ (List.getElem_mem hj) (hEq ▸ List.getElem_mem hiB)
      have hne : B[i] ≠ mv[i] := by
        intro hEq
        exact hmvB _ (List.getElem_mem hi) (hEq ▸ List.getElem_mem hiB)
      rw [Heap.write_same, Heap.write_other _ _ _ _ hne, ha, hb]
      unfold saddVec
      rw [if_pos (by rw [hA _ (List.getElem_mem hiA), hB _ (List.getElem_mem hiB)]), Outcome.ok_bind]
      refine ⟨_, rfl, rfl, ?_, ?_⟩
      · rw [Heap.write_same]
        simp [List.getElem?_eq_getElem hiA, List.getElem?_eq_getElem hiB]
      · intro a ha'
        rw [Heap.write_other _ _ _ _ ha', Heap.write_other _ _ _ _ ha'])
  refine ⟨h', hok, hoc, ?_, ?_⟩
  · intro a ha
    obtain ⟨i, hi, rfl⟩ := List.getElem_of_mem ha
    rw [hg i hi (by omega)]
    have hiA : i < A.length := by omega
    have hiB : i < B.length := by omega
    simp [List.getElem?_eq_getElem hiA, List.getElem?_eq_getElem hiB,
      hA _ (List.getElem_mem hiA), hB _ (List.getElem_mem hiB)]
  · intro i p hi hp
    have hiA : i < A.length := by omega
    have hiB : i < B.length := by omega
    rw [getElem_entry _ _ _ _ hi, getElem_entry _ _ _ _ hiA, getElem_entry _ _ _ _ hiB,
      hg i hi hiA]
    have h1 := hA _ (List.getElem_mem hiA)
    have h2 := hB _ (List.getElem_mem hiB)
    simp [List.getElem?_eq_getElem hiA, List.getElem?_eq_getElem hiB, h1, h2, hp]

/-- **C41 is violated** when the output is the second operand: the result is `(alpha + beta) A`, for
all coefficients, sizes and numbers of vectors. -/
theorem C41_add_violated (debug : Bool) (alpha beta : K) (A B : MV) (h : Heap K) (n : ℕ)
    (hA : h.Uniform A n) (hB : h.Uniform B n) (hAB : A.length = B.length) (hnd : B.Nodup)
    (hap : Apart B A) :
    ∃ h', mvAddMv debug alpha A beta B B h = .ok h' ∧
      ∀ i p, i < B.length → p < n → h'.entry B i p = (alpha + beta) * h.entry A i p := by
  unfold mvAddMv
  have hs : mvSize h A = mvSize h B := by
    cases A with
    | nil => cases B with
      | nil => rfl
      | cons _ _ => simp at hAB
    | cons a l => cases B with
      | nil => simp at hAB
      | cons b l' => exact (hA a (by simp)).trans (hB b (by simp)).symm
  rw [assert_ok _ _ (by simp [hs]), Outcome.ok_bind, assert_ok _ _ (by simp [hAB]),
    Outcome.ok_bind, assert_ok _ _ (by simp), Outcome.ok_bind,
    assert_ok _ _ (by simp), Outcome.ok_bind]
  obtain ⟨h', hok, hoc, hg, _⟩ := forLoop_writes B hnd A.length (by omega) h
    (fun i (h : Heap K) => do
      let dst ← Outcome.get B i "mv[i]"
      let a ← Outcome.get A i "A[i]"
      let b ← Outcome.get B i "B[i]"
      let h := h.write dst (h.mem a)
      let v ← saddVec alpha beta (h.mem dst) (h.mem b)
      .ok (h.write dst v))
    (fun i => (h.mem (A.getD i 0)).map (fun x => (alpha + beta) * x))
    (by
      intro i hi h1 him hn hold
      have hiA : i < A.length := him
      rw [get_ok B i _ hi, get_ok A i _ hiA, get_ok B i _ hi]
      simp only [Outcome.ok_bind]
      have ha : h1.mem A[i] = h.mem A[i] := by
        apply hold
        intro j hj hji hEq
        exact hap _ (List.getElem_mem hj) (hEq ▸ List.getElem_mem hiA)
      rw [Heap.write_same, ha]
      unfold saddVec
      rw [if_pos rfl, Outcome.ok_bind]
      refine ⟨_, rfl, rfl, ?_, ?_⟩
      · rw [Heap.write_same]
        simp only [List.getD_eq_getElem?_getD, List.getElem?_eq_getElem hiA, Option.getD_some]
        rw [List.zipWith_self]
        apply List.map_congr_left
        intro x _
        ring
      · intro a ha'
        rw [Heap.write_other _ _ _ _ ha', Heap.write_other _ _ _ _ ha'])
  refine ⟨h', hok, ?_⟩
  intro i p hi hp
  have hiA : i < A.length := by omega
  rw [getElem_entry _ _ _ _ hi, getElem_entry _ _ _ _ hiA, hg i hi hiA]
  have h1 := hA _ (List.getElem_mem hiA)
  simp [List.getElem?_eq_getElem hiA, h1, hp]

/-- The inner loop of `MvTimesMatAddMv`. -/
theorem timesInner_loop (alpha : K) (A : MV) (B : ℕ → ℕ → K) (dst j n : ℕ) (hdst : dst ∉ A)
    (h : Heap K) (hA : h.Uniform A n) (hd : (h.mem dst).length = n) :
    ∃ h', forLoop (timesInner alpha A B dst j) A.length 0 h = .ok h' ∧ h'.next = h.next ∧
      (∀ a, a ≠ dst → h'.mem a = h.mem a) ∧ (h'.mem dst).length = n ∧
      ∀ p, p < n → (h'.mem dst).getD p 0 = (h.mem dst).getD p 0
        + alpha * ((List.range A.length).map (fun k => B k j * h.entry A k p)).sum := by
  obtain ⟨h', hok, h1, h2, h3, h4⟩ := forLoop_inv (timesInner alpha A B dst j)
    (fun m (h' : Heap K) => h'.next = h.next ∧ (∀ a, a ≠ dst → h'.mem a = h.mem a) ∧
      (h'.mem dst).length = n ∧ ∀ p, p < n → (h'.mem dst).getD p 0 = (h.mem dst).getD p 0
        + alpha * ((List.range m).map (fun k => B k j * h.entry A k p)).sum) A.length
    (by
      rintro k h1 hk ⟨e1, e2, e3, e4⟩
      have hne : A[k] ≠ dst := fun hEq => hdst (hEq ▸ List.getElem_mem hk)
      have hlen := hA _ (List.getElem_mem hk)
      unfold timesInner addVec
      rw [get_ok A k _ hk, Outcome.ok_bind, e2 _ hne, if_pos (by rw [e3, hlen]), Outcome.ok_bind]
      refine ⟨_, rfl, e1, ?_, ?_, ?_⟩
      · intro a ha; rw [Heap.write_other _ _ _ _ ha, e2 a ha]
      · rw [Heap.write_same]; simp [e3, hlen]
      · intro p hp
        have e4p := e4 p hp
        rw [Heap.write_same, List.range_succ, List.map_append, List.sum_append]
        simp only [List.map_cons, List.map_nil, List.sum_cons, List.sum_nil, add_zero]
        rw [mul_add, ← add_assoc, ← e4p, getElem_entry _ _ _ _ hk]
        have q1 : p < (h1.mem dst).length := by omega
        have q2 : p < (h.mem A[k]).length := by omega
        simp only [List.getD_eq_getElem?_getD, List.getElem?_zipWith, List.getElem?_eq_getElem q1,
          List.getElem?_eq_getElem q2, Option.getD_some]
        ring)
    A.length 0 h (by omega) ⟨rfl, fun _ _ => rfl, hd, fun p _ => by simp⟩
  exact ⟨h', hok, h1, h2, h3, h4⟩

/-- **C41**, `MvTimesMatAddMv`: if the vectors of the output are distinct and none is one of `A`, the
output becomes `alpha A B + beta mv` and nothing else changes. -/
theorem C41_times (debug : Bool) (alpha beta : K) (A mv : MV) (B : ℕ → ℕ → K) (h : Heap K) (n : ℕ)
    (hA : h.Uniform A n) (hmvu : h.Uniform mv n) (hne : A ≠ [] ∧ mv ≠ []) (hmv : mv.Nodup)
    (hap : Apart mv A) :
    ∃ h', mvTimesMatAddMv debug alpha A A.length mv.length B beta mv h = .ok h' ∧
      OnlyChanges h h' mv ∧ h'.Uniform mv n ∧
      ∀ j p, j < mv.length → p < n → h'.entry mv j p = beta * h.entry mv j p
        + alpha * ((List.range A.length).map (fun k => h.entry A k p * B k j)).sum := by
  unfold mvTimesMatAddMv
  rw [assert_ok _ _ (by simp), Outcome.ok_bind, assert_ok _ _ (by simp),
    Outcome.ok_bind, assert_ok _ _ (by
      simp [mvSize_uniform h mv n hmvu hne.2, mvSize_uniform h A n hA hne.1]), Outcome.ok_bind]
  obtain ⟨h', hok, hoc, hg, _⟩ := forLoop_writes mv hmv mv.length (le_refl _) h
    (fun j (h : Heap K) => do
      let dst ← Outcome.get mv j "mv[j]"
      forLoop (timesInner alpha A B dst j) A.length 0 (h.write dst (scaleVec beta (h.mem dst))))
    (fun j => (List.range n).map (fun p => beta * h.entry mv j p
      + alpha * ((List.range A.length).map (fun k => h.entry A k p * B k j)).sum))
    (by
      intro j hj h1 him hn hold
      rw [get_ok mv j _ hj, Outcome.ok_bind]
      have hd : h1.mem mv[j] = h.mem mv[j] := hold _ (fun i hi hij =>
        nodup_getElem_ne mv hmv j i hj hi (by omega))
      have hdA : mv[j] ∉ A := hap _ (List.getElem_mem hj)
      have hAk : ∀ a ∈ A, h1.mem a = h.mem a := fun a ha => hold _ (fun i hi _ hEq =>
        hap _ (List.getElem_mem hi) (hEq ▸ ha))
      have hlen := hmvu _ (List.getElem_mem hj)
      have hwA : ∀ a ∈ A, (h1.write mv[j] (scaleVec beta (h1.mem mv[j]))).mem a = h.mem a := by
        intro a ha
        have hne' : a ≠ mv[j] := by rintro rfl; exact hdA ha
        rw [Heap.write_other _ _ _ _ hne', hAk a ha]
      obtain ⟨h', hok, e1, e2, e3, e4⟩ := timesInner_loop alpha A B mv[j] j n hdA
        (h1.write mv[j] (scaleVec beta (h1.mem mv[j])))
        (fun a ha => by rw [hwA a ha, hA a ha])
        (by rw [Heap.write_same, hd]; simp [scaleVec, hlen])
      refine ⟨h', hok, e1, ?_, ?_⟩
      · apply List.ext_getElem
        · simp [e3]
        · intro p hp1 hp2
          have hp : p < n := by omega
          have := e4 p hp
          rw [List.getD_eq_getElem?_getD, List.getElem?_eq_getElem hp1, Option.getD_some] at this
          rw [this, List.getElem_map, List.getElem_range, Heap.write_same, hd]
          congr 1
          · rw [getElem_entry _ _ _ _ hj]
            have : p < (h.mem mv[j]).length := by omega
            simp [scaleVec, List.getElem?_eq_getElem this]
          · congr 2
            apply List.map_congr_left
            intro k hk
            have hk := List.mem_range.1 hk
            rw [getElem_entry _ _ _ _ hk, getElem_entry _ _ _ _ hk, 
              ← hd, hwA _ (List.getElem_mem hk), mul_comm]
      · intro a ha
        rw [e2 a ha, Heap.write_other _ _ _ _ ha])
  refine ⟨h', hok, hoc, ?_, ?_⟩
  · intro a ha
    obtain ⟨i, hi, rfl⟩ := List.getElem_of_mem ha
    rw [hg i hi hi]
    simp
  · intro j p hj hp
    rw [getElem_entry _ _ _ _ hj, hg j hj hj]
    simp [hp]

/-- **C41**, `MvScale`: each vector of a multivector without repetitions is multiplied by its
factor. -/
theorem C41_scale (mv : MV) (alpha : List K) (h : Heap K) (hmv : mv.Nodup)
    (hal : alpha.length = mv.length) :
    ∃ h', mvScale mv alpha h = .ok h' ∧ OnlyChanges h h' mv ∧
      ∀ i p, i < mv.length → h'.entry mv i p = alpha.getD i 0 * h.entry mv i p := by
  unfold mvScale
  obtain ⟨h', hok, hoc, hg, _⟩ := forLoop_writes mv hmv mv.length (le_refl _) h
    (fun i (h : Heap K) => do
      let dst ← Outcome.get mv i "mv[i]"
      let a ← Outcome.get alpha i "alpha[i]"
      .ok (h.write dst (scaleVec a (h.mem dst))))
    (fun i => (h.mem (mv.getD i 0)).map (fun x => alpha.getD i 0 * x))
    (by
      intro i hi h1 him hn hold
      have hia : i < alpha.length := by omega
      rw [get_ok mv i _ hi, get_ok alpha i _ hia]
      simp only [Outcome.ok_bind]
      refine ⟨_, rfl, rfl, ?_, fun a ha => Heap.write_other _ _ _ _ ha⟩
      rw [Heap.write_same, hold mv[i] (fun j hj hji =>
        nodup_getElem_ne mv hmv i j hi hj (by omega))]
      simp [scaleVec, List.getElem?_eq_getElem hi, List.getElem?_eq_getElem hia])
  refine ⟨h', hok, hoc, ?_⟩
  intro i p hi
  rw [getElem_entry _ _ _ _ hi, getElem_entry _ _ _ _ hi, hg i hi hi]
  simp only [List.getD_eq_getElem?_getD, List.getElem?_eq_getElem hi, Option.getD_some,
    List.getElem?_map]
  cases (h.mem mv[i])[p]? <;> simp

/-- **C41**, `MvInit`: all components become `alpha`, the sizes stay. -/
theorem C41_init (mv : MV) (alpha : K) (h : Heap K) (hmv : mv.Nodup) (n : ℕ) (hu : h.Uniform mv n) :
    ∃ h', mvInit mv alpha h = .ok h' ∧ OnlyChanges h h' mv ∧ h'.Uniform mv n ∧
      ∀ i p, i < mv.length → p < n → h'.entry mv i p = alpha := by
  unfold mvInit
  obtain ⟨h', hok, hoc, hg, _⟩ := forLoop_writes mv hmv mv.length (le_refl _) h
    (fun i (h : Heap K) => do
      let dst ← Outcome.get mv i "mv[i]"
      .ok (h.write dst ((h.mem dst).map (fun _ => alpha))))
    (fun _ => List.replicate n alpha)
    (by
      intro i hi h1 him hn hold
      rw [get_ok mv i _ hi]
      simp only [Outcome.ok_bind]
      refine ⟨_, rfl, rfl, ?_, fun a ha => Heap.write_other _ _ _ _ ha⟩
      rw [Heap.write_same, hold mv[i] (fun j hj hji =>
        nodup_getElem_ne mv hmv i j hi hj (by omega)), List.map_const', hu _ (List.getElem_mem hi)])
  refine ⟨h', hok, hoc, ?_, ?_⟩
  · intro a ha
    obtain ⟨i, hi, rfl⟩ := List.getElem_of_mem ha
    rw [hg i hi hi]
    simp
  · intro i p hi hp
    rw [getElem_entry _ _ _ _ hi, hg i hi hi]
    simp [hp]

/-- **C41**, `CloneView`: the view shares the vectors; it exists if and only if all indices are in
range. -/
theorem C41_view (mv : MV) (index : List ℕ) :
    (∀ view, cloneView mv index = .ok view ↔
      view.length = index.length ∧
        ∀ i k : ℕ, index[i]? = some k → ∃ a : ℕ, mv[k]? = some a ∧ view[i]? = some a) ∧
    ((∃ k ∈ index, mv.length ≤ k) → ∃ w, cloneView mv index = .ub w) := by
  constructor
  · induction index with
    | nil =>
      intro view
      simp only [cloneView, List.foldr_nil, Outcome.ok.injEq]
      constructor
      · rintro rfl; simp
      · rintro ⟨h, _⟩; exact (List.length_eq_zero_iff.1 h).symm
    | cons k index ih =>
      intro view
      have hfold : cloneView mv (k :: index) = (do
          let a ← Outcome.get mv k "mv[index[i]]"
          let as ← cloneView mv index
          .ok (a :: as)) := rfl
      rw [hfold, Outcome.bind_eq_ok]
      constructor
      · rintro ⟨a, ha, h⟩
        rw [Outcome.bind_eq_ok] at h
        obtain ⟨as, has, h⟩ := h
        rw [Outcome.ok.injEq] at h
        subst h
        obtain ⟨h1, h2⟩ := (ih as).1 has
        refine ⟨by simp [h1], ?_⟩
        intro i k' hk'
        cases i with
        | zero =>
          simp only [List.getElem?_cons_zero, Option.some.injEq] at hk'
          subst hk'
          refine ⟨a, ?_, by simp⟩
          unfold Outcome.get at ha
          cases hmk : mv[k]? with
          | none => rw [hmk] at ha; cases ha
          | some b => rw [hmk] at ha; injection ha with ha; rw [ha]
        | succ i => simpa using h2 i k' (by simpa using hk')
      · rintro ⟨h1, h2⟩
        cases view with
        | nil => simp at h1
        | cons a as =>
          obtain ⟨a', ha', hv⟩ := h2 0 k (by simp)
          simp only [List.getElem?_cons_zero, Option.some.injEq] at hv
          subst hv
          refine ⟨a, by unfold Outcome.get; rw [ha'], ?_⟩
          rw [Outcome.bind_eq_ok]
          refine ⟨as, (ih as).2 ⟨by simpa using h1, ?_⟩, rfl⟩
          intro i k' hk'
          simpa using h2 (i + 1) k' (by simpa using hk')
  · rintro ⟨k, hk, hlt⟩
    induction index with
    | nil => simp at hk
    | cons k' index ih =>
      have hfold : cloneView mv (k' :: index) = (do
          let a ← Outcome.get mv k' "mv[index[i]]"
          let as ← cloneView mv index
          .ok (a :: as)) := rfl
      rw [hfold]
      by_cases hk' : mv.length ≤ k'
      · refine ⟨"mv[index[i]]", ?_⟩
        simp [Outcome.get, List.getElem?_eq_none hk']
      · have : k ∈ index := by
          rcases List.mem_cons.1 hk with rfl | h
          · exact absurd hlt hk'
          · exact h
        obtain ⟨w, hw⟩ := ih this
        exact ⟨w, by rw [get_ok mv k' _ (by omega), Outcome.ok_bind, hw]; rfl⟩

/-- **C41**, `CloneCopy`: the copy has fresh vectors, distinct from each other and from everything
allocated before, with the contents of the chosen vectors; nothing allocated before changes. -/
theorem C41_copy (h : Heap K) (mv : MV) (index : List ℕ) (hmv : ∀ a ∈ mv, a < h.next)
    (hidx : ∀ k ∈ index, k < mv.length) :
    ∃ h' new, cloneCopy h mv index = .ok (h', new) ∧ new.length = index.length ∧ new.Nodup ∧
      (∀ a ∈ new, h.next ≤ a ∧ a < h'.next) ∧ (∀ a, a < h.next → h'.mem a = h.mem a) ∧
      ∀ i k p, index[i]? = some k → h'.entry new i p = h.entry mv k p := by
  unfold cloneCopy
  simp only [newMV]
  set new : MV := (List.range index.length).map (fun i => h.next + i) with hnew
  have hlen : new.length = index.length := by simp [hnew]
  have hnd : new.Nodup := by
    rw [hnew]
    apply List.Nodup.map _ List.nodup_range
    intro a b hab
    simpa using hab
  have hget : ∀ (i : ℕ) (hi : i < new.length), new[i] = h.next + i := by
    intro i hi; simp [hnew]
  set h₀ : Heap K := { next := h.next + index.length, mem := fun b =>
    if h.next ≤ b ∧ b < h.next + index.length then List.replicate 0 0 else h.mem b } with hh₀
  have hold0 : ∀ a, a < h.next → h₀.mem a = h.mem a := by
    intro a ha
    simp only [hh₀]
    rw [if_neg (by omega)]
  obtain ⟨h', hok, hoc, hg, _⟩ := forLoop_writes new hnd index.length (by omega) h₀
    (fun i (h : Heap K) => do
      let k ← Outcome.get index i "index[i]"
      let src ← Outcome.get mv k "mv[index[i]]"
      let dst ← Outcome.get new i "new_mv[i]"
      .ok (h.write dst (h.mem src)))
    (fun i => h.mem (mv.getD (index.getD i 0) 0))
    (by
      intro i hi h1 him hn hold
      have hk : index[i] < mv.length := hidx _ (List.getElem_mem him)
      rw [get_ok index i _ him, Outcome.ok_bind, get_ok mv _ _ hk, Outcome.ok_bind,
        get_ok new i _ hi, Outcome.ok_bind]
      refine ⟨_, rfl, rfl, ?_, fun a ha => Heap.write_other _ _ _ _ ha⟩
      have hlt := hmv _ (List.getElem_mem hk)
      rw [Heap.write_same, hold _ (fun j hj _ hEq => by rw [hget j hj] at hEq; omega), hold0 _ hlt]
      simp [List.getElem?_eq_getElem him, List.getElem?_eq_getElem hk])
  refine ⟨h', new, by rw [hok]; rfl, hlen, hnd, ?_, ?_, ?_⟩
  · intro a ha
    rw [hoc.1]
    obtain ⟨i, hi, rfl⟩ := List.getElem_of_mem ha
    rw [hget i hi]
    exact ⟨by omega, by show h.next + i < h.next + index.length; omega⟩
  · intro a ha
    rw [hoc.2, hold0 a ha]
    intro hmem
    obtain ⟨i, hi, rfl⟩ := List.getElem_of_mem hmem
    rw [hget i hi] at ha
    omega
  · intro i k p hik
    obtain ⟨hi, rfl⟩ := List.getElem?_eq_some_iff.1 hik
    rw [getElem_entry _ _ _ _ (by omega), hg i (by omega) hi]
    unfold Heap.entry
    simp [List.getElem?_eq_getElem hi]

/-- **C41**: hence no operation on the original (anything that changes only vectors allocated before)
is seen through the copy, and none on the copy through the original. -/
theorem C41_copy_independent (h : Heap K) (mv : MV) (index : List ℕ) (hmv : ∀ a ∈ mv, a < h.next)
    (hidx : ∀ k ∈ index, k < mv.length) (h' : Heap K) (new : MV)
    (hc : cloneCopy h mv index = .ok (h', new)) (h'' : Heap K) :
    (OnlyChanges h' h'' mv → ∀ i p, i < new.length → h''.entry new i p = h'.entry new i p) ∧
    (OnlyChanges h' h'' new → ∀ i p, i < mv.length → h''.entry mv i p = h.entry mv i p) := by
  obtain ⟨h1, new1, hok, _, _, hfresh, hold, _⟩ := C41_copy h mv index hmv hidx
  rw [hok, Outcome.ok.injEq, Prod.mk.injEq] at hc
  obtain ⟨rfl, rfl⟩ := hc
  constructor
  · intro ho i p hi
    rw [getElem_entry _ _ _ _ hi, getElem_entry _ _ _ _ hi, ho.2]
    intro hmem
    have := (hfresh _ (List.getElem_mem hi)).1
    have := hmv _ hmem
    omega
  · intro ho i p hi
    rw [getElem_entry _ _ _ _ hi, getElem_entry _ _ _ _ hi, ho.2, hold _ (hmv _ (List.getElem_mem hi))]
    intro hmem
    have := (hfresh _ hmem).1
    have := hmv _ (List.getElem_mem hi)
    omega

/-- **C41**, `CloneCopy` without indices copies all vectors, in their order, into new ones. -/
theorem C41_copy_all (h : Heap K) (mv : MV) (hmv : ∀ a ∈ mv, a < h.next) :
    ∃ h' new, cloneCopyAll h mv = .ok (h', new) ∧ new.length = mv.length ∧ new.Nodup ∧
      (∀ a ∈ new, h.next ≤ a ∧ a < h'.next) ∧ (∀ a, a < h.next → h'.mem a = h.mem a) ∧
      ∀ i p, i < mv.length → h'.entry new i p = h.entry mv i p := by
  obtain ⟨h', new, h1, h2, h3, h4, h5, h6⟩ := C41_copy h mv (List.range mv.length) hmv (by simp)
  refine ⟨h', new, h1, by simpa using h2, h3, h4, h5, fun i p hi => h6 i i p ?_⟩
  rw [List.getElem?_range hi]

example := C41_copy_all (⟨2, fun _ => [1, 2]⟩ : Heap ℚ) [1, 0] (by simp)

/-- **C41**: a change through a view is a change of the original. -/
theorem C41_view_shares (mv view : MV) (index : List ℕ) (hv : cloneView mv index = .ok view)
    (h : Heap K) (i k p : ℕ) (hi : index[i]? = some k) : h.entry view i p = h.entry mv k p := by
  obtain ⟨_, h2⟩ := ((C41_view mv index).1 view).1 hv
  obtain ⟨a, ha, hva⟩ := h2 i k hi
  unfold Heap.entry
  simp [List.getD_eq_getElem?_getD, ha, hva]

/-- **C41**, `SetBlock`: with distinct indices in range, vector `index[i]` of `mv` becomes vector `i`
of `A`, the others stay. -/
theorem C41_set_block (debug : Bool) (A : MV) (index : List ℕ) (mv : MV) (h : Heap K) (n : ℕ)
    (hA : h.Uniform A n) (hmvu : h.Uniform mv n) (hne : A ≠ []) (hlen : A.length = index.length)
    (hmv : mv.Nodup) (hidx : index.Nodup) (hrange : ∀ k ∈ index, k < mv.length) (hap : Apart mv A) :
    ∃ h', setBlock debug A index mv h = .ok h' ∧
      (∀ i k p, index[i]? = some k → h'.entry mv k p = h.entry A i p) ∧
      (∀ k p, k < mv.length → k ∉ index → h'.entry mv k p = h.entry mv k p) ∧
      OnlyChanges h h' mv := by
  have hmvne : mv ≠ [] := by
    rintro rfl
    cases A with
    | nil => exact hne rfl
    | cons a l => cases index with
      | nil => simp at hlen
      | cons k _ => exact absurd (hrange k (by simp)) (by simp)
  have hle : index.length ≤ mv.length := by
    have : index.Subperm (List.range mv.length) :=
      (List.subperm_of_subset hidx (fun k hk => List.mem_range.2 (hrange k hk)))
    simpa using this.length_le
  unfold setBlock
  rw [assert_ok _ _ (by simp [hlen]), Outcome.ok_bind, assert_ok _ _ (by simpa using hle),
    Outcome.ok_bind, assert_ok _ _ (by
      simp [mvSize_uniform h mv n hmvu hmvne, mvSize_uniform h A n hA hne]), Outcome.ok_bind]
  set dsts : MV := index.map (fun k => mv.getD k 0) with hdsts
  have hdl : dsts.length = index.length := by simp [hdsts]
  have hdg : ∀ (i : ℕ) (hi : i < index.length) (hk : index[i] < mv.length),
      dsts[i]'(by omega) = mv[index[i]] := by
    intro i hi hk
    simp [hdsts, List.getElem?_eq_getElem hk]
  have hdn : dsts.Nodup := by
    rw [List.nodup_iff_injective_get]
    rintro ⟨a, ha⟩ ⟨b, hb⟩ hab
    simp only [List.get_eq_getElem] at hab
    have ha' : a < index.length := by omega
    have hb' : b < index.length := by omega
    rw [hdg a ha' (hrange _ (List.getElem_mem ha')), hdg b hb' (hrange _ (List.getElem_mem hb'))] at hab
    have h1 := (List.Nodup.getElem_inj_iff hmv).1 hab
    have h2 := (List.Nodup.getElem_inj_iff hidx).1 h1
    exact Fin.ext h2
  have hdm : ∀ a ∈ dsts, a ∈ mv := by
    intro a ha
    obtain ⟨i, hi, rfl⟩ := List.getElem_of_mem ha
    rw [hdg i (by omega) (hrange _ (List.getElem_mem (by omega)))]
    exact List.getElem_mem _
  obtain ⟨h', hok, hoc, hg, _⟩ := forLoop_writes dsts hdn index.length (by omega) h
    (fun i (h : Heap K) => do
      let k ← Outcome.get index i "index[i]"
      let dst ← Outcome.get mv k "mv[index[i]]"
      let src ← Outcome.get A i "A[i]"
      .ok (h.write dst (h.mem src)))
    (fun i => h.mem (A.getD i 0))
    (by
      intro i hi h1 him hn hold
      have hk : index[i] < mv.length := hrange _ (List.getElem_mem him)
      have hiA : i < A.length := by omega
      rw [get_ok index i _ him, Outcome.ok_bind, get_ok mv _ _ hk, Outcome.ok_bind,
        get_ok A i _ hiA, Outcome.ok_bind, hdg i him hk]
      refine ⟨_, rfl, rfl, ?_, fun a ha => Heap.write_other _ _ _ _ ha⟩
      rw [Heap.write_same, hold _ (fun j hj _ hEq => hap _ (hdm _ (List.getElem_mem hj))
        (hEq ▸ List.getElem_mem hiA))]
      simp [List.getElem?_eq_getElem hiA])
  refine ⟨h', hok, ?_, ?_, hoc.1, fun a ha => hoc.2 a (fun hd => ha (hdm a hd))⟩
  · intro i k p hik
    obtain ⟨hi, rfl⟩ := List.getElem?_eq_some_iff.1 hik
    have hk := hrange _ (List.getElem_mem hi)
    rw [getElem_entry _ _ _ _ hk, ← hdg i hi hk, hg i (by omega) hi]
    rfl
  · intro k p hk hkn
    rw [getElem_entry _ _ _ _ hk, getElem_entry _ _ _ _ hk, hoc.2]
    intro hmem
    obtain ⟨i, hi, hEq⟩ := List.getElem_of_mem hmem
    have hi' : i < index.length := by omega
    have hki := hrange _ (List.getElem_mem hi')
    rw [hdg i hi' hki] at hEq
    have := (List.Nodup.getElem_inj_iff hmv).1 hEq
    exact hkn (this ▸ List.getElem_mem hi')

/-- **C41**, `MvTransMv` and `MvDot`: entry `(i, j)` is `alpha` times the inner product of vector `i`
of `A` and vector `j` of `B`, whether or not they share vectors. -/
theorem C41_products (alpha : K) (A B : MV) (h : Heap K) (n : ℕ) (hA : h.Uniform A n)
    (hB : h.Uniform B n) (i j : ℕ) (hi : i < A.length) (hj : j < B.length) :
    mvTransMv alpha A B h i j
      = .ok (alpha * ((List.range n).map (fun p => h.entry A i p * h.entry B j p)).sum) ∧
    (i = j → mvDot A B h i = .ok ((List.range n).map (fun p => h.entry A i p * h.entry B i p)).sum) := by
  have key : ∀ j (hj : j < B.length), dotVec (h.mem A[i]) (h.mem B[j])
      = .ok ((List.range n).map (fun p => h.entry A i p * h.entry B j p)).sum := by
    intro j hj
    have h1 := hA _ (List.getElem_mem hi)
    have h2 := hB _ (List.getElem_mem hj)
    unfold dotVec
    rw [if_pos (by rw [h1, h2])]
    congr 2
    apply List.ext_getElem
    · simp [h1, h2]
    · intro p hp1 hp2
      have hp : p < n := by simpa using hp2
      rw [List.getElem_zipWith, List.getElem_map, List.getElem_range, getElem_entry _ _ _ _ hi,
        getElem_entry _ _ _ _ hj]
      have q1 : p < (h.mem A[i]).length := by omega
      have q2 : p < (h.mem B[j]).length := by omega
      simp [List.getElem?_eq_getElem q1, List.getElem?_eq_getElem q2]
  constructor
  · unfold mvTransMv
    rw [get_ok A i _ hi, Outcome.ok_bind, get_ok B j _ hj, Outcome.ok_bind, key j hj,
      Outcome.ok_bind]
  · rintro rfl
    unfold mvDot
    rw [get_ok A i _ hi, Outcome.ok_bind, get_ok B i _ hj, Outcome.ok_bind, key i hj]

omit [Field K] in
/-- The loop of `MvNorm` from vector `i` on. -/
theorem normLoop (f : ℕ → K) (mv : MV) (g : ℕ → List K → Outcome (List K))
    (hg : ∀ i v, i < mv.length → g i v = .ok (v.set i (f i))) :
    ∀ (left i : ℕ) (v : List K), i + left = mv.length → v.length = mv.length →
      ∃ w, forLoop g left i v = .ok w ∧ w.length = mv.length ∧
        (∀ k, i ≤ k → k < mv.length → w[k]? = some (f k)) ∧ ∀ k, k < i → w[k]? = v[k]?
  | 0, i, v, hi, hv => ⟨v, rfl, hv, fun k h1 h2 => by omega, fun _ _ => rfl⟩
  | left + 1, i, v, hi, hv => by
    obtain ⟨w, h1, h2, h3, h4⟩ := normLoop f mv g hg left (i + 1) (v.set i (f i)) (by omega) (by simpa using hv)
    refine ⟨w, ?_, h2, ?_, ?_⟩
    · rw [forLoop, hg i v (by omega), Outcome.ok_bind, h1]
    · intro k hk1 hk2
      rcases Nat.eq_or_lt_of_le hk1 with rfl | hk
      · rw [h4 _ (by omega), List.getElem?_set_self (by omega)]
      · exact h3 k hk hk2
    · intro k hk
      rw [h4 k (by omega), List.getElem?_set_ne (by omega)]

/-- **C41**, `MvNorm`: whatever the caller's array contains and however long it is, afterwards it has one number for
every vector, the nonnegative one whose square is the sum of the squares of the components. -/
theorem C41_norm [LinearOrder K] [IsStrictOrderedRing K] (sqrt : K → K)
    (hsqrt : ∀ a, 0 ≤ a → 0 ≤ sqrt a ∧ sqrt a * sqrt a = a) (mv : MV) (h : Heap K) (n : ℕ) (hu : h.Uniform mv n)
    (normvec : List K) :
    ∃ r : List K, mvNorm sqrt mv h normvec = .ok r ∧ r.length = mv.length ∧
      ∀ i, i < mv.length → ∃ v, r[i]? = some v ∧ 0 ≤ v ∧
        v * v = ((List.range n).map (fun p => h.entry mv i p * h.entry mv i p)).sum := by
  unfold mvNorm
  obtain ⟨r, h1, h2, h3, -⟩ := normLoop
    (fun i => sqrt ((h.mem (mv.getD i 0)).map (fun x => x * x)).sum) mv
    (fun i (normvec : List K) => do
      let a ← Outcome.get mv i "mv[i]"
      .ok (normvec.set i (sqrt ((h.mem a).map (fun x => x * x)).sum)))
    (by
      intro i v hi
      rw [get_ok mv i _ hi, Outcome.ok_bind]
      simp [hi])
    mv.length 0 (normvec.take mv.length ++ List.replicate (mv.length - normvec.length) 0) (by omega)
    (by simp; omega)
  refine ⟨r, h1, h2, fun i hi => ⟨_, h3 i (Nat.zero_le _) hi, ?_⟩⟩
  have e : (h.mem (mv.getD i 0)).map (fun x => x * x)
      = (List.range n).map (fun p => h.entry mv i p * h.entry mv i p) := by
    have hl : (h.mem (mv.getD i 0)).length = n := by
      have : mv.getD i 0 = mv[i] := by simp [hi]
      rw [this]
      exact hu _ (List.getElem_mem hi)
    apply List.ext_getElem
    · rw [List.length_map, List.length_map, List.length_range, hl]
    · intro p hp1 hp2
      have hp : p < (h.mem (mv.getD i 0)).length := by rwa [List.length_map] at hp1
      rw [List.getElem_map, List.getElem_map, List.getElem_range]
      have e : h.entry mv i p = (h.mem (mv.getD i 0))[p] := by
        change (h.mem (mv.getD i 0)).getD p 0 = _
        generalize h.mem (mv.getD i 0) = u at hp
        simp [hp]
      rw [e]
  rw [← e]
  exact hsqrt _ (List.sum_nonneg (by
    intro x hx
    obtain ⟨y, -, rfl⟩ := List.mem_map.1 hx
    exact mul_self_nonneg y))

/-! ## C60 -/

/-- `MvRandom` on distinct vectors of `n` components: component `p` of vector `i` is draw `i n + p`. -/
theorem mvRandom_values (draw : ℕ → K) (mv : MV) (h : Heap K) (n : ℕ) (hmv : mv.Nodup)
    (hu : h.Uniform mv n) :
    ∃ h', mvRandom draw mv h = .ok h' ∧ OnlyChanges h h' mv ∧ h'.Uniform mv n ∧
      ∀ i p, i < mv.length → p < n → h'.entry mv i p = draw (i * n + p) := by
  unfold mvRandom
  obtain ⟨⟨h', used⟩, hok, hn, hw, hk, _⟩ := forLoop_inv
    (fun i (s : Heap K × ℕ) => do
      let dst ← Outcome.get mv i "mv[i]"
      .ok (s.1.write dst ((s.1.mem dst).mapIdx (fun p _ => draw (s.2 + p))),
        s.2 + (s.1.mem dst).length))
    (fun i (s : Heap K × ℕ) => s.1.next = h.next ∧
      (∀ (j : ℕ) (hj : j < mv.length), j < i →
        s.1.mem mv[j] = (List.range n).map (fun p => draw (j * n + p))) ∧
      (∀ a, (∀ (j : ℕ) (hj : j < mv.length), j < i → a ≠ mv[j]) → s.1.mem a = h.mem a) ∧
      s.2 = i * n) mv.length
    (by
      rintro i ⟨h1, used⟩ hi ⟨e1, e2, e3, e4⟩
      simp only at e1 e2 e3 e4
      rw [get_ok mv i _ hi, Outcome.ok_bind]
      have hd : h1.mem mv[i] = h.mem mv[i] := e3 _ (fun j hj hji =>
        nodup_getElem_ne mv hmv i j hi hj (by omega))
      have hl := hu _ (List.getElem_mem hi)
      refine ⟨_, rfl, e1, ?_, ?_, ?_⟩
      · intro j hj hji
        by_cases hjj : j = i
        · subst hjj
          simp only
          rw [Heap.write_same, hd]
          apply List.ext_getElem
          · simp [hl]
          · intro p _ _
            simp [e4]
        · simp only
          rw [Heap.write_other _ _ _ _ (nodup_getElem_ne mv hmv j i hj hi hjj)]
          exact e2 j hj (by omega)
      · intro a ha
        simp only
        rw [Heap.write_other _ _ _ _ (ha i hi (by omega))]
        exact e3 a (fun j hj hji => ha j hj (by omega))
      · simp only
        rw [hd, hl, e4]
        ring)
    mv.length 0 (h, 0) (by omega)
    ⟨rfl, fun j hj hji => absurd hji (by omega), fun _ _ => rfl, by simp⟩
  simp only at hn hw hk
  refine ⟨h', by rw [hok]; rfl, ⟨hn, ?_⟩, ?_, ?_⟩
  · intro a ha
    exact hk a (fun j hj _ hEq => ha (hEq ▸ List.getElem_mem hj))
  · intro a ha
    obtain ⟨i, hi, rfl⟩ := List.getElem_of_mem ha
    rw [hw i hi hi]
    simp
  · intro i p hi hp
    rw [getElem_entry _ _ _ _ hi, hw i hi hi]
    simp [hp]

/-- **C60**, what holds: within one call, component `p` of vector `i` is its own element of the random
sequence, whatever was stored before.  Missing: different calls, see `C60_fresh_violated`. -/
theorem C60_one_call_partial (draw : ℕ → K) (mv : MV) (h : Heap K) (n : ℕ) (hmv : mv.Nodup)
    (hu : h.Uniform mv n) :
    ∃ h', mvRandom draw mv h = .ok h' ∧ OnlyChanges h h' mv ∧
      ∀ i p, i < mv.length → p < n → h'.entry mv i p = draw (i * n + p) := by
  obtain ⟨h', h1, h2, _, h4⟩ := mvRandom_values draw mv h n hmv hu
  exact ⟨h', h1, h2, h4⟩

/-- **C60 is violated**: the generator is seeded anew in every call, so two multivectors filled one
after the other are equal, vector by vector as far as both go: they never span more than the larger of
the two. -/
theorem C60_fresh_violated (draw : ℕ → K) (X Y : MV) (h : Heap K) (n : ℕ) (hX : X.Nodup)
    (hY : Y.Nodup) (hXY : Apart X Y) (hux : h.Uniform X n) (huy : h.Uniform Y n) :
    ∃ h' h'', mvRandom draw X h = .ok h' ∧ mvRandom draw Y h' = .ok h'' ∧
      ∀ i p, i < X.length → i < Y.length → p < n → h''.entry X i p = h''.entry Y i p := by
  obtain ⟨h', e1, e2, _, e4⟩ := mvRandom_values draw X h n hX hux
  obtain ⟨h'', f1, f2, _, f4⟩ := mvRandom_values draw Y h' n hY (by
    intro a ha
    rw [e2.2 a (fun hax => hXY a hax ha), huy a ha])
  refine ⟨h', h'', e1, f1, ?_⟩
  intro i p hi hj hp
  rw [f4 i p hj hp, ← e4 i p hi hp, getElem_entry _ _ _ _ hi, getElem_entry _ _ _ _ hi, f2.2]
  exact hXY _ (List.getElem_mem hi)

/-- **C60 is violated**: filling with random numbers also overwrites the zeros of a start vector on
constrained dofs. -/
theorem C60_constrained_violated (draw : ℕ → K) (hd : ∀ m, draw m ≠ 0) (mv : MV) (h : Heap K) (n : ℕ)
    (hmv : mv.Nodup) (hu : h.Uniform mv n) :
    ∃ h', mvRandom draw mv h = .ok h' ∧ ∀ i p, i < mv.length → p < n → h'.entry mv i p ≠ 0 := by
  obtain ⟨h', h1, _, _, h4⟩ := mvRandom_values draw mv h n hmv hu
  exact ⟨h', h1, fun i p hi hp => by rw [h4 i p hi hp]; exact hd _⟩

end

/-! ### Concrete multivectors: two vectors each, of two components -/

/-- Vectors 0 to 3. -/
def exHeap : Heap ℚ where
  next := 4
  mem := fun a => ([[1, 2], [3, 4], [5, 6], [7, 8]] : List (List ℚ)).getD a []

example : ∃ h', mvAddMv true 2 [0, 1] 3 [2, 3] [0, 1] exHeap = .ok h' ∧ h'.entry [0, 1] 1 0 = 27 := by
  obtain ⟨h', h1, _, _, h4⟩ := C41_add true 2 3 [0, 1] [2, 3] [0, 1] exHeap 2 (by unfold Heap.Uniform; decide +kernel)
    (by unfold Heap.Uniform; decide +kernel) (by unfold Heap.Uniform; decide +kernel) rfl rfl (by decide) (by unfold Apart; decide) (by
      intro i j hi hj h
      have hi' : i = 0 ∨ i = 1 := by simp at hi; omega
      have hj' : j = 0 ∨ j = 1 := by simp at hj; omega
      rcases hi' with rfl | rfl <;> rcases hj' with rfl | rfl <;> simp_all)
  exact ⟨h', h1, by rw [h4 1 0 (by decide) (by decide)]; decide +kernel⟩

example : ∃ h', mvAddMv true 2 [0, 1] 3 [2, 3] [2, 3] exHeap = .ok h' ∧ h'.entry [2, 3] 1 0 = 15 := by
  obtain ⟨h', h1, h2⟩ := C41_add_violated true 2 3 [0, 1] [2, 3] exHeap 2 (by unfold Heap.Uniform; decide +kernel)
    (by unfold Heap.Uniform; decide +kernel) rfl (by decide) (by unfold Apart; decide)
  exact ⟨h', h1, by rw [h2 1 0 (by decide) (by decide)]; decide +kernel⟩

example : ∃ h', mvTimesMatAddMv true 2 [0, 1] 2 2 (fun k j => ((k + j : ℕ) : ℚ)) 1 [2, 3] exHeap
    = .ok h' ∧ h'.entry [2, 3] 1 1 = 28 := by
  obtain ⟨h', h1, _, _, h4⟩ := C41_times true 2 1 [0, 1] [2, 3] (fun k j => ((k + j : ℕ) : ℚ)) exHeap 2
    (by unfold Heap.Uniform; decide +kernel) (by unfold Heap.Uniform; decide +kernel) (by decide) (by decide) (by unfold Apart; decide)
  exact ⟨h', h1, by rw [h4 1 1 (by decide) (by decide)]; decide +kernel⟩

/-- Vectors (3, 4) and (0, -2); the array handed over is too long. -/
example : ∃ r : List ℝ, mvNorm Real.sqrt [1, 0] ⟨2, fun a => if a = 0 then [0, -2] else [3, 4]⟩ [7, 7, 7] = .ok r ∧
    r.length = 2 ∧ r[0]? = some 5 := by
  obtain ⟨r, h1, h2, h3⟩ := C41_norm Real.sqrt (fun a ha => ⟨Real.sqrt_nonneg a, Real.mul_self_sqrt ha⟩) [1, 0]
    ⟨2, fun a => if a = 0 then [0, -2] else [3, 4]⟩ 2 (by intro a ha; dsimp only; split <;> rfl) [7, 7, 7]
  obtain ⟨v, hv, h0, hvv⟩ := h3 0 (by decide)
  refine ⟨r, h1, h2, hv.trans (congrArg some ?_)⟩
  have e : v * v = 25 := by
    rw [hvv]
    norm_num [Heap.entry, List.range_succ]
  nlinarith

end Mfmg
