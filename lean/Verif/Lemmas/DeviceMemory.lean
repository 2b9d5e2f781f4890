import Verif.Spec.DeviceMemory
import Mathlib.Data.List.Perm.Basic
import Mathlib.Data.List.Nodup
import Mathlib.Data.List.Perm.Subperm

/-!
# Lemmas on device memory histories
-/

set_option autoImplicit false

namespace Mfmg

/-- The live allocations are exactly `l`, without repetition, and fresh addresses are fresh. -/
def HeapHas (h : DevHeap) (l : List ℕ) : Prop :=
  h.live.Perm l ∧ h.live.Nodup ∧ (∀ p ∈ h.live, p < h.next) ∧ ∀ p ∈ h.written, p < h.next

theorem HeapHas.perm {h : DevHeap} {l l' : List ℕ} (hl : HeapHas h l) (hp : l.Perm l') :
    HeapHas h l' := ⟨hl.1.trans hp, hl.2⟩

theorem HeapHas.write {h : DevHeap} {l : List ℕ} (hl : HeapHas h l) (p : ℕ)
    (hp : p ∈ l := by simp) : HeapHas (h.write p) l := by
  refine ⟨hl.1, hl.2.1, hl.2.2.1, ?_⟩
  intro q hq
  rcases List.mem_cons.1 hq with rfl | hq
  · exact hl.2.2.1 q (hl.1.mem_iff.2 hp)
  · exact hl.2.2.2 q hq

theorem HeapHas.alloc {h : DevHeap} {l : List ℕ} (hl : HeapHas h l) :
    HeapHas h.alloc.2 (h.alloc.1 :: l) := by
  refine ⟨hl.1.cons _, ?_, ?_, ?_⟩
  · refine List.nodup_cons.2 ⟨fun hm => ?_, hl.2.1⟩
    have := hl.2.2.1 _ hm
    omega
  · intro p hp
    rcases List.mem_cons.1 hp with rfl | hp
    · exact Nat.lt_succ_self _
    · exact Nat.lt_succ_of_lt (hl.2.2.1 p hp)
  · intro p hp
    exact Nat.lt_succ_of_lt (hl.2.2.2 p hp)

theorem HeapHas.free {h : DevHeap} {p : Option ℕ} {l : List ℕ} (hl : HeapHas h (p.toList ++ l)) :
    ∃ h', h.free p = .ok h' ∧ HeapHas h' l ∧ h'.written = h.written := by
  cases p with
  | none => exact ⟨h, rfl, hl, rfl⟩
  | some p =>
    have hmem : p ∈ h.live := hl.1.mem_iff.2 (by simp)
    refine ⟨{ h with live := h.live.erase p }, by simp [DevHeap.free, hmem], ⟨?_, ?_, ?_, hl.2.2.2⟩, rfl⟩
    · have := hl.1.erase p
      simpa using this
    · exact hl.2.1.erase p
    · intro q hq
      exact hl.2.2.1 q (List.mem_of_mem_erase hq)

theorem HeapHas.use {h : DevHeap} {l : List ℕ} (hl : HeapHas h l) {p : ℕ} (hp : p ∈ l)
    (hw : p ∈ h.written) : h.use p = .ok () := by
  have : p ∈ h.live := hl.1.mem_iff.2 hp
  simp [DevHeap.use, this, hw]

/-- The arrays of an object. -/
def SpObj.arrays (o : SpObj) : List ℕ := o.val.toList ++ o.col.toList ++ o.rowPtr.toList

theorem SpObj.ptrs_eq (o : SpObj) : o.ptrs = o.arrays ++ o.descr.toList := rfl

theorem newArrays_ok (descr : Bool) {h : DevHeap} {l : List ℕ} (hl : HeapHas h l) :
    HeapHas (newArrays descr h).2 ((newArrays descr h).1.ptrs ++ l) ∧
    (∀ p ∈ (newArrays descr h).1.arrays, p ∈ (newArrays descr h).2.written) ∧
    (∀ p ∈ h.written, p ∈ (newArrays descr h).2.written) ∧
    (newArrays descr h).1.nnz = true ∧
    (newArrays descr h).1.ptrs.length = (if descr then 4 else 3) ∧
    (newArrays descr h).1.arrays.length = 3 ∧
    (descr = false → (newArrays descr h).1.descr = none) := by
  have h1 := (hl.alloc).write h.alloc.1
  have h2 := (h1.alloc).write (h.alloc.2.write h.alloc.1).alloc.1
  have h3 := (h2.alloc).write
    ((h.alloc.2.write h.alloc.1).alloc.2.write (h.alloc.2.write h.alloc.1).alloc.1).alloc.1
  cases descr with
  | false =>
    refine ⟨h3.perm ?_, ?_, ?_, rfl, rfl, rfl, fun _ => rfl⟩
    · simp only [newArrays, SpObj.ptrs, DevHeap.allocWritten, DevHeap.alloc, DevHeap.write,
        Option.toList_some, Option.toList_none, List.append_nil, List.cons_append, List.nil_append,
        Bool.false_eq_true, if_false]
      exact (List.Perm.swap _ _ _).trans (((List.Perm.swap _ _ _).cons _).trans
        (List.Perm.swap _ _ _))
    · simp [newArrays, SpObj.arrays, DevHeap.allocWritten, DevHeap.alloc, DevHeap.write]
    · intro p hp
      simp [newArrays, DevHeap.allocWritten, DevHeap.alloc, DevHeap.write, hp]
  | true =>
    have h4 := h3.alloc
    refine ⟨h4.perm ?_, ?_, ?_, rfl, rfl, rfl, fun h => by cases h⟩
    · simp only [newArrays, SpObj.ptrs, DevHeap.allocWritten, DevHeap.alloc, DevHeap.write,
        Option.toList_some, List.cons_append, List.nil_append, if_true]
      have : ∀ (a b c d : ℕ) (l : List ℕ), (d :: c :: b :: a :: l).Perm (a :: b :: c :: d :: l) := by
        intro a b c d l
        have : (d :: c :: b :: a :: l) = [a, b, c, d].reverse ++ l := rfl
        rw [this]
        exact (List.reverse_perm [a, b, c, d]).append_right l
      exact this _ _ _ _ _
    · simp [newArrays, SpObj.arrays, DevHeap.allocWritten, DevHeap.alloc, DevHeap.write]
    · intro p hp
      simp [newArrays, DevHeap.allocWritten, DevHeap.alloc, DevHeap.write, hp]

theorem destroyObj_ok {h : DevHeap} {o : SpObj} {l : List ℕ} (hl : HeapHas h (o.ptrs ++ l)) :
    ∃ h', destroyObj h o = .ok h' ∧ HeapHas h' l ∧ h'.written = h.written := by
  unfold SpObj.ptrs at hl
  simp only [List.append_assoc] at hl
  obtain ⟨h1, e1, hl1, w1⟩ := hl.free
  obtain ⟨h2, e2, hl2, w2⟩ := hl1.free
  obtain ⟨h3, e3, hl3, w3⟩ := hl2.free
  obtain ⟨h4, e4, hl4, w4⟩ := hl3.free
  refine ⟨h4, ?_, hl4, by rw [w4, w3, w2, w1]⟩
  simp only [destroyObj, e1, e2, e3, e4, Outcome.ok_bind]

theorem useArrays_ok (debug : Bool) {h : DevHeap} {o : SpObj} {l : List ℕ} (hl : HeapHas h l)
    (hsub : ∀ p ∈ o.arrays, p ∈ l) (hw : ∀ p ∈ o.arrays, p ∈ h.written) :
    useArrays debug h o = .ok () ∨ useArrays debug h o = .aborted ∨
      useArrays debug h o = .ub "empty matrix" := by
  rcases o with ⟨_ | v, _ | c, _ | r, d, n⟩ <;> simp only [useArrays]
  case some.some.some =>
    left
    rw [hl.use (hsub v (by simp [SpObj.arrays])) (hw v (by simp [SpObj.arrays])),
      hl.use (hsub c (by simp [SpObj.arrays])) (hw c (by simp [SpObj.arrays])),
      hl.use (hsub r (by simp [SpObj.arrays])) (hw r (by simp [SpObj.arrays]))]
    rfl
  all_goals
    right
    cases debug
    · right; rfl
    · left; rfl

theorem usePattern_ok (debug : Bool) {h : DevHeap} {o : SpObj} {l : List ℕ} (hl : HeapHas h l)
    (hsub : ∀ p ∈ o.arrays, p ∈ l) (hw : ∀ p ∈ o.arrays, p ∈ h.written) :
    usePattern debug h o = .ok () ∨ usePattern debug h o = .aborted ∨
      usePattern debug h o = .ub "empty matrix" := by
  rcases o with ⟨v, _ | c, _ | r, d, n⟩ <;> simp only [usePattern]
  case some.some =>
    left
    rw [hl.use (hsub c (by simp [SpObj.arrays])) (hw c (by simp [SpObj.arrays])),
      hl.use (hsub r (by simp [SpObj.arrays])) (hw r (by simp [SpObj.arrays]))]
    rfl
  all_goals
    right
    cases debug
    · right; rfl
    · left; rfl

/-! ### Owned pointers -/

/-- The pointers of one entry. -/
def optPtrs : Option SpObj → List ℕ
  | some o => o.ptrs
  | none => []

theorem ownedPtrs_cons (o : Option SpObj) (objs : List (Option SpObj)) :
    ownedPtrs (o :: objs) = optPtrs o ++ ownedPtrs objs := by
  cases o <;> rfl

theorem ownedPtrs_append (objs objs' : List (Option SpObj)) :
    ownedPtrs (objs ++ objs') = ownedPtrs objs ++ ownedPtrs objs' := by
  simp [ownedPtrs]

theorem ownedPtrs_set (objs : List (Option SpObj)) (i : ℕ) (x : Option SpObj)
    (hi : i < objs.length) :
    (ownedPtrs (objs.set i x)).Perm (optPtrs x ++ ownedPtrs (objs.set i none)) := by
  induction objs generalizing i with
  | nil => simp at hi
  | cons o objs ih =>
    cases i with
    | zero =>
      simp only [List.set_cons_zero, ownedPtrs_cons]
      rfl
    | succ i =>
      simp only [List.set_cons_succ, ownedPtrs_cons]
      refine ((ih i (by simpa using hi)).append_left _).trans ?_
      rw [← List.append_assoc, ← List.append_assoc]
      exact List.perm_append_comm.append_right _

theorem ownedPtrs_get (objs : List (Option SpObj)) (i : ℕ) (x : Option SpObj)
    (hi : objs[i]? = some x) :
    (ownedPtrs objs).Perm (optPtrs x ++ ownedPtrs (objs.set i none)) := by
  obtain ⟨hlt, he⟩ := List.getElem?_eq_some_iff.1 hi
  have := ownedPtrs_set objs i x hlt
  subst he
  rwa [List.set_getElem_self] at this

theorem obj_ok {s : MemState} {i : ℕ} {o : SpObj} (h : s.obj i = .ok o) :
    s.objs[i]? = some (some o) := by
  unfold MemState.obj at h
  split at h
  case h_1 o' ho =>
    injection h with h
    rw [ho, h]
  case h_2 => cases h

theorem obj_cases (s : MemState) (i : ℕ) :
    (∃ o, s.obj i = .ok o) ∨ s.obj i = .ub "no such object" := by
  unfold MemState.obj
  split
  · exact Or.inl ⟨_, rfl⟩
  · exact Or.inr rfl

/-- The invariant: the live allocations are those held and those leaked. -/
structure MemInv (s : MemState) (lk : List ℕ) : Prop where
  heap : HeapHas s.heap (ownedPtrs s.objs ++ lk)
  written : ∀ o, some o ∈ s.objs → ∀ p ∈ o.arrays, p ∈ s.heap.written

theorem MemInv.init : MemInv MemState.init [] :=
  ⟨⟨List.Perm.refl _, List.nodup_nil, by simp [MemState.init], by simp [MemState.init]⟩, by simp [MemState.init]⟩

theorem MemInv.sub {s : MemState} {i : ℕ} {o : SpObj} (lk : List ℕ)
    (ho : s.objs[i]? = some (some o)) : ∀ p ∈ o.arrays, p ∈ ownedPtrs s.objs ++ lk := by
  intro p hp
  refine List.mem_append_left _ ((ownedPtrs_get _ _ _ ho).mem_iff.2 (List.mem_append_left _ ?_))
  simp only [optPtrs, SpObj.ptrs_eq]
  exact List.mem_append_left _ hp

theorem MemInv.wr {s : MemState} {lk : List ℕ} (h : MemInv s lk) {i : ℕ} {o : SpObj}
    (ho : s.objs[i]? = some (some o)) : ∀ p ∈ o.arrays, p ∈ s.heap.written :=
  h.written o (List.mem_of_getElem? ho)

end Mfmg
