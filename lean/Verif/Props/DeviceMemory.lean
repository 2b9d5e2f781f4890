import Verif.Lemmas.DeviceMemory
import Mathlib.Data.List.Count
import Mathlib.Data.List.Perm.Basic

/-!
# C47: device memory over all histories
-/

set_option autoImplicit false

namespace Mfmg

/-- Permutations of concatenations. -/
macro "perm_omega" : tactic =>
  `(tactic| (rw [List.perm_iff_count]; intro x; simp only [List.count_append]; omega))

theorem vmultMem_ok (debug : Bool) {h : DevHeap} {o : SpObj} {l : List ℕ} (hl : HeapHas h l)
    (hsub : ∀ p ∈ o.arrays, p ∈ l) (hw : ∀ p ∈ o.arrays, p ∈ h.written) :
    vmultMem debug h o = .aborted ∨ ∃ h' a b, vmultMem debug h o = .ok h' ∧
      HeapHas h' ([a, b] ++ l) ∧ ∀ p ∈ h.written, p ∈ h'.written := by
  have h1 := (hl.alloc).write h.alloc.1
  have h2 := (h1.alloc).write (h.alloc.2.write h.alloc.1).alloc.1
  have h3 := (h2.alloc).write
    ((h.alloc.2.write h.alloc.1).alloc.2.write (h.alloc.2.write h.alloc.1).alloc.1).alloc.1
  have h4 : HeapHas _ ((some (h.alloc.2.write h.alloc.1).alloc.1).toList ++
      ([((h.alloc.2.write h.alloc.1).alloc.2.write (h.alloc.2.write h.alloc.1).alloc.1).alloc.1,
        h.alloc.1] ++ l)) := h3.perm (List.Perm.swap _ _ _)
  obtain ⟨h', e, hl', w⟩ := h4.free
  have hw' : ∀ p ∈ h.written, p ∈ h'.written := by
    intro p hp
    rw [w]
    simp [DevHeap.alloc, DevHeap.write, hp]
  unfold vmultMem
  simp only [DevHeap.allocWritten]
  rw [e, Outcome.ok_bind]
  rcases o with ⟨_ | v, _ | c, _ | r, d, n⟩
  case some.some.some =>
    right
    refine ⟨h', _, _, ?_, hl', hw'⟩
    have hs : ∀ p ∈ [v, c, r], h'.use p = .ok () := by
      intro p hp
      refine hl'.use (List.mem_append_right _ (hsub p ?_)) (hw' p (hw p ?_)) <;>
      simpa [SpObj.arrays] using hp
    simp only [hs v (by simp), hs c (by simp), hs r (by simp), Outcome.ok_bind, Outcome.pure_eq]
  all_goals
    cases debug
    · exact Or.inr ⟨h', _, _, rfl, hl', hw'⟩
    · exact Or.inl rfl

theorem mmultSerial_ok (debug : Bool) {h : DevHeap} {c a b : ℕ} {oc oa ob : SpObj} {l : List ℕ}
    (hl : HeapHas h (oc.ptrs ++ l)) (hca : c ≠ a) (hcb : c ≠ b)
    (hsa : ∀ p ∈ oa.arrays, p ∈ l) (hsb : ∀ p ∈ ob.arrays, p ∈ l)
    (hwa : ∀ p ∈ oa.arrays, p ∈ h.written) (hwb : ∀ p ∈ ob.arrays, p ∈ h.written) :
    mmultSerial debug h c a b oc oa ob = .aborted ∨
    mmultSerial debug h c a b oc oa ob = .ub "empty matrix" ∨
    ∃ o' h', mmultSerial debug h c a b oc oa ob = .ok (o', h') ∧ HeapHas h' (o'.ptrs ++ l) ∧
      (∀ p ∈ h.written, p ∈ h'.written) ∧ ∀ p ∈ o'.arrays, p ∈ h'.written := by
  have hra : ∀ o, readThrough c o a oa = oa := fun o => if_neg (Ne.symm hca)
  have hrb : ∀ o, readThrough c o b ob = ob := fun o => if_neg (Ne.symm hcb)
  have hl0 : HeapHas h (oc.rowPtr.toList ++ (oc.val.toList ++ (oc.col.toList ++
      (oc.descr.toList ++ l)))) := hl.perm (by unfold SpObj.ptrs; perm_omega)
  obtain ⟨h1, e1, hl1, w1⟩ := hl0.free
  have hl2 := hl1.alloc
  unfold mmultSerial
  rw [e1, Outcome.ok_bind]
  simp only [hra, hrb]
  have hmem : ∀ p ∈ l, p ∈ h1.alloc.1 :: (oc.val.toList ++ (oc.col.toList ++
      (oc.descr.toList ++ l))) := by
    intro p hp
    simp [hp]
  have hpa := usePattern_ok debug hl2 (fun p hp => hmem p (hsa p hp))
    (fun p hp => by
      change p ∈ h1.written
      rw [w1]
      exact hwa p hp)
  have hpb := usePattern_ok debug hl2 (fun p hp => hmem p (hsb p hp))
    (fun p hp => by
      change p ∈ h1.written
      rw [w1]
      exact hwb p hp)
  rcases hpa with hpa | hpa | hpa
  rotate_left
  · rw [hpa]; exact Or.inl rfl
  · rw [hpa]; exact Or.inr (Or.inl rfl)
  rw [hpa, Outcome.ok_bind]
  rcases hpb with hpb | hpb | hpb
  rotate_left
  · rw [hpb]; exact Or.inl rfl
  · rw [hpb]; exact Or.inr (Or.inl rfl)
  rw [hpb, Outcome.ok_bind]
  have hl3 : HeapHas (h1.alloc.2.write h1.alloc.1) (oc.val.toList ++ (oc.col.toList ++
      (([h1.alloc.1] ++ oc.descr.toList) ++ l))) := (hl2.write h1.alloc.1).perm (by
        rw [← List.singleton_append]
        perm_omega)
  obtain ⟨h4, e4, hl4, w4⟩ := hl3.free
  obtain ⟨h5, e5, hl5, w5⟩ := hl4.free
  rw [e4, Outcome.ok_bind, e5, Outcome.ok_bind]
  have hl6 := (hl5.alloc).alloc
  have hmem' : ∀ p ∈ l, p ∈ h5.alloc.2.alloc.1 :: h5.alloc.1 ::
      (([h1.alloc.1] ++ oc.descr.toList) ++ l) := by
    intro p hp
    simp [hp]
  have hw5 : ∀ p ∈ h.written, p ∈ h5.written := by
    intro p hp
    rw [w5, w4]
    refine List.mem_cons_of_mem _ ?_
    change p ∈ h1.written
    rw [w1]
    exact hp
  have hua := useArrays_ok debug hl6 (fun p hp => hmem' p (hsa p hp))
    (fun p hp => hw5 p (hwa p hp))
  have hub := useArrays_ok debug hl6 (fun p hp => hmem' p (hsb p hp))
    (fun p hp => hw5 p (hwb p hp))
  rcases hua with hua | hua | hua
  rotate_left
  · rw [hua]; exact Or.inl rfl
  · rw [hua]; exact Or.inr (Or.inl rfl)
  rw [hua, Outcome.ok_bind]
  rcases hub with hub | hub | hub
  rotate_left
  · rw [hub]; exact Or.inl rfl
  · rw [hub]; exact Or.inr (Or.inl rfl)
  rw [hub, Outcome.ok_bind]
  refine Or.inr (Or.inr ⟨_, _, rfl, ?_, ?_, ?_⟩)
  · refine ((hl6.write h5.alloc.1).write h5.alloc.2.alloc.1).perm ?_
    unfold SpObj.ptrs
    simp only [Option.toList_some]
    rw [← List.singleton_append, ← List.singleton_append (x := h5.alloc.1)]
    perm_omega
  · intro p hp
    exact List.mem_cons_of_mem _ (List.mem_cons_of_mem _ (hw5 p hp))
  · intro p hp
    simp only [SpObj.arrays, Option.toList_some, List.mem_append, List.mem_singleton] at hp
    rcases hp with (rfl | rfl) | rfl
    · simp [DevHeap.write]
    · simp [DevHeap.write]
    · refine List.mem_cons_of_mem _ (List.mem_cons_of_mem _ ?_)
      change _ ∈ h5.written
      rw [w5, w4]
      exact List.mem_cons_self

/-- Membership after replacing an entry. -/
theorem written_set {h h' : DevHeap} {objs : List (Option SpObj)} {i : ℕ} {x : Option SpObj}
    (hw : ∀ o, some o ∈ objs → ∀ p ∈ o.arrays, p ∈ h.written)
    (hsub : ∀ p ∈ h.written, p ∈ h'.written)
    (hx : ∀ o, x = some o → ∀ p ∈ o.arrays, p ∈ h'.written) :
    ∀ o, some o ∈ objs.set i x → ∀ p ∈ o.arrays, p ∈ h'.written := by
  intro o ho p hp
  rcases List.mem_or_eq_of_mem_set ho with ho | ho
  · exact hsub p (hw o ho p hp)
  · exact hx o ho.symm p hp

theorem written_append {h h' : DevHeap} {objs : List (Option SpObj)} {x : Option SpObj}
    (hw : ∀ o, some o ∈ objs → ∀ p ∈ o.arrays, p ∈ h.written)
    (hsub : ∀ p ∈ h.written, p ∈ h'.written)
    (hx : ∀ o, x = some o → ∀ p ∈ o.arrays, p ∈ h'.written) :
    ∀ o, some o ∈ objs ++ [x] → ∀ p ∈ o.arrays, p ∈ h'.written := by
  intro o ho p hp
  rcases List.mem_append.1 ho with ho | ho
  · exact hsub p (hw o ho p hp)
  · exact hx o (List.mem_singleton.1 ho).symm p hp

theorem ownedPtrs_append_one (objs : List (Option SpObj)) (x : Option SpObj) :
    ownedPtrs (objs ++ [x]) = ownedPtrs objs ++ optPtrs x := by
  rw [ownedPtrs_append, ownedPtrs_cons]
  simp [ownedPtrs]

theorem noMemErr_ok {α : Type} (a : α) : ¬ MemoryError (.ok a : Outcome α) := by
  rintro (h | h | h) <;> cases h

theorem noMemErr_aborted {α : Type} : ¬ MemoryError (.aborted : Outcome α) := by
  rintro (h | h | h) <;> cases h

theorem noMemErr_ub {α : Type} (w : String) (h1 : w ≠ "double free") (h2 : w ≠ "use after free")
    (h3 : w ≠ "uninitialised read") : ¬ MemoryError (.ub w : Outcome α) := by
  rintro (h | h | h) <;> injection h with h
  · exact h1 h
  · exact h2 h
  · exact h3 h

/-- No memory error, and the invariant afterwards with `n` more leaked allocations. -/
def StepGood (lk : List ℕ) (n : ℕ) (r : Outcome MemState) : Prop :=
  ¬ MemoryError r ∧ ∀ s', r = .ok s' → ∃ lk', MemInv s' lk' ∧ lk'.length = lk.length + n

/-- One call: no memory error, and the invariant with the stated number of leaks. -/
theorem memStep_ok (debug : Bool) (s : MemState) (lk : List ℕ) (h : MemInv s lk) (c : MemCall)
    (hc : c.NoAlias) :
    StepGood lk (c.leaks s) (memStep debug s c) := by
  -- calls on objects that do not exist
  have hno : ∀ (n i : ℕ) (f : SpObj → Outcome MemState), StepGood lk n (.ub "no such object") →
      (∀ o, s.objs[i]? = some (some o) → StepGood lk n (f o)) → StepGood lk n (s.obj i >>= f) := by
    intro n i f h1 h2
    rcases obj_cases s i with ⟨o, ho⟩ | ho
    · rw [ho, Outcome.ok_bind]
      exact h2 o (obj_ok ho)
    · rw [ho]
      exact h1
  have hnoub : ∀ w : String, w ≠ "double free" → w ≠ "use after free" →
      w ≠ "uninitialised read" → ∀ n, StepGood lk n (.ub w) :=
    fun w h1 h2 h3 n => ⟨noMemErr_ub w h1 h2 h3, fun s' h => by cases h⟩
  have hnoab : ∀ n, StepGood lk n .aborted :=
    fun n => ⟨noMemErr_aborted, fun s' h => by cases h⟩
  have hok : ∀ (s' : MemState) (lk' : List ℕ) (n : ℕ), MemInv s' lk' →
      lk'.length = lk.length + n → StepGood lk n (.ok s') := by
    intro s' lk' n h1 h2
    refine ⟨noMemErr_ok _, ?_⟩
    intro s'' h
    injection h with h
    subst h
    exact ⟨lk', h1, h2⟩
  have hnoobj := hnoub "no such object" (by decide) (by decide) (by decide)
  have hnonnz := hnoub "indeterminate _local_nnz" (by decide) (by decide) (by decide)
  have hempty := hnoub "empty matrix" (by decide) (by decide) (by decide)
  cases c with
  | construct =>
    refine hok _ lk _ ⟨?_, ?_⟩ rfl
    · simp only [ownedPtrs_append_one]
      simpa [optPtrs, SpObj.default, SpObj.ptrs] using h.heap
    · refine written_append h.written (fun p hp => hp) ?_
      rintro o ho p hp
      injection ho with ho
      subst ho
      simp [SpObj.default, SpObj.arrays] at hp
  | convert d =>
    obtain ⟨h1, h2, h3, -⟩ := newArrays_ok d h.heap
    refine hok _ lk _ ⟨?_, ?_⟩ rfl
    · simp only [ownedPtrs_append_one, optPtrs]
      exact h1.perm (by perm_omega)
    · refine written_append h.written h3 ?_
      rintro o ho p hp
      injection ho with ho
      subst ho
      exact h2 p hp
  | copy i =>
    simp only [memStep]
    refine hno _ i _ (hnoobj _) ?_
    intro o ho
    unfold copyObj
    split
    · rcases useArrays_ok debug h.heap (MemInv.sub lk ho) (h.wr ho) with hu | hu | hu
      · rw [hu]
        obtain ⟨h1, h2, h3, -⟩ := newArrays_ok true h.heap
        refine hok _ lk _ ⟨?_, ?_⟩ rfl
        · simp only [ownedPtrs_append_one, optPtrs]
          exact h1.perm (by perm_omega)
        · refine written_append h.written h3 ?_
          rintro o ho p hp
          injection ho with ho
          subst ho
          exact h2 p hp
      · rw [hu]
        exact hnoab _
      · rw [hu]
        exact hempty _
    · exact hnonnz _
  | move i =>
    simp only [memStep]
    refine hno _ i _ (hnoobj _) ?_
    intro o ho
    have hlt : i < s.objs.length := (List.getElem?_eq_some_iff.1 ho).1
    split
    · refine hok _ lk _ ⟨?_, ?_⟩ rfl
      · simp only [ownedPtrs_append_one]
        have h1 := ownedPtrs_get _ _ _ ho
        have h2 := ownedPtrs_set s.objs i (some SpObj.movedFrom) hlt
        refine h.heap.perm ?_
        have h3 : optPtrs (some SpObj.movedFrom) = [] := rfl
        rw [h3, List.nil_append] at h2
        refine ((h1.append_right _).trans ?_).trans (((h2.symm).append_right _).append_right _)
        perm_omega
      · refine written_append (h := s.heap) (written_set h.written (fun p hp => hp) ?_)
          (fun p hp => hp) ?_
        · rintro o' ho' p hp
          injection ho' with ho'
          subst ho'
          simp [SpObj.movedFrom, SpObj.arrays] at hp
        · rintro o' ho' p hp
          injection ho' with ho'
          subst ho'
          exact h.wr ho p hp
    · exact hnonnz _
  | moveAssign i j =>
    simp only [memStep]
    refine hno _ i _ (hnoobj _) ?_
    intro oi hoi
    refine hno _ j _ (hnoobj _) ?_
    intro oj hoj
    have hlti : i < s.objs.length := (List.getElem?_eq_some_iff.1 hoi).1
    have hltj : j < s.objs.length := (List.getElem?_eq_some_iff.1 hoj).1
    split
    · refine hok _ (oi.ptrs ++ lk) _ ⟨?_, ?_⟩ ?_
      · refine h.heap.perm ?_
        have h3 : optPtrs (some SpObj.movedFrom) = [] := rfl
        have h1 := ownedPtrs_get _ _ _ hoi
        by_cases hij : i = j
        · subst hij
          rw [hoi] at hoj
          injection hoj with hoj
          injection hoj with hoj
          subst hoj
          have h2 := ownedPtrs_set s.objs i (some SpObj.movedFrom) hlti
          rw [h3, List.nil_append] at h2
          simp only [List.set_set]
          refine (h1.append_right _).trans ?_
          refine List.Perm.trans ?_ ((h2.symm).append_right _)
          simp only [optPtrs]
          perm_omega
        · have h2 := ownedPtrs_set (s.objs.set i (some oj)) j (some SpObj.movedFrom) (by simpa)
          rw [h3, List.nil_append, List.set_comm (some oj) none hij] at h2
          have h4 := ownedPtrs_set (s.objs.set j none) i (some oj) (by simpa)
          have h5 := ownedPtrs_get (s.objs.set i none) j (some oj)
            (by rw [List.getElem?_set_ne hij, hoj])
          rw [List.set_comm none none hij] at h5
          simp only [optPtrs] at h1 h4 h5
          have h6 := h2.trans h4
          refine (h1.append_right _).trans ?_
          refine List.Perm.trans ?_ ((h6.symm).append_right _)
          refine ((h5.append_left _).append_right _).trans ?_
          perm_omega
      · refine written_set (h := s.heap) (written_set h.written (fun p hp => hp) ?_)
          (fun p hp => hp) ?_
        · rintro o' ho' p hp
          injection ho' with ho'
          subst ho'
          exact h.wr hoj p hp
        · rintro o' ho' p hp
          injection ho' with ho'
          subst ho'
          simp [SpObj.movedFrom, SpObj.arrays] at hp
      · simp only [MemCall.leaks, MemState.holds, hoi, List.length_append]
        omega
    · exact hnonnz _
  | reinit i =>
    simp only [memStep]
    refine hno _ i _ (hnoobj _) ?_
    intro o ho
    have hlt : i < s.objs.length := (List.getElem?_eq_some_iff.1 ho).1
    by_cases ha : Outcome.assert debug (o.val.isNone && o.col.isNone && o.rowPtr.isNone) = .ok ()
    · rw [ha, Outcome.ok_bind]
      obtain ⟨h1, h2, h3, -⟩ := newArrays_ok true h.heap
      refine hok _ (o.ptrs ++ lk) _ ⟨?_, ?_⟩ ?_
      · refine h1.perm ?_
        have h4 := ownedPtrs_get _ _ _ ho
        have h5 := ownedPtrs_set s.objs i (some (newArrays true s.heap).1) hlt
        refine ((h4.append_right _).append_left _).trans ?_
        refine List.Perm.trans ?_ ((h5.symm).append_right _)
        simp only [optPtrs]
        perm_omega
      · refine written_set h.written h3 ?_
        rintro o' ho' p hp
        injection ho' with ho'
        subst ho'
        exact h2 p hp
      · simp only [MemCall.leaks, MemState.holds, ho, List.length_append]
        omega
    · have : Outcome.assert debug (o.val.isNone && o.col.isNone && o.rowPtr.isNone) = .aborted := by
        unfold Outcome.assert at ha ⊢
        split at ha
        · rename_i h'
          rw [if_pos h']
        · exact absurd rfl ha
      rw [this]
      exact hnoab _
  | destroy i =>
    simp only [memStep]
    refine hno _ i _ (hnoobj _) ?_
    intro o ho
    have h1 := ownedPtrs_get _ _ _ ho
    obtain ⟨h', e, hl', w⟩ := destroyObj_ok (h := s.heap) (o := o)
      (l := ownedPtrs (s.objs.set i none) ++ lk)
      (h.heap.perm (by
        refine (h1.append_right _).trans ?_
        simp only [optPtrs]
        perm_omega))
    rw [e, Outcome.ok_bind]
    refine hok _ lk _ ⟨hl', ?_⟩ rfl
    refine written_set h.written (fun p hp => by rw [w]; exact hp) ?_
    rintro o' ho'
    cases ho'
  | vmult i =>
    simp only [memStep]
    refine hno _ i _ (hnoobj _) ?_
    intro o ho
    rcases vmultMem_ok debug h.heap (MemInv.sub lk ho) (h.wr ho) with hv | ⟨h', a, b, hv, hl', hw⟩
    · rw [hv]
      exact hnoab _
    · rw [hv, Outcome.ok_bind]
      refine hok _ ([a, b] ++ lk) _ ⟨hl'.perm (by perm_omega), ?_⟩ ?_
      · intro o' ho' p hp
        exact hw p (h.written o' ho' p hp)
      · simp only [MemCall.leaks, List.length_append, List.length_cons, List.length_nil]
        omega
  | mmult serial c a b =>
    simp only [memStep]
    refine hno _ c _ (hnoobj _) ?_
    intro oc hoc
    refine hno _ a _ (hnoobj _) ?_
    intro oa hoa
    refine hno _ b _ (hnoobj _) ?_
    intro ob hob
    have hltc : c < s.objs.length := (List.getElem?_eq_some_iff.1 hoc).1
    have h1 := ownedPtrs_get _ _ _ hoc
    simp only [optPtrs] at h1
    cases serial with
    | true =>
      simp only [if_true]
      obtain ⟨hca, hcb⟩ : c ≠ a ∧ c ≠ b := hc
      have hsub : ∀ (k : ℕ) (o : SpObj), c ≠ k → s.objs[k]? = some (some o) →
          ∀ p ∈ o.arrays, p ∈ ownedPtrs (s.objs.set c none) ++ lk := by
        intro k o hk ho p hp
        refine List.mem_append_left _ ?_
        have := ownedPtrs_get (s.objs.set c none) k (some o)
          (by rw [List.getElem?_set_ne hk, ho])
        refine this.mem_iff.2 (List.mem_append_left _ ?_)
        simp only [optPtrs, SpObj.ptrs_eq]
        exact List.mem_append_left _ hp
      rcases mmultSerial_ok debug (h := s.heap) (oc := oc) (oa := oa) (ob := ob)
        (l := ownedPtrs (s.objs.set c none) ++ lk)
        (h.heap.perm ((h1.append_right _).trans (by perm_omega))) hca hcb
        (hsub a oa hca hoa) (hsub b ob hcb hob) (h.wr hoa) (h.wr hob)
        with hm | hm | ⟨o', h', hm, hl', hw, hwo⟩
      · rw [hm]
        exact hnoab _
      · rw [hm]
        exact hempty _
      · rw [hm, Outcome.ok_bind]
        refine hok _ lk _ ⟨hl'.perm ?_, ?_⟩ rfl
        · have h5 := ownedPtrs_set s.objs c (some o') hltc
          refine List.Perm.trans ?_ ((h5.symm).append_right _)
          simp only [optPtrs]
          perm_omega
        · refine written_set h.written hw ?_
          rintro o ho p hp
          injection ho with ho
          subst ho
          exact hwo p hp
    | false =>
      simp only [Bool.false_eq_true, if_false]
      unfold mmultParallel
      rcases useArrays_ok debug h.heap (MemInv.sub lk hoa) (h.wr hoa) with hu | hu | hu
      rotate_left
      · rw [hu]; exact hnoab _
      · rw [hu]; exact hempty _
      rw [hu, Outcome.ok_bind]
      rcases useArrays_ok debug h.heap (MemInv.sub lk hob) (h.wr hob) with hu | hu | hu
      rotate_left
      · rw [hu]; exact hnoab _
      · rw [hu]; exact hempty _
      rw [hu, Outcome.ok_bind]
      obtain ⟨h4, h2, h3, -, -, -, hd⟩ := newArrays_ok false h.heap
      refine hok _ (oc.arrays ++ lk) _ ⟨h4.perm ?_, ?_⟩ ?_
      · have h5 := ownedPtrs_set s.objs c
          (some { (newArrays false s.heap).1 with descr := oc.descr }) hltc
        refine ((h1.append_right _).append_left _).trans ?_
        refine List.Perm.trans ?_ ((h5.symm).append_right _)
        have e1 : (newArrays false s.heap).1.ptrs = (newArrays false s.heap).1.arrays := by
          rw [SpObj.ptrs_eq, hd rfl]
          simp
        have e2 : optPtrs (some { (newArrays false s.heap).1 with descr := oc.descr })
            = (newArrays false s.heap).1.arrays ++ oc.descr.toList := rfl
        rw [e1, e2, SpObj.ptrs_eq]
        perm_omega
      · refine written_set h.written h3 ?_
        rintro o ho p hp
        injection ho with ho
        subst ho
        exact h2 p hp
      · simp only [MemCall.leaks, MemState.holdsArrays, hoc, SpObj.arrays, List.length_append]
        omega

theorem memRun_ok (debug : Bool) (cs : List MemCall) (hcs : ∀ c ∈ cs, c.NoAlias) (s : MemState)
    (lk : List ℕ) (h : MemInv s lk) :
    StepGood lk (leaksAlong debug s cs) (memRun debug s cs) := by
  induction cs generalizing s lk with
  | nil =>
    refine ⟨noMemErr_ok _, ?_⟩
    intro s' hs
    injection hs with hs
    subst hs
    exact ⟨lk, h, rfl⟩
  | cons c cs ih =>
    obtain ⟨h1, h2⟩ := memStep_ok debug s lk h c (hcs c List.mem_cons_self)
    simp only [memRun, leaksAlong]
    cases hst : memStep debug s c with
    | ok s' =>
      obtain ⟨lk', h3, h4⟩ := h2 s' hst
      obtain ⟨h5, h6⟩ := ih (fun d hd => hcs d (List.mem_cons_of_mem _ hd)) s' lk' h3
      refine ⟨h5, ?_⟩
      intro s'' hs
      obtain ⟨lk'', h7, h8⟩ := h6 s'' hs
      exact ⟨lk'', h7, by simp only []; rw [h8, h4]; omega⟩
    | throws m =>
      refine ⟨?_, fun s' h => by cases h⟩
      rintro (h | h | h) <;> cases h
    | aborted => exact ⟨noMemErr_aborted, fun s' h => by cases h⟩
    | ub w =>
      rw [hst] at h1
      refine ⟨?_, fun s' h => by cases h⟩
      rintro (h | h | h) <;> injection h with h <;> subst h
      · exact h1 (Or.inl rfl)
      · exact h1 (Or.inr (Or.inl rfl))
      · exact h1 (Or.inr (Or.inr rfl))

/-- **C47, safety.** No history of constructions, conversions, copies, moves, assignments,
reinitialisations, products and destructions, in debug or release builds, frees an allocation twice,
uses one that has been freed, or reads one that was never written; the one exception is a product into
one of its own factors (`C47_alias_violated`). -/
theorem C47_safe (debug : Bool) (cs : List MemCall) (hcs : ∀ c ∈ cs, c.NoAlias) :
    ¬ MemoryError (memRun debug MemState.init cs) :=
  (memRun_ok debug cs hcs _ _ MemInv.init).1

/-- Conversions, copies, moves, products, an assignment and destructions. -/
def exMemHistory : List MemCall :=
  [.convert true, .construct, .reinit 1, .copy 0, .mmult true 2 0 1, .vmult 2, .move 2,
    .moveAssign 0 3, .mmult false 1 0 0, .destroy 0, .destroy 1, .destroy 2, .destroy 3]

theorem exMemHistory_noAlias : ∀ c ∈ exMemHistory, c.NoAlias := by
  simp [exMemHistory, MemCall.NoAlias]

example : (∃ s, memRun true MemState.init exMemHistory = .ok s) ∧
    ¬ MemoryError (memRun true MemState.init exMemHistory) :=
  ⟨⟨_, rfl⟩, C47_safe true exMemHistory exMemHistory_noAlias⟩

/-- C47, exact count: after every history the allocations not yet freed are those the existing objects
hold, each by exactly one of them, and the leaks of the calls made. -/
theorem C47_exact (debug : Bool) (cs : List MemCall) (hcs : ∀ c ∈ cs, c.NoAlias) (s : MemState)
    (h : memRun debug MemState.init cs = .ok s) :
    (ownedPtrs s.objs).Nodup ∧ (∀ p ∈ ownedPtrs s.objs, p ∈ s.heap.live) ∧
    s.heap.live.length = (ownedPtrs s.objs).length + leaksAlong debug MemState.init cs := by
  obtain ⟨lk, h1, h2⟩ := (memRun_ok debug cs hcs _ _ MemInv.init).2 s h
  have hn : (ownedPtrs s.objs ++ lk).Nodup := h1.heap.1.nodup_iff.1 h1.heap.2.1
  refine ⟨(List.nodup_append.1 hn).1, ?_, ?_⟩
  · intro p hp
    exact h1.heap.1.mem_iff.2 (List.mem_append_left _ hp)
  · rw [h1.heap.1.length_eq, List.length_append, h2]
    simp

/-- In the example all objects are destroyed, and nine allocations are left: two of the product, the
four of the overwritten matrix, the three arrays of the target of the parallel product. -/
example : ∃ s, memRun true MemState.init exMemHistory = .ok s ∧ ownedPtrs s.objs = [] ∧
    s.heap.live.length = 0 + 9 := by
  obtain ⟨s, hs⟩ : ∃ s, memRun true MemState.init exMemHistory = .ok s := ⟨_, rfl⟩
  have h := C47_exact true exMemHistory exMemHistory_noAlias s hs
  have h0 : ownedPtrs s.objs = [] := by
    have : (match memRun true MemState.init exMemHistory with
      | .ok s => ownedPtrs s.objs
      | _ => [0]) = [] := by decide +kernel
    rwa [hs] at this
  have hl : leaksAlong true MemState.init exMemHistory = 9 := by decide +kernel
  refine ⟨s, hs, h0, ?_⟩
  rw [h.2.2, h0, hl]
  rfl

theorem leaksAlong_clean (debug : Bool) (cs : List MemCall) (hcs : ∀ c ∈ cs, c.Clean)
    (s : MemState) : leaksAlong debug s cs = 0 := by
  induction cs generalizing s with
  | nil => rfl
  | cons c cs ih =>
    have h0 : c.leaks s = 0 := by
      have := hcs c List.mem_cons_self
      cases c with
      | mmult serial c a b => cases serial <;> simp_all [MemCall.Clean, MemCall.leaks]
      | _ => simp_all [MemCall.Clean, MemCall.leaks]
    simp only [leaksAlong, h0]
    split
    · rw [ih (fun d hd => hcs d (List.mem_cons_of_mem _ hd))]
    · rfl

/-- **C47.** (Partial: histories of the calls that do not leak.)  When all objects have been destroyed,
every allocation has been freed, once. -/
theorem C47_released_partial (debug : Bool) (cs : List MemCall) (hcs : ∀ c ∈ cs, c.NoAlias)
    (hclean : ∀ c ∈ cs, c.Clean) (s : MemState) (h : memRun debug MemState.init cs = .ok s)
    (hall : ∀ o ∈ s.objs, o = none) : s.heap.live = [] := by
  obtain ⟨-, -, h3⟩ := C47_exact debug cs hcs s h
  rw [leaksAlong_clean debug cs hclean] at h3
  have : ownedPtrs s.objs = [] := by
    unfold ownedPtrs
    rw [List.flatMap_eq_nil_iff]
    intro o ho
    rw [hall o ho]
  rw [this] at h3
  exact List.eq_nil_of_length_eq_zero (by simpa using h3)

example : ∃ s, memRun false MemState.init
      [.convert true, .copy 0, .mmult true 1 0 0, .move 1, .destroy 0, .destroy 1, .destroy 2] = .ok s ∧
    s.heap.live = [] :=
  ⟨_, rfl, C47_released_partial false
    [.convert true, .copy 0, .mmult true 1 0 0, .move 1, .destroy 0, .destroy 1, .destroy 2]
    (by simp [MemCall.NoAlias]) (by simp [MemCall.Clean]) _ rfl (by decide +kernel)⟩

/-- C47 is false: `n` products with any matrix, in any history, leave `2 n` allocations that can never
be freed: they are still there when all objects have been destroyed. -/
theorem C47_vmult_violated (debug : Bool) (cs cs' : List MemCall) (hcs : ∀ c ∈ cs, c.NoAlias)
    (hcs' : ∀ c ∈ cs', c.NoAlias) (i n : ℕ) (s : MemState)
    (h : memRun debug MemState.init (cs ++ List.replicate n (.vmult i) ++ cs') = .ok s) :
    2 * n + (ownedPtrs s.objs).length ≤ s.heap.live.length := by
  have hna : ∀ c ∈ cs ++ List.replicate n (MemCall.vmult i) ++ cs', c.NoAlias := by
    intro c hc
    rcases List.mem_append.1 hc with hc | hc
    · rcases List.mem_append.1 hc with hc | hc
      · exact hcs c hc
      · rw [List.eq_of_mem_replicate hc]
        trivial
    · exact hcs' c hc
  obtain ⟨-, -, h3⟩ := C47_exact debug _ hna s h
  rw [h3]
  have happ : ∀ (l l' : List MemCall) (s s' : MemState), memRun debug s (l ++ l') = .ok s' →
      ∃ s1, memRun debug s l = .ok s1 ∧ memRun debug s1 l' = .ok s' ∧
        leaksAlong debug s (l ++ l') = leaksAlong debug s l + leaksAlong debug s1 l' := by
    intro l
    induction l with
    | nil =>
      intro l' s s' h
      exact ⟨s, rfl, h, by simp [leaksAlong]⟩
    | cons c l ih =>
      intro l' s s' h
      simp only [List.cons_append, memRun] at h
      obtain ⟨s2, h1, h2⟩ := Outcome.bind_eq_ok.1 h
      obtain ⟨s1, h4, h5, h6⟩ := ih l' s2 s' h2
      refine ⟨s1, ?_, h5, ?_⟩
      · simp only [memRun, h1, Outcome.ok_bind, h4]
      · simp only [List.cons_append, leaksAlong, h1, h6]
        exact (Nat.add_assoc _ _ _).symm
  have hrep : ∀ (n : ℕ) (s s' : MemState),
      memRun debug s (List.replicate n (.vmult i)) = .ok s' →
      leaksAlong debug s (List.replicate n (.vmult i)) = 2 * n := by
    intro n
    induction n with
    | zero => intro s s' _; rfl
    | succ n ih =>
      intro s s' h
      rw [List.replicate_succ] at h ⊢
      simp only [memRun] at h
      obtain ⟨s2, h1, h2⟩ := Outcome.bind_eq_ok.1 h
      simp only [leaksAlong, h1, ih s2 s' h2, MemCall.leaks]
      rw [Nat.mul_succ, Nat.add_comm]
  obtain ⟨s1, h4, -, h6⟩ := happ _ _ _ _ h
  obtain ⟨s2, h7, h8, h9⟩ := happ _ _ _ _ h4
  rw [h6, h9, hrep n s2 s1 h8]
  omega

example : ∃ s, memRun true MemState.init
      ([.convert true] ++ List.replicate 3 (.vmult 0) ++ [.destroy 0]) = .ok s ∧
    2 * 3 + (ownedPtrs s.objs).length ≤ s.heap.live.length :=
  ⟨_, rfl, C47_vmult_violated true [.convert true] [.destroy 0] (by simp [MemCall.NoAlias])
    (by simp [MemCall.NoAlias]) 0 3 _ rfl⟩

/-- C47 is false: assigning a matrix to one that is not empty leaks what the target held.  Whatever
happened before, and whatever happens later, at least that many allocations are never freed. -/
theorem C47_assign_violated (debug : Bool) (cs : List MemCall) (hcs : ∀ c ∈ cs, c.NoAlias)
    (i j : ℕ) (s s' : MemState) (h : memRun debug MemState.init cs = .ok s)
    (h' : memStep debug s (.moveAssign i j) = .ok s') :
    s'.heap.live.length = (ownedPtrs s'.objs).length + (leaksAlong debug MemState.init cs + s.holds i)
    := by
  obtain ⟨lk, h1, h2⟩ := (memRun_ok debug cs hcs _ _ MemInv.init).2 s h
  obtain ⟨lk', h3, h4⟩ := (memStep_ok debug s lk h1 (.moveAssign i j) trivial).2 s' h'
  rw [h3.heap.1.length_eq, List.length_append, h4, h2]
  simp [MemCall.leaks]

example : ∃ s s', memRun true MemState.init [.convert true, .convert true] = .ok s ∧
    memStep true s (.moveAssign 0 1) = .ok s' ∧
    s'.heap.live.length = (ownedPtrs s'.objs).length + (0 + 4) :=
  ⟨_, _, rfl, rfl, C47_assign_violated true [.convert true, .convert true]
    (by simp [MemCall.NoAlias]) 0 1 _ _ rfl rfl⟩

/-- C47 is false for a product into one of the factors on one process: whatever the matrices (here any
three objects of which the target is the first factor), the factor's row pointers are replaced by
uninitialised memory before they are read. -/
theorem C47_alias_violated (debug : Bool) (cs : List MemCall) (hcs : ∀ c ∈ cs, c.NoAlias)
    (s : MemState) (h : memRun debug MemState.init cs = .ok s) (a b : ℕ) (oa ob : SpObj)
    (ha : s.objs[a]? = some (some oa)) (hb : s.objs[b]? = some (some ob))
    (hcol : oa.col.isSome = true) :
    memStep debug s (.mmult true a a b) = .ub "uninitialised read" := by
  obtain ⟨lk, h1, -⟩ := (memRun_ok debug cs hcs _ _ MemInv.init).2 s h
  obtain ⟨v, hv⟩ := Option.isSome_iff_exists.1 hcol
  have hp := ownedPtrs_get _ _ _ ha
  have hl0 : HeapHas s.heap (oa.rowPtr.toList ++ (oa.val.toList ++ (oa.col.toList ++
      (oa.descr.toList ++ (ownedPtrs (s.objs.set a none) ++ lk))))) :=
    h1.heap.perm ((hp.append_right _).trans (by
      simp only [optPtrs]
      unfold SpObj.ptrs
      perm_omega))
  obtain ⟨h2, e2, hl2, w2⟩ := hl0.free
  have hobj : ∀ k o, s.objs[k]? = some (some o) → s.obj k = .ok o := by
    intro k o hk
    unfold MemState.obj
    rw [hk]
  simp only [memStep, hobj a oa ha, hobj b ob hb, Outcome.ok_bind, if_true, mmultSerial, e2,
    readThrough, usePattern, hv]
  have huse : h2.alloc.2.use v = .ok () := by
    refine (hl2.alloc).use ?_ ?_
    · simp [hv]
    · change v ∈ h2.written
      rw [w2]
      exact h1.wr ha v (by simp [SpObj.arrays, hv])
  have huse' : h2.alloc.2.use h2.alloc.1 = .ub "uninitialised read" := by
    have hl : h2.alloc.1 ∈ h2.alloc.2.live := List.mem_cons_self
    have hw : h2.alloc.1 ∉ h2.alloc.2.written := by
      change h2.next ∉ h2.written
      intro hm
      have := hl2.2.2.2 _ hm
      omega
    simp [DevHeap.use, hl, hw]
  rw [huse, Outcome.ok_bind, huse']
  rfl

example : ∃ s, memRun true MemState.init [.convert true, .convert true] = .ok s ∧
    memStep true s (.mmult true 0 0 1) = .ub "uninitialised read" :=
  ⟨_, rfl, C47_alias_violated true [.convert true, .convert true] (by simp [MemCall.NoAlias]) _ rfl
    0 1 _ _ rfl rfl rfl⟩

end Mfmg
