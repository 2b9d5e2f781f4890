import Verif.Props.DeviceMemory

/-!
# C47: the number of entries of a matrix on the device is never read before it is set
-/

set_option autoImplicit false

namespace Mfmg

/-- A call that does not read a number of entries that was never set, and leaves only objects whose
number of entries is set. -/
def CountsGood (x : Outcome MemState) : Prop :=
  x ≠ .ub "indeterminate _local_nnz" ∧ ∀ s, x = .ok s → ∀ o, some o ∈ s.objs → o.nnz = true

theorem countsGood_bind {α : Type} {x : Outcome α} {f : α → Outcome MemState}
    (hx : x ≠ .ub "indeterminate _local_nnz") (hf : ∀ a, x = .ok a → CountsGood (f a)) :
    CountsGood (x >>= f) := by
  cases x with
  | ok a => exact hf a rfl
  | throws m => exact ⟨(by intro h; cases h), (by intro s h; cases h)⟩
  | aborted => exact ⟨(by intro h; cases h), (by intro s h; cases h)⟩
  | ub w =>
    refine ⟨?_, by intro s h; cases h⟩
    intro h
    exact hx (by cases h; rfl)

theorem counted_bind {α β : Type} {x : Outcome α} {f : α → Outcome β}
    (hx : x ≠ .ub "indeterminate _local_nnz")
    (hf : ∀ a, x = .ok a → f a ≠ .ub "indeterminate _local_nnz") :
    (x >>= f) ≠ .ub "indeterminate _local_nnz" := by
  cases x with
  | ok a => exact hf a rfl
  | throws m => intro h; cases h
  | aborted => intro h; cases h
  | ub w =>
    intro h
    exact hx (by cases h; rfl)

theorem free_counted (h : DevHeap) (p : Option ℕ) : h.free p ≠ .ub "indeterminate _local_nnz" := by
  cases p with
  | none => simp [DevHeap.free]
  | some p =>
    simp only [DevHeap.free]
    split_ifs <;> simp

theorem use_counted (h : DevHeap) (p : ℕ) : h.use p ≠ .ub "indeterminate _local_nnz" := by
  unfold DevHeap.use
  split_ifs <;> simp

theorem useArrays_counted (debug : Bool) (h : DevHeap) (o : SpObj) :
    useArrays debug h o ≠ .ub "indeterminate _local_nnz" := by
  unfold useArrays
  split
  · exact counted_bind (use_counted _ _) fun _ _ => counted_bind (use_counted _ _) fun _ _ =>
      use_counted _ _
  · split_ifs <;> simp

theorem usePattern_counted (debug : Bool) (h : DevHeap) (o : SpObj) :
    usePattern debug h o ≠ .ub "indeterminate _local_nnz" := by
  unfold usePattern
  split
  · exact counted_bind (use_counted _ _) fun _ _ => use_counted _ _
  · split_ifs <;> simp

theorem destroyObj_counted (h : DevHeap) (o : SpObj) :
    destroyObj h o ≠ .ub "indeterminate _local_nnz" :=
  counted_bind (free_counted _ _) fun _ _ => counted_bind (free_counted _ _) fun _ _ =>
    counted_bind (free_counted _ _) fun _ _ => free_counted _ _

theorem vmultMem_counted (debug : Bool) (h : DevHeap) (o : SpObj) :
    vmultMem debug h o ≠ .ub "indeterminate _local_nnz" := by
  unfold vmultMem
  refine counted_bind (free_counted _ _) fun _ _ => ?_
  split
  · exact counted_bind (use_counted _ _) fun _ _ => counted_bind (use_counted _ _) fun _ _ =>
      counted_bind (use_counted _ _) fun _ _ => by simp [Outcome.pure_eq]
  · split_ifs <;> simp [Outcome.pure_eq]

theorem newArrays_counted (descr : Bool) (h : DevHeap) : (newArrays descr h).1.nnz = true := by
  cases descr <;> rfl

theorem counts_append {objs : List (Option SpObj)} {o : SpObj}
    (h : ∀ o, some o ∈ objs → o.nnz = true) (ho : o.nnz = true) :
    ∀ o', some o' ∈ objs ++ [some o] → o'.nnz = true := by
  intro o' ho'
  rcases List.mem_append.1 ho' with h1 | h1
  · exact h o' h1
  · simp only [List.mem_singleton, Option.some.injEq] at h1
    rw [h1]; exact ho

theorem counts_set {objs : List (Option SpObj)} {o : Option SpObj} (i : ℕ)
    (h : ∀ o, some o ∈ objs → o.nnz = true) (ho : ∀ o', o = some o' → o'.nnz = true) :
    ∀ o', some o' ∈ objs.set i o → o'.nnz = true := by
  intro o' ho'
  rcases List.mem_or_eq_of_mem_set ho' with h1 | h1
  · exact h o' h1
  · exact ho o' h1.symm

theorem counts_ok {s : MemState} (h : ∀ o, some o ∈ s.objs → o.nnz = true) :
    CountsGood (.ok s) :=
  ⟨by simp, by intro s' h'; cases h'; exact h⟩

theorem obj_counted (s : MemState) (i : ℕ) : s.obj i ≠ .ub "indeterminate _local_nnz" := by
  unfold MemState.obj
  split <;> simp

theorem obj_mem {s : MemState} {i : ℕ} {o : SpObj} (h : s.obj i = .ok o) : some o ∈ s.objs :=
  List.mem_of_getElem? (obj_ok h)

theorem mmultSerial_counted (debug : Bool) (h : DevHeap) (c a b : ℕ) (oc oa ob : SpObj) :
    mmultSerial debug h c a b oc oa ob ≠ .ub "indeterminate _local_nnz" ∧
    ∀ r, mmultSerial debug h c a b oc oa ob = .ok r → r.1.nnz = true := by
  unfold mmultSerial
  constructor
  · refine counted_bind (free_counted _ _) fun _ _ => ?_
    refine counted_bind (usePattern_counted _ _ _) fun _ _ => ?_
    refine counted_bind (usePattern_counted _ _ _) fun _ _ => ?_
    refine counted_bind (free_counted _ _) fun _ _ => ?_
    refine counted_bind (free_counted _ _) fun _ _ => ?_
    refine counted_bind (useArrays_counted _ _ _) fun _ _ => ?_
    refine counted_bind (useArrays_counted _ _ _) fun _ _ => ?_
    simp [Outcome.pure_eq]
  · intro r hr
    simp only [Outcome.bind_eq_ok] at hr
    obtain ⟨_, -, _, -, _, -, _, -, _, -, _, -, _, -, h8⟩ := hr
    cases h8
    rfl

theorem mmultParallel_counted (debug : Bool) (h : DevHeap) (oc oa ob : SpObj) :
    mmultParallel debug h oc oa ob ≠ .ub "indeterminate _local_nnz" ∧
    ∀ r, mmultParallel debug h oc oa ob = .ok r → r.1.nnz = true := by
  unfold mmultParallel
  constructor
  · refine counted_bind (useArrays_counted _ _ _) fun _ _ => ?_
    refine counted_bind (useArrays_counted _ _ _) fun _ _ => ?_
    simp [Outcome.pure_eq]
  · intro r hr
    simp only [Outcome.bind_eq_ok] at hr
    obtain ⟨_, -, _, -, h8⟩ := hr
    cases h8
    rfl

theorem memStep_counted (debug : Bool) (s : MemState) (h : ∀ o, some o ∈ s.objs → o.nnz = true)
    (c : MemCall) (hc : c ≠ .construct) : CountsGood (memStep debug s c) := by
  have hm : ∀ o', (some SpObj.movedFrom : Option SpObj) = some o' → o'.nnz = true := by
    intro o' h'; cases h'; rfl
  cases c with
  | construct => exact absurd rfl hc
  | convert d => exact counts_ok (counts_append h (newArrays_counted _ _))
  | copy i =>
    refine countsGood_bind (obj_counted s i) fun o ho => ?_
    have hn := h o (obj_mem ho)
    have he : copyObj debug s.heap o =
        (useArrays debug s.heap o >>= fun _ => pure (newArrays true s.heap)) := by
      simp [copyObj, hn]
    rw [he]
    refine countsGood_bind (counted_bind (useArrays_counted _ _ _) fun _ _ => by
      simp [Outcome.pure_eq]) fun r hr => ?_
    rw [Outcome.bind_eq_ok] at hr
    obtain ⟨_, -, h2⟩ := hr
    cases h2
    exact counts_ok (counts_append h (newArrays_counted _ _))
  | move i =>
    refine countsGood_bind (obj_counted s i) fun o ho => ?_
    have hn := h o (obj_mem ho)
    rw [if_pos hn]
    exact counts_ok (counts_append (counts_set i h hm) hn)
  | moveAssign i j =>
    refine countsGood_bind (obj_counted s i) fun _ _ => ?_
    refine countsGood_bind (obj_counted s j) fun o ho => ?_
    have hn := h o (obj_mem ho)
    rw [if_pos hn]
    exact counts_ok (counts_set j (counts_set i h (by intro o' h'; cases h'; exact hn)) hm)
  | reinit i =>
    refine countsGood_bind (obj_counted s i) fun _ _ => ?_
    refine countsGood_bind (by cases debug <;> simp [Outcome.assert]; split_ifs <;> simp) fun _ _ => ?_
    exact counts_ok (counts_set i h (by intro o' h'; cases h'; exact newArrays_counted _ _))
  | destroy i =>
    refine countsGood_bind (obj_counted s i) fun _ _ => ?_
    refine countsGood_bind (destroyObj_counted _ _) fun _ _ => ?_
    exact counts_ok (counts_set i h (by intro o' h'; cases h'))
  | vmult i =>
    refine countsGood_bind (obj_counted s i) fun _ _ => ?_
    refine countsGood_bind (vmultMem_counted _ _ _) fun _ _ => ?_
    exact counts_ok h
  | mmult serial c a b =>
    refine countsGood_bind (obj_counted s c) fun oc _ => ?_
    refine countsGood_bind (obj_counted s a) fun oa _ => ?_
    refine countsGood_bind (obj_counted s b) fun ob _ => ?_
    cases serial with
    | true =>
      refine countsGood_bind (mmultSerial_counted debug s.heap c a b oc oa ob).1 fun r hr => ?_
      exact counts_ok (counts_set c h (by
        intro o' h'; cases h'; exact (mmultSerial_counted debug s.heap c a b oc oa ob).2 r hr))
    | false =>
      refine countsGood_bind (mmultParallel_counted debug s.heap oc oa ob).1 fun r hr => ?_
      exact counts_ok (counts_set c h (by
        intro o' h'; cases h'; exact (mmultParallel_counted debug s.heap oc oa ob).2 r hr))

theorem memRun_counted (debug : Bool) : ∀ (cs : List MemCall) (s : MemState),
    (∀ o, some o ∈ s.objs → o.nnz = true) → (∀ c ∈ cs, c ≠ .construct) →
    CountsGood (memRun debug s cs)
  | [], _, h, _ => counts_ok h
  | c :: cs, s, h, hcs => by
    have h1 := memStep_counted debug s h c (hcs c (by simp))
    refine countsGood_bind h1.1 fun s' hs' => ?_
    exact memRun_counted debug cs s' (h1.2 s' hs') fun d hd => hcs d (by simp [hd])

/-- **C47, numbers of entries.**  (Partial: without the default constructor, see
`C47_default_violated`.)  In a program that makes its matrices by conversion, copying, moving
and multiplication, no call ever reads a number of entries that was not set: a matrix that has been
moved from may be moved from, assigned from and destroyed again, as often as wanted. -/
theorem C47_counts_partial (debug : Bool) (cs : List MemCall) (hcs : ∀ c ∈ cs, c ≠ .construct) :
    memRun debug MemState.init cs ≠ .ub "indeterminate _local_nnz" :=
  (memRun_counted debug cs _ (by simp [MemState.init]) hcs).1

/-- A matrix that has been moved from is moved from twice more. -/
example : (∃ s, memRun true MemState.init [.convert true, .move 0, .move 0, .moveAssign 1 0,
      .destroy 0] = .ok s) ∧
    memRun true MemState.init [.convert true, .move 0, .move 0, .moveAssign 1 0, .destroy 0] ≠
      .ub "indeterminate _local_nnz" :=
  ⟨⟨_, rfl⟩, C47_counts_partial true _ (by simp)⟩

/-- Moving a matrix never prevents moving the object it was moved from once more, in any history. -/
theorem C47_moved_again (debug : Bool) (s s' : MemState) (i : ℕ)
    (h : memStep debug s (.move i) = .ok s') :
    (∃ s'', memStep debug s' (.move i) = .ok s'' ∧ s''.heap = s.heap) ∧
    (∃ s'', memStep debug s' (.destroy i) = .ok s'' ∧ s''.heap = s.heap) := by
  simp only [memStep, Outcome.bind_eq_ok] at h
  obtain ⟨o, ho, h⟩ := h
  split_ifs at h with hn
  cases h
  have hi : i < s.objs.length := by
    have := obj_ok ho
    exact (List.getElem?_eq_some_iff.1 this).1
  have hobj : MemState.obj { s with objs := s.objs.set i (some SpObj.movedFrom) ++ [some o] } i =
      .ok SpObj.movedFrom := by
    simp [MemState.obj, List.getElem?_append, hi]
  constructor
  · simp only [memStep]
    rw [hobj, Outcome.ok_bind, if_pos (show SpObj.movedFrom.nnz = true from rfl)]
    exact ⟨_, rfl, rfl⟩
  · simp only [memStep]
    rw [hobj, Outcome.ok_bind]
    exact ⟨_, rfl, rfl⟩

example : ∃ s s', memRun true MemState.init [.convert true, .copy 0] = .ok s ∧
    memStep true s (.move 1) = .ok s' ∧ ∃ s'', memStep true s' (.destroy 1) = .ok s'' ∧
      s''.heap = s.heap :=
  ⟨_, _, rfl, rfl, (C47_moved_again true _ _ 1 rfl).2⟩

/-- C47 is false for a matrix made by the default constructor: whatever happened before, copying it,
moving it or assigning it reads a number of entries that was never set. -/
theorem C47_default_violated (debug : Bool) (s : MemState) :
    ∃ s', memStep debug s .construct = .ok s' ∧
      memStep debug s' (.copy s.objs.length) = .ub "indeterminate _local_nnz" ∧
      memStep debug s' (.move s.objs.length) = .ub "indeterminate _local_nnz" ∧
      ∀ i o, s.objs[i]? = some (some o) →
        memStep debug s' (.moveAssign i s.objs.length) = .ub "indeterminate _local_nnz" := by
  refine ⟨_, rfl, ?_⟩
  have hobj : MemState.obj { s with objs := s.objs ++ [some SpObj.default] } s.objs.length =
      .ok SpObj.default := by
    simp [MemState.obj]
  refine ⟨?_, ?_, ?_⟩
  · simp only [memStep]
    rw [hobj, Outcome.ok_bind]
    rfl
  · simp only [memStep]
    rw [hobj, Outcome.ok_bind]
    rfl
  · intro i o hi
    have hlt : i < s.objs.length := (List.getElem?_eq_some_iff.1 hi).1
    have hobj' : MemState.obj { s with objs := s.objs ++ [some SpObj.default] } i = .ok o := by
      simp only [MemState.obj, List.getElem?_append, hlt, if_true, hi]
    simp only [memStep]
    rw [hobj', Outcome.ok_bind, hobj, Outcome.ok_bind]
    rfl

example : ∃ s s', memRun true MemState.init [.convert true] = .ok s ∧
    memStep true s .construct = .ok s' ∧
    memStep true s' (.moveAssign 0 1) = .ub "indeterminate _local_nnz" := by
  obtain ⟨s', h1, _, _, h4⟩ := C47_default_violated true
    { heap := (newArrays true MemState.init.heap).2,
      objs := [some (newArrays true MemState.init.heap).1] }
  exact ⟨_, s', rfl, h1, h4 0 _ rfl⟩

end Mfmg
