import Verif.Spec.CrashPoints

/-!
# Lemmas for C99
-/

set_option autoImplicit false

namespace Mfmg

variable {α β : Type}

/-- The heaps in which each of the calls throws, the result and the last heap. -/
def Crashy.Runs (m : Crashy α) (h : DevHeap) (cs : List DevHeap) (a : α) (h' : DevHeap) : Prop :=
  (∀ (i : ℕ) (c : DevHeap), cs[i]? = some c → m (some i) h = (.thrown, none, c)) ∧
  (∀ i, cs.length ≤ i → m (some i) h = (.done a, some (i - cs.length), h')) ∧
  m none h = (.done a, none, h')

theorem runs_pure (a : α) (h : DevHeap) : Crashy.Runs (pure a) h [] a h := by
  refine ⟨by simp, fun i _ => rfl, rfl⟩

theorem crashy_bind (m : Crashy α) (f : α → Crashy β) (n : Option ℕ) (h : DevHeap) :
    (m >>= f) n h = match m n h with
      | (.done a, n, h) => f a n h
      | (.thrown, n, h) => (.thrown, n, h)
      | (.ub w, n, h) => (.ub w, n, h) := rfl

theorem Crashy.Runs.bind {m : Crashy α} {f : α → Crashy β} {h h' h'' : DevHeap} {cs cs' : List DevHeap}
    {a : α} {b : β} (r : m.Runs h cs a h') (r' : (f a).Runs h' cs' b h'') :
    Crashy.Runs (m >>= f) h (cs ++ cs') b h'' := by
  obtain ⟨r1, r2, r3⟩ := r
  obtain ⟨s1, s2, s3⟩ := r'
  refine ⟨fun i c hc => ?_, fun i hi => ?_, ?_⟩
  · rw [crashy_bind]
    by_cases hlt : i < cs.length
    · rw [List.getElem?_append_left hlt] at hc
      rw [r1 i c hc]
    · rw [List.getElem?_append_right (by omega)] at hc
      rw [r2 i (by omega)]
      exact s1 _ _ hc
  · rw [List.length_append] at hi
    rw [crashy_bind, r2 i (by omega)]
    have := s2 (i - cs.length) (by omega)
    rw [List.length_append, ← Nat.sub_sub]
    exact this
  · rw [crashy_bind, r3]
    exact s3

theorem Crashy.Runs.bind0 {m : Crashy α} {f : α → Crashy β} {h h' h'' : DevHeap} {cs' : List DevHeap}
    {a : α} {b : β} (r : m.Runs h [] a h') (r' : (f a).Runs h' cs' b h'') :
    Crashy.Runs (m >>= f) h cs' b h'' := r.bind r'

theorem Crashy.Runs.bind1 {m : Crashy α} {f : α → Crashy β} {h h' h'' c : DevHeap} {cs' : List DevHeap}
    {a : α} {b : β} (r : m.Runs h [c] a h') (r' : (f a).Runs h' cs' b h'') :
    Crashy.Runs (m >>= f) h (c :: cs') b h'' := r.bind r'

theorem runs_point (h : DevHeap) : crashPoint.Runs h [h] () h := by
  refine ⟨fun i c hc => ?_, fun i hi => ?_, rfl⟩
  · cases i with
    | zero => simp at hc; subst hc; rfl
    | succ i => simp at hc
  · cases i with
    | zero => simp at hi
    | succ i => rfl

theorem runs_points (k : ℕ) (h : DevHeap) : (crashPoints k).Runs h (List.replicate k h) () h := by
  induction k with
  | zero => exact runs_pure () h
  | succ k ih =>
    rw [List.replicate_succ]
    exact (runs_point h).bind ih

theorem runs_acquire (h : DevHeap) : acquire.Runs h [] h.next ⟨h.next + 1, h.next :: h.live, h.written⟩ :=
  ⟨by simp, fun _ _ => rfl, rfl⟩

theorem runs_release {p : ℕ} {h : DevHeap} (hp : p ∈ h.live) :
    (release p).Runs h [] () ⟨h.next, h.live.erase p, h.written⟩ := by
  have e : ∀ n, release p n h = (.done (), n, ⟨h.next, h.live.erase p, h.written⟩) := by
    intro n
    simp [release, DevHeap.free, hp]
  exact ⟨by simp, fun i _ => e _, e _⟩

theorem runs_free {p n : ℕ} {l l' w : List ℕ} (hp : p ∈ l) (e : l.erase p = l') :
    (release p).Runs ⟨n, l, w⟩ [] () ⟨n, l', w⟩ := by
  subst e
  exact runs_release (h := ⟨n, l, w⟩) hp

theorem runs_destroy {o : SpObj} {h h' : DevHeap} (e : destroyObj h o = .ok h') :
    (destroyMat o).Runs h [] () h' := by
  have e' : ∀ n, destroyMat o n h = (.done (), n, h') := by
    intro n
    simp [destroyMat, e]
  exact ⟨by simp, fun i _ => e' _, e' _⟩

theorem Crashy.Runs.orDestroy {m : Crashy α} {o : SpObj} {h h' : DevHeap} {cs cs' : List DevHeap} {a : α}
    (r : m.Runs h cs a h') (hd : List.Forall₂ (fun c c' => destroyObj c o = .ok c') cs cs') :
    (Mfmg.orDestroy o m).Runs h cs' a h' := by
  obtain ⟨r1, r2, r3⟩ := r
  refine ⟨fun i c hc => ?_, fun i hi => ?_, ?_⟩
  · have hlt : i < cs'.length := by
      by_contra hn
      rw [List.getElem?_eq_none (by omega)] at hc
      cases hc
    have hlt' : i < cs.length := by rw [hd.length_eq]; exact hlt
    have hx := (List.forall₂_iff_get.1 hd).2 i hlt' hlt
    rw [List.getElem?_eq_getElem hlt] at hc
    cases hc
    simp only [List.get_eq_getElem] at hx
    simp [Mfmg.orDestroy, r1 i _ (List.getElem?_eq_getElem hlt'), destroyMat, hx]
  · rw [← hd.length_eq] at hi ⊢
    simp [Mfmg.orDestroy, r2 i hi]
  · simp [Mfmg.orDestroy, r3]

/-- Points in which nothing is acquired, with an object in scope. -/
theorem runs_orDestroy_points {o : SpObj} {h h' : DevHeap} (k : ℕ) (e : destroyObj h o = .ok h') :
    (orDestroy o (crashPoints k)).Runs h (List.replicate k h') () h := by
  refine (runs_points k h).orDestroy ?_
  induction k with
  | zero => exact .nil
  | succ k ih => exact .cons e ih

/-- The allocations of a matrix. -/
def SpObj.heldPtrs (o : SpObj) : List ℕ :=
  o.val.toList ++ (o.col.toList ++ (o.rowPtr.toList ++ o.descr.toList))

theorem free_perm {h : DevHeap} {p : Option ℕ} {l : List ℕ} (e : h.live.Perm (p.toList ++ l)) :
    ∃ h', h.free p = .ok h' ∧ h'.live.Perm l ∧ h'.next = h.next := by
  cases p with
  | none => exact ⟨h, rfl, e, rfl⟩
  | some p =>
    have hm : p ∈ h.live := e.mem_iff.2 (by simp)
    refine ⟨⟨h.next, h.live.erase p, h.written⟩, by simp [DevHeap.free, hm], ?_, rfl⟩
    have := e.erase p
    simpa using this

/-- The destructor of a matrix releases what belongs to the matrix and nothing else. -/
theorem destroy_ptrs {h : DevHeap} {o : SpObj} {l : List ℕ} (e : h.live.Perm (o.heldPtrs ++ l)) :
    ∃ h', destroyObj h o = .ok h' ∧ h'.live.Perm l ∧ h'.next = h.next := by
  unfold SpObj.heldPtrs at e
  simp only [List.append_assoc] at e
  obtain ⟨h1, e1, q1, n1⟩ := free_perm e
  obtain ⟨h2, e2, q2, n2⟩ := free_perm q1
  obtain ⟨h3, e3, q3, n3⟩ := free_perm q2
  obtain ⟨h4, e4, q4, n4⟩ := free_perm q3
  refine ⟨h4, ?_, q4, by omega⟩
  simp only [destroyObj, e1, e2, e3, e4, Outcome.ok_bind]

theorem Leaves.refl (h : DevHeap) : h.Leaves h 0 :=
  ⟨[], ⟨by simp, by simp⟩, by simp, rfl, le_rfl⟩

theorem DevHeap.Leaves.trans {h h' c : DevHeap} {j k : ℕ} (a : h.Leaves h' j) (b : h'.Leaves c k) :
    h.Leaves c (j + k) := by
  obtain ⟨l, ⟨p, q⟩, nd, len, le⟩ := a
  obtain ⟨l', ⟨p', q'⟩, nd', len', le'⟩ := b
  refine ⟨l' ++ l, ⟨?_, ?_⟩, ?_, by rw [List.length_append, len, len', Nat.add_comm], le.trans le'⟩
  · rw [List.append_assoc]
    exact p'.trans (p.append_left l')
  · intro x hx
    rcases List.mem_append.1 hx with hx | hx
    · have := q' x hx; omega
    · have := q x hx; omega
  · rw [List.nodup_append]
    refine ⟨nd', nd, ?_⟩
    intro x hx y hy e
    have := q' x hx
    have := q y hy
    omega

theorem Leaves.mk {h c : DevHeap} {k : ℕ} (l : List ℕ) (p : c.live = l ++ h.live)
    (q : ∀ x ∈ l, h.next ≤ x ∧ x < c.next) (nd : l.Nodup) (len : l.length = k) (le : h.next ≤ c.next) :
    h.Leaves c k := ⟨l, ⟨by rw [p], q⟩, nd, len, le⟩

theorem DevHeap.Leaves.sound {h c : DevHeap} {k : ℕ} (a : h.Leaves c k) (hs : h.Sound) : c.Sound := by
  obtain ⟨l, ⟨p, q⟩, -, -, le⟩ := a
  intro x hx
  rcases List.mem_append.1 (p.mem_iff.1 hx) with hx | hx
  · exact (q x hx).2
  · exact (hs x hx).trans_le le

theorem DevHeap.Leaves.destroy {h h1 c : DevHeap} {o : SpObj} {k : ℕ}
    (e : h1.live.Perm (o.heldPtrs ++ h.live)) (le : h.next ≤ h1.next) (a : h1.Leaves c k) :
    ∃ c', destroyObj c o = .ok c' ∧ h.Leaves c' k := by
  obtain ⟨l, ⟨p, q⟩, nd, len, le'⟩ := a
  have hp : c.live.Perm (o.heldPtrs ++ (l ++ h.live)) := by
    refine p.trans ((e.append_left l).trans ?_)
    rw [← List.append_assoc, ← List.append_assoc]
    exact List.perm_append_comm.append_right _
  obtain ⟨c', e', q', n'⟩ := destroy_ptrs hp
  refine ⟨c', e', l, ⟨q', ?_⟩, nd, len, by omega⟩
  intro x hx
  have := q x hx
  omega

/-- The programs of the model run through their calls and leave what the tables say. -/
def Crashy.RunsLeaving (m : Crashy α) (h : DevHeap) (left : List ℕ) (a : α) (h' : DevHeap) : Prop :=
  ∃ cs, m.Runs h cs a h' ∧ List.Forall₂ (fun c k => h.Leaves c k) cs left

theorem Crashy.RunsLeaving.bind {m : Crashy α} {f : α → Crashy β} {h h' h'' : DevHeap}
    {left left' : List ℕ} {j : ℕ} {a : α} {b : β} (r : m.RunsLeaving h left a h') (hj : h.Leaves h' j)
    (r' : (f a).RunsLeaving h' left' b h'') :
    Crashy.RunsLeaving (m >>= f) h (left ++ left'.map (j + ·)) b h'' := by
  obtain ⟨cs, r, t⟩ := r
  obtain ⟨cs', r', t'⟩ := r'
  refine ⟨cs ++ cs', r.bind r', List.rel_append t ?_⟩
  rw [List.forall₂_map_right_iff]
  exact t'.imp fun c k hk => hj.trans hk

theorem Crashy.RunsLeaving.failsLeaving {m : Crashy α} {h h' : DevHeap} {left : List ℕ} {a : α} {k : ℕ}
    (r : m.RunsLeaving h left a h') (hk : h.Leaves h' k) : m.FailsLeaving h left k := by
  obtain ⟨cs, ⟨r1, r2, r3⟩, t⟩ := r
  refine ⟨fun i k hi => ?_, fun i hi => ⟨a, h', ?_, hk⟩, ⟨a, h', r3, hk⟩⟩
  · have hlt : i < left.length := by
      by_contra hn
      rw [List.getElem?_eq_none (by omega)] at hi
      cases hi
    have hlt' : i < cs.length := by rw [t.length_eq]; exact hlt
    have hc : cs[i]? = some cs[i] := List.getElem?_eq_getElem hlt'
    refine ⟨cs[i], r1 i _ hc, ?_⟩
    have := (List.forall₂_iff_get.1 t).2 i hlt' hlt
    rw [List.getElem?_eq_getElem hlt] at hi
    cases hi
    exact this
  · rw [← t.length_eq] at hi ⊢
    exact r2 i hi

end Mfmg
