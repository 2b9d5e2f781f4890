import Verif.Spec.DeviceFaults

/-!
# Lemmas: failing calls of the device libraries
-/

set_option autoImplicit false

namespace Mfmg

variable {K : Type} {α β : Type}

theorem Dev.pure_apply (a : α) (s : DevState) : (pure a : Dev α) s = .ok (a, s) := rfl

theorem Dev.bind_apply (p : Dev α) (q : α → Dev β) (s : DevState) :
    (p >>= q) s = (p s >>= fun r => q r.1 r.2) := by
  change Dev.bind p q s = _
  unfold Dev.bind
  cases p s <;> rfl

theorem Dev.of_ok (a : α) (s : DevState) : Dev.of (.ok a) s = .ok (a, s) := rfl

theorem Dev.of_apply (o : Outcome α) (s : DevState) : Dev.of o s = (o >>= fun a => .ok (a, s)) := by
  cases o <;> rfl

theorem Dev.bind_ok {p : Dev α} {q : α → Dev β} {s s' : DevState} {b : β}
    (h : (p >>= q) s = .ok (b, s')) : ∃ a s1, p s = .ok (a, s1) ∧ q a s1 = .ok (b, s') := by
  rw [Dev.bind_apply, Outcome.bind_eq_ok] at h
  obtain ⟨⟨a, s1⟩, h1, h2⟩ := h
  exact ⟨a, s1, h1, h2⟩

theorem Machine.NoFault.refl (m : Machine K) (i : ℕ) : m.NoFault i i := fun n h1 h2 => by omega

theorem Machine.NoFault.trans {m : Machine K} {i j k : ℕ} (h1 : m.NoFault i j) (h2 : m.NoFault j k) :
    m.NoFault i k := fun n hi hk => by
  by_cases h : n < j
  · exact h1 n hi h
  · exact h2 n (by omega) hk

theorem failing_clean (m : Machine K) (s : DevState) : m.clean.failing s = s.broken := by
  simp [Machine.failing, Machine.clean]

/-- In debug builds: a program returns only if no call failed, and then does what it does without faults. -/
def Strict (m : Machine K) (p p0 : Dev α) : Prop :=
  m.debug = true → ∀ s a s', p s = .ok (a, s') →
    p0 s = .ok (a, s') ∧ s.calls ≤ s'.calls ∧ m.NoFault s.calls s'.calls ∧
      s'.pending = s.pending ∧ s'.broken = s.broken

/-- In debug builds: a program that returns has left a mark, or no call failed and it does what it does
without faults.  Marks are not removed. -/
def Marked (m : Machine K) (p p0 : Dev α) : Prop :=
  m.debug = true → ∀ s a s', p s = .ok (a, s') →
    (s.broken = true → s'.broken = true) ∧ (s.pending = true → s'.pending = true) ∧
    (s'.broken = true ∨ s'.pending = true ∨
      (p0 s = .ok (a, s') ∧ s.calls ≤ s'.calls ∧ m.NoFault s.calls s'.calls))

theorem Strict.marked {m : Machine K} {p p0 : Dev α} (h : Strict m p p0) : Marked m p p0 := by
  intro hd s a s' e
  obtain ⟨h1, h2, h3, h4, h5⟩ := h hd s a s' e
  exact ⟨fun hb => by rw [h5]; exact hb, fun hb => by rw [h4]; exact hb, .inr (.inr ⟨h1, h2, h3⟩)⟩

theorem Strict.bind {m : Machine K} {p p0 : Dev α} {q q0 : α → Dev β} (hp : Strict m p p0)
    (hq : ∀ a, Strict m (q a) (q0 a)) : Strict m (p >>= q) (p0 >>= q0) := by
  intro hd s b s' e
  obtain ⟨a, s1, e1, e2⟩ := Dev.bind_ok e
  obtain ⟨h1, h2, h3, h4, h5⟩ := hp hd s a s1 e1
  obtain ⟨k1, k2, k3, k4, k5⟩ := hq a hd s1 b s' e2
  refine ⟨?_, h2.trans k2, h3.trans k3, k4.trans h4, k5.trans h5⟩
  rw [Dev.bind_apply, h1]
  exact k1

theorem Marked.bind {m : Machine K} {p p0 : Dev α} {q q0 : α → Dev β} (hp : Marked m p p0)
    (hq : ∀ a, Marked m (q a) (q0 a)) : Marked m (p >>= q) (p0 >>= q0) := by
  intro hd s b s' e
  obtain ⟨a, s1, e1, e2⟩ := Dev.bind_ok e
  obtain ⟨h1, h2, h3⟩ := hp hd s a s1 e1
  obtain ⟨k1, k2, k3⟩ := hq a hd s1 b s' e2
  refine ⟨fun h => k1 (h1 h), fun h => k2 (h2 h), ?_⟩
  rcases h3 with h3 | h3 | ⟨h3, h4, h5⟩
  · exact .inl (k1 h3)
  · exact .inr (.inl (k2 h3))
  · rcases k3 with k3 | k3 | ⟨k3, k4, k5⟩
    · exact .inl k3
    · exact .inr (.inl k3)
    · refine .inr (.inr ⟨?_, h4.trans k4, h5.trans k5⟩)
      rw [Dev.bind_apply, h3]
      exact k3

theorem strict_of (m : Machine K) (o : Outcome α) : Strict m (Dev.of o) (Dev.of o) := by
  intro _ s a s' e
  refine ⟨e, ?_⟩
  cases o with
  | ok b =>
    rw [Dev.of_ok] at e
    cases e
    exact ⟨le_rfl, Machine.NoFault.refl m _, rfl, rfl⟩
  | throws w => cases e
  | aborted => cases e
  | ub w => cases e

theorem strict_pure (m : Machine K) (a : α) : Strict m (pure a) (pure a) := strict_of m (.ok a)

/-- A call that does not fail. -/
theorem noFault_step {m : Machine K} {s : DevState} (h : m.failing s = false) :
    s.broken = false ∧ m.NoFault s.calls (s.calls + 1) := by
  simp only [Machine.failing, Bool.or_eq_false_iff, decide_eq_false_iff_not, not_not] at h
  exact ⟨h.1, fun n h1 h2 => by rw [show n = s.calls by omega]; exact h.2⟩

theorem of_step {m : Machine K} {o : Outcome α} {s s' : DevState} {a : α}
    (h : m.NoFault s.calls (s.calls + 1)) (e : Dev.of o { s with calls := s.calls + 1 } = .ok (a, s')) :
    s.calls ≤ s'.calls ∧ m.NoFault s.calls s'.calls ∧ s'.pending = s.pending ∧ s'.broken = s.broken := by
  cases o with
  | ok b =>
    rw [Dev.of_ok] at e
    cases e
    exact ⟨Nat.le_succ _, h, rfl, rfl⟩
  | throws w => cases e
  | aborted => cases e
  | ub w => cases e

theorem strict_call (m : Machine K) (arg : Option α) (good : α → Outcome β) (bad bad0 : ℕ → β) :
    Strict m (m.call arg good bad) (m.clean.call arg good bad0) := by
  intro hd s b s' e
  cases arg with
  | none => simp [Machine.call, hd] at e
  | some a =>
    simp only [Machine.call, hd, if_true] at e
    by_cases hf : m.failing s = true
    · simp [hf] at e
    · rw [if_neg hf] at e
      obtain ⟨h1, h2⟩ := noFault_step (Bool.not_eq_true _ ▸ hf)
      refine ⟨?_, of_step h2 e⟩
      simp only [Machine.call, failing_clean]
      rw [if_neg (by simp [h1])]
      exact e

theorem strict_malloc (m : Machine K) (init : Ptr α) (content : ℕ → α) :
    Strict m (m.malloc init content) (m.clean.malloc init content) :=
  fun hd s b s' e => strict_call m _ _ _ _ hd s b s' e

theorem strict_free (m : Machine K) (p : Ptr α) : Strict m (m.free p) (m.clean.free p) :=
  (strict_of m _).bind fun _ => strict_call m _ _ _ _

theorem strict_copy (m : Machine K) (left : ℕ → List α → List α) (src old : List α) :
    Strict m (m.copy left src old) (m.clean.copy left src old) := strict_call m _ _ _ _

theorem strict_copyTo (m : Machine K) (left : ℕ → List α → List α) (src : List α)
    (dst : Ptr (List α)) : Strict m (m.copyTo left src dst) (m.clean.copyTo left src dst) :=
  (strict_of m _).bind fun _ => strict_call m _ _ _ _

theorem strict_toHost (m : Machine K) (zero : α) (left : ℕ → List α → List α) (array : List α)
    (size : ℕ) : Strict m (m.toHost zero left array size) (m.clean.toHost zero left array size) :=
  strict_call m _ _ _ _

theorem strict_debug {m : Machine K} {p p0 : Dev Unit} (h : Strict m p p0) :
    Strict m (if m.debug = true then p else pure ()) (if m.clean.debug = true then p0 else pure ()) := by
  intro hd
  have : m.clean.debug = true := hd
  rw [if_pos hd, if_pos this]
  exact h hd

theorem strict_synchronize (m : Machine K) : Strict m m.synchronize m.clean.synchronize :=
  strict_debug (strict_call m _ _ _ _)

theorem strict_checkInfo (m : Machine K) (good : Bool) :
    Strict m (m.checkInfo good) (m.clean.checkInfo good) :=
  strict_debug (strict_call m _ _ _ _)

theorem marked_after (m : Machine K) (s : DevState) :
    (s.broken = true → (m.after s).broken = true) ∧ (m.after s).pending = true := by
  simp +contextual [Machine.after]

theorem marked_launch (m : Machine K) (arg : Option α) (good : α → Outcome β) (bad bad0 : ℕ → β) :
    Marked m (m.launch arg good bad) (m.clean.launch arg good bad0) := by
  intro hd s b s' e
  cases arg with
  | none =>
    cases e
    exact ⟨fun _ => rfl, fun _ => rfl, .inl rfl⟩
  | some a =>
    simp only [Machine.launch] at e
    by_cases hf : m.failing s = true
    · rw [if_pos hf] at e
      cases e
      obtain ⟨h1, h2⟩ := marked_after m s
      exact ⟨h1, fun _ => h2, .inr (.inl h2)⟩
    · rw [if_neg hf] at e
      obtain ⟨h1, h2⟩ := noFault_step (Bool.not_eq_true _ ▸ hf)
      obtain ⟨k1, k2, k3, k4⟩ := of_step h2 e
      refine ⟨fun h => by rw [k4]; exact h, fun h => by rw [k3]; exact h, .inr (.inr ⟨?_, k1, k2⟩)⟩
      simp only [Machine.launch, failing_clean]
      rw [if_neg (by simp [h1])]
      exact e

theorem marked_unchecked (m : Machine K) (arg : Option α) (good : α → Outcome β) (bad bad0 : ℕ → β) :
    Marked m (m.unchecked arg good bad) (m.clean.unchecked arg good bad0) := by
  intro hd s b s' e
  cases arg with
  | none =>
    cases e
    exact ⟨(marked_after m s).1, fun _ => rfl, .inr (.inl rfl)⟩
  | some a => exact marked_launch m (some a) good bad bad0 hd s b s' e

theorem marked_mallocUnchecked (m : Machine K) (init : Ptr α) (content : ℕ → α) :
    Marked m (m.mallocUnchecked init content) (m.clean.mallocUnchecked init content) :=
  fun hd s b s' e => marked_unchecked m _ _ _ _ hd s b s' e

/-- `cudaGetLastError` shows every mark. -/
theorem lastError_ok {m : Machine K} (hd : m.debug = true) {s s' : DevState} {a : Unit}
    (e : m.lastError s = .ok (a, s')) : s.Healthy ∧ s' = s := by
  unfold Machine.lastError at e
  simp only [hd, if_true] at e
  by_cases h : (s.pending || s.broken) = true
  · simp [h] at e
  · rw [if_neg h] at e
    simp only [Bool.not_eq_true, Bool.or_eq_false_iff] at h
    cases e
    exact ⟨⟨h.1, h.2⟩, rfl⟩

theorem marked_lastError (m : Machine K) : Marked m m.lastError m.clean.lastError := by
  intro hd s a s' e
  obtain ⟨⟨h1, h2⟩, rfl⟩ := lastError_ok hd e
  refine ⟨id, id, .inr (.inr ⟨?_, le_rfl, Machine.NoFault.refl m _⟩)⟩
  simp [Machine.lastError, h1, h2]

/-- A checked call that returns shows that the device is not broken. -/
theorem call_unbroken {m : Machine K} (hd : m.debug = true) {arg : Option α} {good : α → Outcome β}
    {bad : ℕ → β} {s s' : DevState} {b : β} (e : m.call arg good bad s = .ok (b, s')) :
    s.broken = false ∧ s'.broken = false ∧ s'.pending = s.pending := by
  have h := strict_call m arg good bad bad hd s b s' e
  have hb : s.broken = false := by
    cases arg with
    | none => simp [Machine.call, hd] at e
    | some a =>
      simp only [Machine.call, hd, if_true] at e
      by_cases hf : m.failing s = true
      · simp [hf] at e
      · exact (noFault_step (Bool.not_eq_true _ ▸ hf)).1
  exact ⟨hb, by rw [h.2.2.2.2, hb], h.2.2.2.1⟩

/-! ## Single calls -/

section

variable {m : Machine K} {c : ℕ} {p : Bool}

theorem call_none (h : m.fault c = .none) (a : α) (good : α → Outcome β) (bad : ℕ → β) :
    m.call (some a) good bad ⟨c, p, false⟩ = Dev.of (good a) ⟨c + 1, p, false⟩ := by
  simp [Machine.call, Machine.failing, h]

theorem call_fails (hd : m.debug = false) (h : m.fault c = .fails) (a : α) (good : α → Outcome β)
    (bad : ℕ → β) : m.call (some a) good bad ⟨c, p, false⟩ = .ok (bad c, ⟨c + 1, true, false⟩) := by
  simp [Machine.call, Machine.failing, Machine.after, h, hd]

theorem launch_none (h : m.fault c = .none) (a : α) (good : α → Outcome β) (bad : ℕ → β) :
    m.launch (some a) good bad ⟨c, p, false⟩ = Dev.of (good a) ⟨c + 1, p, false⟩ := by
  simp [Machine.launch, Machine.failing, h]

theorem launch_fails (h : m.fault c = .fails) (a : α) (good : α → Outcome β)
    (bad : ℕ → β) : m.launch (some a) good bad ⟨c, p, false⟩ = .ok (bad c, ⟨c + 1, true, false⟩) := by
  simp [Machine.launch, Machine.failing, Machine.after, h]

theorem amgx_none (h : m.fault c = .none) (good : Outcome β) (bad : ℕ → β) :
    m.amgx good bad ⟨c, p, false⟩ = Dev.of good ⟨c + 1, p, false⟩ := by
  simp [Machine.amgx, Machine.failing, h]

theorem amgx_fails (h : m.fault c = .fails) (good : Outcome β) (bad : ℕ → β) :
    m.amgx good bad ⟨c, p, false⟩ = .ok (bad c, ⟨c + 1, p, false⟩) := by
  simp [Machine.amgx, Machine.failing, Machine.after, h]

theorem malloc_none (h : m.fault c = .none) (init : Ptr α) (content : ℕ → α) :
    m.malloc init content ⟨c, p, false⟩ = .ok (.at (content c), ⟨c + 1, p, false⟩) := by
  simp [Machine.malloc, call_none h, Dev.of]

theorem free_none (h : m.fault c = .none) (a : α) :
    m.free (Ptr.at a) ⟨c, p, false⟩ = .ok ((), ⟨c + 1, p, false⟩) := by
  simp only [Machine.free, Dev.bind_apply, Ptr.arg, Dev.of_ok, Outcome.ok_bind, call_none h]

theorem writeBlock_all (src old : List α) (h : old.length = src.length) :
    writeBlock old 0 src = .ok src := by
  unfold writeBlock
  rw [if_pos (by omega)]
  simp [h]

theorem copy_none (h : m.fault c = .none) (left : ℕ → List α → List α) (src old : List α)
    (hl : old.length = src.length) :
    m.copy left src old ⟨c, p, false⟩ = .ok (src, ⟨c + 1, p, false⟩) := by
  rw [Machine.copy, call_none h, writeBlock_all src old hl, Dev.of_ok]

theorem copyTo_none (h : m.fault c = .none) (left : ℕ → List α → List α) (src old : List α)
    (hl : old.length = src.length) :
    m.copyTo left src (.at old) ⟨c, p, false⟩ = .ok (.at src, ⟨c + 1, p, false⟩) := by
  simp only [Machine.copyTo, Dev.bind_apply, Ptr.arg, Dev.of_ok, Outcome.ok_bind, call_none h,
    writeBlock_all src old hl, Outcome.bind]

theorem toHost_none (h : m.fault c = .none) (zero : α) (left : ℕ → List α → List α) (array : List α)
    (size : ℕ) :
    m.toHost zero left array size ⟨c, p, false⟩ = Dev.of (copyToHost array size) ⟨c + 1, p, false⟩ := by
  rw [Machine.toHost, call_none h]

theorem unchecked_none (h : m.fault c = .none) (a : α) (good : α → Outcome β) (bad : ℕ → β) :
    m.unchecked (some a) good bad ⟨c, p, false⟩ = Dev.of (good a) ⟨c + 1, p, false⟩ := by
  simp [Machine.unchecked, Machine.failing, h]

theorem mallocUnchecked_none (h : m.fault c = .none) (init : Ptr α) (content : ℕ → α) :
    m.mallocUnchecked init content ⟨c, p, false⟩ = .ok (.at (content c), ⟨c + 1, p, false⟩) := by
  simp [Machine.mallocUnchecked, unchecked_none h, Dev.of]

theorem lastError_none : m.lastError ⟨c, false, false⟩ = .ok ((), ⟨c, false, false⟩) := by
  simp [Machine.lastError]

theorem synchronize_none (h : m.fault c = .none) :
    ∃ k, m.synchronize ⟨c, p, false⟩ = .ok ((), ⟨c + k, p, false⟩) := by
  unfold Machine.synchronize
  by_cases h' : m.debug = true
  · exact ⟨1, by rw [if_pos h', call_none h]; rfl⟩
  · exact ⟨0, by rw [if_neg h']; rfl⟩

theorem checkInfo_none (h : m.fault c = .none) (good : Bool)
    (hg : Outcome.assert m.debug good = .ok ()) :
    ∃ k, m.checkInfo good ⟨c, p, false⟩ = .ok ((), ⟨c + k, p, false⟩) := by
  unfold Machine.checkInfo
  by_cases h' : m.debug = true
  · exact ⟨1, by rw [if_pos h', call_none h, hg]; rfl⟩
  · exact ⟨0, by rw [if_neg h']; rfl⟩

theorem checkInfo_release (hd : m.debug = false) (good : Bool) (s : DevState) :
    m.checkInfo good s = .ok ((), s) := by
  simp [Machine.checkInfo, hd, Dev.pure_apply]

theorem descriptor_none (h : ∀ i, i < 3 → m.fault (c + i) = .none) (init : Ptr Unit) :
    descriptorF m init ⟨c, p, false⟩ = .ok (.at (), ⟨c + 3, p, false⟩) := by
  have h0 : m.fault c = .none := h 0 (by omega)
  have h1 : m.fault (c + 1) = .none := h 1 (by omega)
  have h2 : m.fault (c + 1 + 1) = .none := h 2 (by omega)
  simp only [descriptorF, Dev.bind_apply, malloc_none h0, Outcome.ok_bind, Ptr.arg,
    Dev.of_ok, call_none h1, call_none h2]
  rfl

theorem clean_fault (m : Machine K) (c : ℕ) : m.clean.fault c = .none := rfl

end

/-! ## Release builds -/

/-- An outcome that is neither an exception nor the end of the program. -/
def SilentOutcome (o : Outcome α) : Prop := o ≠ .aborted ∧ ∀ msg, o ≠ .throws msg

theorem silent_ok (a : α) : SilentOutcome (.ok a) := by simp [SilentOutcome]

theorem silent_ub (w : String) : SilentOutcome (.ub w : Outcome α) := by simp [SilentOutcome]

theorem silent_of {o : Outcome α} (h : SilentOutcome o) (s : DevState) : Silent (Dev.of o) s := by
  obtain ⟨h1, h2⟩ := h
  cases o with
  | ok a => simp [Silent, Dev.of]
  | throws m => exact absurd rfl (h2 m)
  | aborted => exact absurd rfl h1
  | ub w => simp [Silent, Dev.of]

theorem silent_pure (a : α) (s : DevState) : Silent (pure a : Dev α) s := silent_of (silent_ok a) s

theorem Silent.bind {p : Dev α} {q : α → Dev β} {s : DevState} (hp : Silent p s)
    (hq : ∀ a s', Silent (q a) s') : Silent (p >>= q) s := by
  unfold Silent at hp ⊢
  rw [Dev.bind_apply]
  cases h : p s with
  | ok r => exact hq r.1 r.2
  | throws m => exact absurd h (hp.2 m)
  | aborted => exact absurd h hp.1
  | ub w => simp

theorem silent_call {m : Machine K} (hd : m.debug = false) (arg : Option α) {good : α → Outcome β}
    (hg : ∀ a, SilentOutcome (good a)) (bad : ℕ → β) (s : DevState) : Silent (m.call arg good bad) s := by
  cases arg with
  | none => simp [Silent, Machine.call, hd]
  | some a =>
    by_cases h : m.failing s = true
    · simp [Silent, Machine.call, hd, h]
    · have := silent_of (hg a) { s with calls := s.calls + 1 }
      simpa [Silent, Machine.call, h] using this

theorem silent_malloc {m : Machine K} (hd : m.debug = false) (init : Ptr α) (content : ℕ → α)
    (s : DevState) : Silent (m.malloc init content) s :=
  silent_call hd (some ()) (fun _ => silent_ok _) _ s

theorem silent_arg (p : Ptr α) : SilentOutcome p.arg := by
  cases p <;> simp [SilentOutcome, Ptr.arg]

theorem silent_free {m : Machine K} (hd : m.debug = false) (p : Ptr α) (s : DevState) :
    Silent (m.free p) s :=
  (silent_of (silent_arg p) s).bind fun _ s => silent_call hd _ (fun _ => silent_ok _) _ s

theorem silent_writeBlock (buf : List α) (start : ℕ) (block : List α) :
    SilentOutcome (writeBlock buf start block) := by
  unfold writeBlock
  split_ifs <;> simp [SilentOutcome]

theorem silent_copy {m : Machine K} (hd : m.debug = false) (left : ℕ → List α → List α)
    (src old : List α) (s : DevState) : Silent (m.copy left src old) s :=
  silent_call hd _ (fun _ => silent_writeBlock _ _ _) _ s

theorem silent_copyToHost (array : List α) (size : ℕ) : SilentOutcome (copyToHost array size) := by
  unfold copyToHost
  split_ifs <;> simp [SilentOutcome]

theorem silent_toHost {m : Machine K} (hd : m.debug = false) (zero : α) (left : ℕ → List α → List α)
    (array : List α) (size : ℕ) (s : DevState) : Silent (m.toHost zero left array size) s :=
  silent_call hd _ (fun _ => silent_copyToHost _ _) _ s

theorem silent_assert {m : Machine K} (hd : m.debug = false) (b : Bool) :
    SilentOutcome (Outcome.assert m.debug b) := by
  simp [SilentOutcome, Outcome.assert, hd]

theorem silent_csr2dense [Zero K] (c : Csr K) (m n : ℕ) : SilentOutcome (csr2dense c m n) := by
  unfold csr2dense
  split_ifs <;> simp [SilentOutcome]

end Mfmg
