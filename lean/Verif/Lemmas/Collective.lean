import Verif.Spec.Collective

/-!
# Lemmas on collective calls
-/

set_option autoImplicit false

namespace Mfmg

variable {α β : Type}

/-- Without an own step the members move together: now `Q` holds, or all members are in the same call
and afterwards it goes on like this. -/
inductive Leads (c : List ℕ) (Q : (ℕ → Proc α) → Prop) : (ℕ → Proc α) → Prop
  | now (s : ℕ → Proc α) : Q s → Leads c Q s
  | call (s : ℕ → Proc α) (op : String) (send : ℕ → ℕ) (next : ℕ → List ℕ → Proc α) :
      (∀ r ∈ c, s r = .call c op (send r) (next r)) →
      Leads c Q (fun r => next r (c.map send)) → Leads c Q s

/-- All members have returned values with `post`, or none has returned. -/
def Agree (c : List ℕ) (post : ℕ → α → Prop) (s : ℕ → Proc α) : Prop :=
  (∀ r ∈ c, ∃ a, s r = .done (.ok a) ∧ post r a) ∨
    ∀ r ∈ c, ∃ o : Outcome α, s r = .done o ∧ ∀ a, o ≠ .ok a

/-- The members move together until they agree. -/
def Settles (c : List ℕ) (post : ℕ → α → Prop) (s : ℕ → Proc α) : Prop := Leads c (Agree c post) s

/-- `Leads` looks at the members only. -/
theorem Leads.congr {c : List ℕ} {Q : (ℕ → Proc α) → Prop}
    (hQ : ∀ s t : ℕ → Proc α, (∀ r ∈ c, s r = t r) → Q s → Q t) {s t : ℕ → Proc α}
    (h : Leads c Q s) (hst : ∀ r ∈ c, s r = t r) : Leads c Q t := by
  cases h with
  | now _ h => exact .now _ (hQ _ _ hst h)
  | call _ op send next h hn =>
    exact .call _ op send next (fun r hr => by rw [← hst r hr, h r hr]) hn

theorem agree_congr (c : List ℕ) (post : ℕ → α → Prop) (s t : ℕ → Proc α)
    (hst : ∀ r ∈ c, s r = t r) (h : Agree c post s) : Agree c post t := by
  rcases h with h | h
  · exact .inl fun r hr => by rw [← hst r hr]; exact h r hr
  · exact .inr fun r hr => by rw [← hst r hr]; exact h r hr

theorem Settles.congr {c : List ℕ} {post : ℕ → α → Prop} {s t : ℕ → Proc α}
    (h : Settles c post s) (hst : ∀ r ∈ c, s r = t r) : Settles c post t :=
  Leads.congr (agree_congr c post) h hst

/-- Programs one after the other. -/
theorem Leads.bind {c : List ℕ} {Q : (ℕ → Proc α) → Prop} {Q' : (ℕ → Proc β) → Prop}
    {f : ℕ → α → Proc β} (hf : ∀ s, Q s → Leads c Q' fun r => (s r).bind (f r))
    {s : ℕ → Proc α} (h : Leads c Q s) : Leads c Q' fun r => (s r).bind (f r) := by
  induction h with
  | now s h => exact hf s h
  | call s op send next h _ ih =>
    exact .call _ op send (fun r l => (next r l).bind (f r))
      (fun r hr => by rw [h r hr]; rfl) ih

theorem bind_done_fail {o : Outcome α} (ho : ∀ a, o ≠ .ok a) (f : α → Proc β) :
    ∃ o' : Outcome β, (Proc.done o).bind f = .done o' ∧ ∀ b, o' ≠ .ok b := by
  cases o with
  | ok a => exact absurd rfl (ho a)
  | throws m => exact ⟨.throws m, rfl, by simp⟩
  | aborted => exact ⟨.aborted, rfl, by simp⟩
  | ub w => exact ⟨.ub w, rfl, by simp⟩

theorem Settles.bind {c : List ℕ} {post : ℕ → α → Prop} {post' : ℕ → β → Prop}
    {s : ℕ → Proc α} {f : ℕ → α → Proc β} (h : Settles c post s)
    (hf : ∀ a : ℕ → α, (∀ r ∈ c, post r (a r)) → Settles c post' fun r => f r (a r)) :
    Settles c post' fun r => (s r >>= f r) := by
  classical
  refine Leads.bind (fun s hs => ?_) h
  rcases hs with hs | hs
  · by_cases hc : c = []
    · subst hc
      exact .now _ (.inl (by simp))
    obtain ⟨r0, hr0⟩ := List.exists_mem_of_ne_nil c hc
    let a : ℕ → α := fun r => if h : r ∈ c then (hs r h).choose else (hs r0 hr0).choose
    have ha : ∀ r ∈ c, s r = .done (.ok (a r)) ∧ post r (a r) := by
      intro r hr
      have : a r = (hs r hr).choose := by simp only [a, dif_pos hr]
      rw [this]
      exact (hs r hr).choose_spec
    refine Settles.congr (hf a fun r hr => (ha r hr).2) fun r hr => ?_
    rw [(ha r hr).1]
    rfl
  · refine .now _ (.inr fun r hr => ?_)
    obtain ⟨o, hs, ho⟩ := hs r hr
    dsimp only
    rw [hs]
    exact bind_done_fail ho (f r)

/-- Everyone returns at once. -/
theorem settles_pure {c : List ℕ} {post : ℕ → α → Prop} {a : ℕ → α}
    (h : ∀ r ∈ c, post r (a r)) : Settles c post fun r => (pure (a r) : Proc α) :=
  .now _ (.inl fun r hr => ⟨a r, rfl, h r hr⟩)

/-- A computation that has the same outcome on all members. -/
theorem settles_lift {c : List ℕ} {post : ℕ → α → Prop} (o : Outcome α)
    (h : ∀ a, o = .ok a → ∀ r ∈ c, post r a) : Settles c post fun _ => Proc.ofOutcome o := by
  by_cases ho : ∃ a, o = .ok a
  · obtain ⟨a, rfl⟩ := ho
    exact .now _ (.inl fun r hr => ⟨a, rfl, h a rfl r hr⟩)
  · exact .now _ (.inr fun r _ => ⟨o, rfl, fun a h => ho ⟨a, h⟩⟩)

/-- A computation that returns on all members. -/
theorem settles_lift_ok {c : List ℕ} {post : ℕ → α → Prop} {o : ℕ → Outcome α}
    (h : ∀ r ∈ c, ∃ a, o r = .ok a ∧ post r a) : Settles c post fun r => Proc.ofOutcome (o r) :=
  .now _ (.inl fun r hr => by
    obtain ⟨a, ho, ha⟩ := h r hr
    exact ⟨a, congrArg Proc.done ho, ha⟩)

theorem settles_syncs (c : List ℕ) (ops : List String) :
    Settles c (fun _ _ => True) fun _ => syncs c ops := by
  induction ops with
  | nil => exact settles_pure (a := fun _ => ()) fun _ _ => trivial
  | cons op ops ih => exact .call _ op (fun _ => 0) (fun _ _ => syncs c ops) (fun _ _ => rfl) ih

theorem settles_gatherCounts (c : List ℕ) (n : ℕ → ℕ) :
    Settles c (fun _ l => l = c.map n) fun r => gatherCounts c (n r) :=
  .call _ "MPI_Allgather" n (fun _ l => .done (.ok l)) (fun _ _ => rfl)
    (.now _ (.inl fun _ _ => ⟨_, rfl, rfl⟩))

/-- Forget the value. -/
theorem Settles.mono {c : List ℕ} {post post' : ℕ → α → Prop} {s : ℕ → Proc α}
    (h : Settles c post s) (hp : ∀ r ∈ c, ∀ a, post r a → post' r a) : Settles c post' s := by
  induction h with
  | now s h =>
    refine .now _ ?_
    rcases h with h | h
    · exact .inl fun r hr => by
        obtain ⟨a, h, ha⟩ := h r hr
        exact ⟨a, h, hp r hr a ha⟩
    · exact .inr h
  | call s op send next h _ ih => exact .call _ op send next h ih

/-! ## Executions -/

/-- A state with `Leads` moves only by calls on `c`, and stays so. -/
theorem Leads.step {c c' : List ℕ} {Q : (ℕ → Proc α) → Prop}
    (hcong : ∀ s t : ℕ → Proc α, (∀ r ∈ c, s r = t r) → Q s → Q t)
    (hQ : ∀ s t, Q s → MpiStep c' s t → Q t) {s t : ℕ → Proc α} (h : Leads c Q s)
    (hs : MpiStep c' s t) : Leads c Q t := by
  cases h with
  | now _ h => exact .now _ (hQ s t h hs)
  | call _ op send next h hn =>
    cases hs with
    | mk op' send' next' hm =>
      by_cases hc : c' = c
      · subst hc
        refine Leads.congr hcong hn fun r hr => ?_
        rw [if_pos hr]
        have hsend : ∀ q ∈ c', send q = send' q := fun q hq => by
          have h1 := h q hq
          rw [hm.2 q hq] at h1
          injection h1 with _ _ h2 _
          exact h2.symm
        have h1 := h r hr
        rw [hm.2 r hr] at h1
        injection h1 with _ _ _ h2
        rw [h2, List.map_congr_left hsend]
      · refine .call _ op send next (fun r hr => ?_) hn
        have : r ∉ c' := fun hr' => by
          have h1 := h r hr
          rw [hm.2 r hr'] at h1
          injection h1 with h2
          exact hc h2
        rw [if_neg this, h r hr]

/-- Ended processes do not move. -/
theorem MpiStep.ended {c : List ℕ} {s t : ℕ → Proc α} (h : MpiStep c s t) {r : ℕ} {o : Outcome α}
    (hr : s r = .done o) : t r = .done o := by
  cases h with
  | mk op send next hm =>
    by_cases hc : r ∈ c
    · have := hm.2 r hc
      rw [hr] at this
      cases this
    · dsimp only
      rw [if_neg hc, hr]

/-- `Agree` is kept by every step. -/
theorem agree_step {c c' : List ℕ} {post : ℕ → α → Prop} {s t : ℕ → Proc α}
    (h : Agree c post s) (hs : MpiStep c' s t) : Agree c post t := by
  rcases h with h | h
  · exact .inl fun r hr => by
      obtain ⟨a, h, ha⟩ := h r hr
      exact ⟨a, hs.ended h, ha⟩
  · exact .inr fun r hr => by
      obtain ⟨o, h, ho⟩ := h r hr
      exact ⟨o, hs.ended h, ho⟩

theorem agree_ended {c : List ℕ} {post : ℕ → α → Prop} {s : ℕ → Proc α} (h : Agree c post s)
    {r : ℕ} (hr : r ∈ c) : Ended (s r) := by
  rcases h with h | h
  · exact (h r hr).imp' Outcome.ok fun a h => h.1
  · exact (h r hr).imp fun o h => h.1

theorem Settles.executes {c : List ℕ} {post : ℕ → α → Prop} {cs : List (List ℕ)}
    {s t : ℕ → Proc α} (h : Settles c post s) (he : Executes cs s t) : Settles c post t := by
  induction he with
  | nil s => exact h
  | cons c' cs s t u hs _ ih =>
    exact ih (Leads.step (agree_congr c post) (fun _ _ => agree_step) h hs)

/-- `Leads` is kept by executions, if `Q` is. -/
theorem Leads.executes' {c : List ℕ} {Q : (ℕ → Proc α) → Prop} {cs : List (List ℕ)}
    {s t : ℕ → Proc α} (hcong : ∀ s t : ℕ → Proc α, (∀ r ∈ c, s r = t r) → Q s → Q t)
    (hQ : ∀ s t, Q s → ∀ d, MpiStep d s t → Q t) (h : Leads c Q s) (he : Executes cs s t) :
    Leads c Q t := by
  induction he with
  | nil s => exact h
  | cons c' cs s t u hs _ ih =>
    exact ih (Leads.step hcong (fun _ _ h hs => hQ _ _ h _ hs) h hs)

/-- A state in which all members of `c` have ended has no call on `c`. -/
theorem no_step_ended {c : List ℕ} (hc : c ≠ []) {s t : ℕ → Proc α} (h : ∀ r ∈ c, Ended (s r)) :
    ¬ MpiStep c s t := by
  intro hs
  cases hs with
  | mk op send next hm =>
    obtain ⟨r, hr⟩ := List.exists_mem_of_ne_nil c hc
    obtain ⟨o, ho⟩ := h r hr
    have := hm.2 r hr
    rw [ho] at this
    cases this

theorem count_ended {c : List ℕ} (hc : c ≠ []) {cs : List (List ℕ)} {s t : ℕ → Proc α}
    (he : Executes cs s t) (h : ∀ r ∈ c, Ended (s r)) : cs.count c = 0 := by
  induction he with
  | nil s => rfl
  | cons c' cs s t u hs _ ih =>
    have hne : c' ≠ c := fun e => no_step_ended hc h (e ▸ hs)
    rw [List.count_cons_of_ne hne]
    exact ih fun r hr => by
      obtain ⟨o, ho⟩ := h r hr
      exact ⟨o, hs.ended ho⟩

/-- A number of calls after which the members have ended. -/
theorem Settles.bound {c : List ℕ} (hc : c ≠ []) {post : ℕ → α → Prop} {s : ℕ → Proc α}
    (h : Settles c post s) :
    ∃ N, ∀ (s' : ℕ → Proc α), (∀ r ∈ c, s r = s' r) → ∀ cs t, Executes cs s' t → cs.count c ≤ N := by
  induction h with
  | now s h =>
    refine ⟨0, fun s' hss cs t he => ?_⟩
    rw [count_ended hc he fun r hr => agree_ended (agree_congr c post s s' hss h) hr]
  | call s op send next h _ ih =>
    obtain ⟨N, hN⟩ := ih
    refine ⟨N + 1, fun s' hss cs => ?_⟩
    induction cs generalizing s' with
    | nil => intro t he; simp
    | cons c' cs ihcs =>
      intro t he
      cases he with
      | cons _ _ _ u _ hs he =>
        cases hs with
        | mk op' send' next' hm =>
          by_cases hcc : c' = c
          · subst hcc
            rw [List.count_cons_self]
            refine Nat.succ_le_succ (hN _ (fun r hr => ?_) cs t he)
            dsimp only
            rw [if_pos hr]
            have hsend : ∀ q ∈ c', send q = send' q := fun q hq => by
              have h1 := h q hq
              rw [hss q hq, hm.2 q hq] at h1
              injection h1 with _ _ h2 _
              exact h2.symm
            have h1 := h r hr
            rw [hss r hr, hm.2 r hr] at h1
            injection h1 with _ _ _ h2
            rw [h2, List.map_congr_left hsend]
          · rw [List.count_cons_of_ne hcc]
            refine ihcs _ (fun r hr => ?_) t he
            have : r ∉ c' := fun hr' => by
              have h1 := h r hr
              rw [hss r hr, hm.2 r hr'] at h1
              injection h1 with h2
              exact hcc h2
            rw [if_neg this, hss r hr]

/-- Programs that settle never wait in vain. -/
theorem Settles.nobodyWaits {c : List ℕ} (hc : c ≠ []) {post : ℕ → α → Prop} {s : ℕ → Proc α}
    (h : Settles c post s) : NobodyWaits c s := by
  obtain ⟨N, hN⟩ := h.bound hc
  refine ⟨N, fun cs t he => ⟨hN s (fun _ _ => rfl) cs t he, ?_⟩⟩
  have ht := h.executes he
  cases ht with
  | now _ h => exact .inl fun r hr => agree_ended h hr
  | call _ op send next h _ => exact .inr ⟨_, .mk t op send next ⟨hc, h⟩⟩

/-- In the end, all members have returned values with `post`, or none has returned. -/
theorem Settles.final {c : List ℕ} (hc : c ≠ []) {post : ℕ → α → Prop} {s t : ℕ → Proc α}
    (h : Settles c post s) {cs : List (List ℕ)} (he : Executes cs s t)
    (ht : ∀ r ∈ c, Ended (t r)) : Agree c post t := by
  have h := h.executes he
  cases h with
  | now _ h => exact h
  | call _ op send next h _ => exact absurd (.mk t op send next ⟨hc, h⟩) (no_step_ended hc ht)

/-! ## Waiting for ever -/

/-- `r` waits in a call on a communicator one of whose members has ended. -/
def Blocked (r : ℕ) (s : ℕ → Proc α) : Prop :=
  ∃ c op send next q o, s r = .call c op send next ∧ q ∈ c ∧ s q = .done o

theorem Blocked.step {r : ℕ} {c : List ℕ} {s t : ℕ → Proc α} (h : Blocked r s)
    (hs : MpiStep c s t) : Blocked r t := by
  obtain ⟨d, op, send, next, q, o, hr, hq, ho⟩ := h
  refine ⟨d, op, send, next, q, o, ?_, hq, hs.ended ho⟩
  cases hs with
  | mk op' send' next' hm =>
    have : r ∉ c := fun hrc => by
      have h1 := hm.2 r hrc
      rw [hr] at h1
      injection h1 with h2 _ _ _
      have h3 := hm.2 q (h2 ▸ hq)
      rw [ho] at h3
      cases h3
    dsimp only
    rw [if_neg this, hr]

theorem Leads.waits {c : List ℕ} {r q : ℕ} (hr : r ∈ c) (hq : q ∈ c) {s : ℕ → Proc α}
    (h : Leads c (fun s => (∃ op send next, s r = .call c op send next) ∧ Ended (s q)) s) :
    WaitsForEver s r := by
  have hcong : ∀ s t : ℕ → Proc α, (∀ x ∈ c, s x = t x) →
      ((∃ op send next, s r = .call c op send next) ∧ Ended (s q)) →
      ((∃ op send next, t r = .call c op send next) ∧ Ended (t q)) := by
    intro s t hst h
    rw [← hst r hr, ← hst q hq]
    exact h
  intro cs t he
  have : Leads c (fun s => (∃ op send next, s r = .call c op send next) ∧ Ended (s q)) t := by
    induction he with
    | nil s => exact h
    | cons c' cs s t u hs _ ih =>
      refine ih (Leads.step hcong ?_ h hs)
      intro s t ⟨⟨op, send, next, h1⟩, o, h2⟩ hs
      refine ⟨⟨op, send, next, ?_⟩, o, hs.ended h2⟩
      cases hs with
      | mk op' send' next' hm =>
        have : r ∉ c' := fun hrc => by
          have h3 := hm.2 r hrc
          rw [h1] at h3
          injection h3 with h4 _ _ _
          have h5 := hm.2 q (h4 ▸ hq)
          rw [h2] at h5
          cases h5
        dsimp only
        rw [if_neg this, h1]
  rintro ⟨o, ho⟩
  cases this with
  | now _ h =>
    obtain ⟨⟨_, _, _, h⟩, _⟩ := h
    rw [ho] at h
    cases h
  | call _ op send next h _ =>
    have := h r hr
    rw [ho] at this
    cases this

theorem Blocked.waits {r : ℕ} {s : ℕ → Proc α} (h : Blocked r s) : WaitsForEver s r := by
  intro cs t he
  have : Blocked r t := by
    induction he with
    | nil s => exact h
    | cons c cs s t u hs _ ih => exact ih (h.step hs)
  obtain ⟨_, _, _, _, _, _, h, _⟩ := this
  rintro ⟨o, ho⟩
  rw [ho] at h
  cases h

end Mfmg
