import Verif.Spec.AmgxLibrary
import Mathlib.Data.List.Nodup
import Mathlib.Data.List.Induction

/-!
# Several AMGX solvers at the same time (C104)
-/

set_option autoImplicit false

namespace Mfmg

theorem coarseRun_append (counted : Bool) (h : List CoarseCall) (c : CoarseCall) (s : CoarseState) :
    coarseRun counted s (h ++ [c]) = coarseRun counted s h >>= fun s => coarseStep counted s c := by
  induction h generalizing s with
  | nil =>
    simp only [List.nil_append, coarseRun, Outcome.ok_bind]
    cases coarseStep counted s c <;> rfl
  | cons d h ih =>
    simp only [List.cons_append, coarseRun]
    cases coarseStep counted s d with
    | ok s' => simpa only [Outcome.ok_bind] using ih s'
    | throws m => rfl
    | aborted => rfl
    | ub w => rfl

theorem IsProgram.init {h : List CoarseCall} {c : CoarseCall} (hp : IsProgram (h ++ [c])) :
    IsProgram h ∧ c.Possible h := by
  refine ⟨fun a d b e => hp a d (b ++ [c]) (by simp [e]), hp h c [] rfl⟩

theorem IsProgram.append {h g : List CoarseCall} (hp : IsProgram (h ++ g)) : IsProgram h :=
  fun a d b e => hp a d (b ++ g) (by simp [e])

/-- No other AMGX solver has been destroyed since the construction of `j`. -/
def FreshSince (h : List CoarseCall) (j : ℕ) : Prop :=
  ∀ i, i ≠ j → .construct i true ∈ h → ¬ List.Sublist [.construct j true, .destruct i] h

theorem sublist_snoc {α : Type} {l h : List α} {x c : α} (hs : List.Sublist (l ++ [x]) (h ++ [c])) :
    List.Sublist (l ++ [x]) h ∨ (x = c ∧ List.Sublist l h) := by
  have h1 := hs.reverse
  simp only [List.reverse_append, List.reverse_cons, List.reverse_nil, List.nil_append,
    List.singleton_append] at h1
  rcases List.sublist_cons_iff.1 h1 with h2 | ⟨r, h2, h3⟩
  · left
    have := h2.reverse
    simpa using this
  · right
    rw [List.cons.injEq] at h2
    refine ⟨h2.1, ?_⟩
    have := (h2.2 ▸ h3).reverse
    simpa using this

theorem destruct_constructed {h : List CoarseCall} (hp : IsProgram h) {i : ℕ}
    (hd : .destruct i ∈ h) : ∃ b, .construct i b ∈ h := by
  obtain ⟨a, b, e⟩ := List.append_of_mem hd
  obtain ⟨x, hx⟩ := (hp a _ b e).1
  exact ⟨x, by rw [e]; exact List.mem_append_left _ hx⟩

theorem construct_kind {h : List CoarseCall} (hp : IsProgram h) {i : ℕ} {b c : Bool}
    (h1 : .construct i b ∈ h) (h2 : .construct i c ∈ h) : b = c := by
  induction h using List.reverseRecOn with
  | nil => simp at h1
  | append_singleton h d ih =>
    obtain ⟨hp', hd⟩ := hp.init
    rcases List.mem_append.1 h1 with k1 | k1 <;> rcases List.mem_append.1 h2 with k2 | k2
    · exact ih hp' k1 k2
    · rw [List.mem_singleton] at k2
      subst k2
      exact absurd k1 (hd b)
    · rw [List.mem_singleton] at k1
      subst k1
      exact absurd k2 (hd c)
    · rw [List.mem_singleton] at k1 k2
      rw [← k2] at k1
      injection k1

/-- What the state says about the history. -/
structure CoarseInv (h : List CoarseCall) (s : CoarseState) : Prop where
  gone : ∀ j, s.solvers j = none → (∀ b, .construct j b ∉ h) ∨ .destruct j ∈ h
  other : ∀ j, s.solvers j = some none → .construct j false ∈ h
  amgx : ∀ j e, s.solvers j = some (some e) → .construct j true ∈ h
  session : ∀ j e, s.solvers j = some (some e) → e ≤ s.lib.session
  fresh : ∀ j e, s.solvers j = some (some e) →
    ((s.lib.on = true ∧ s.lib.session = e) ↔ FreshSince h j)

theorem freshSince_snoc {h : List CoarseCall} {c : CoarseCall} {j : ℕ} (hp : IsProgram (h ++ [c]))
    (hc : ∀ i, c = .destruct i → .construct i true ∉ h) : FreshSince (h ++ [c]) j ↔ FreshSince h j := by
  obtain ⟨hp', hpos⟩ := hp.init
  constructor
  · intro hf i hij hi hs
    exact hf i hij (List.mem_append_left _ hi) (hs.trans (List.sublist_append_left _ _))
  · intro hf i hij hi hs
    rcases sublist_snoc (l := [CoarseCall.construct j true]) hs with h2 | ⟨h2, _⟩
    · rcases List.mem_append.1 hi with hi | hi
      · exact hf i hij hi h2
      · rw [List.mem_singleton] at hi
        subst hi
        obtain ⟨b, hb⟩ := destruct_constructed hp' (i := i) (h2.subset (show CoarseCall.destruct i ∈ _ by simp))
        exact hpos b hb
    · have hi' : CoarseCall.construct i true ∈ h := by
        rcases List.mem_append.1 hi with hi | hi
        · exact hi
        · rw [List.mem_singleton, ← h2] at hi
          cases hi
      exact hc i h2.symm hi'

theorem touch_ok {l : AmgxSessions} {e : ℕ} {u : Unit} (h : l.touch e = .ok u) :
    l.on = true ∧ l.session = e := by
  unfold AmgxSessions.touch at h
  by_contra hn
  rw [if_neg hn] at h
  cases h

theorem touch_of {l : AmgxSessions} {e : ℕ} (h : l.on = true ∧ l.session = e) : l.touch e = .ok () :=
  if_pos h

theorem touch_not {l : AmgxSessions} {e : ℕ} (h : ¬ (l.on = true ∧ l.session = e)) :
    l.touch e = .ub "AMGX object used after AMGX_finalize" :=
  if_neg h

theorem initialize_on (l : AmgxSessions) : l.initialize.on = true := by
  unfold AmgxSessions.initialize
  split_ifs with h
  · exact h
  · rfl

theorem initialize_session (l : AmgxSessions) :
    l.session ≤ l.initialize.session ∧ (l.on = true → l.initialize.session = l.session) ∧
    (l.on = false → l.initialize.session = l.session + 1) := by
  unfold AmgxSessions.initialize
  split_ifs with h
  · exact ⟨Nat.le_refl _, fun _ => rfl, fun h' => by rw [h] at h'; cases h'⟩
  · exact ⟨Nat.le_succ _, fun h' => absurd h' h, fun _ => rfl⟩

theorem step_construct (counted : Bool) (s : CoarseState) (i : ℕ) :
    coarseStep counted s (.construct i true) = .ok { lib := s.lib.initialize, solvers := Function.update s.solvers i (some (some s.lib.initialize.session)) } := by
  simp only [coarseStep, if_true, touch_of ⟨initialize_on s.lib, rfl⟩, Outcome.ok_bind]

theorem coarseInv_step {h : List CoarseCall} {c : CoarseCall} (hp : IsProgram (h ++ [c]))
    {s t : CoarseState} (hi : CoarseInv h s) (hs : coarseStep false s c = .ok t) :
    CoarseInv (h ++ [c]) t := by
  obtain ⟨hp', hpos⟩ := hp.init
  have old : ∀ {x : CoarseCall}, x ∈ h → x ∈ h ++ [c] := fun hx => List.mem_append_left _ hx
  cases c with
  | construct i b =>
    have hnot : ∀ k, CoarseCall.construct i b = .destruct k → CoarseCall.construct k true ∉ h := by
      intro k hk; cases hk
    cases b with
    | true =>
      rw [step_construct] at hs
      injection hs with hs
      subst hs
      obtain ⟨g1, g2, g3⟩ := initialize_session s.lib
      refine ⟨?_, ?_, ?_, ?_, ?_⟩
      · intro j hj
        by_cases hji : j = i
        · subst hji; simp at hj
        · simp only [Function.update_of_ne hji] at hj
          rcases hi.gone j hj with hg | hg
          · left
            intro b hb
            rcases List.mem_append.1 hb with hb | hb
            · exact hg b hb
            · rw [List.mem_singleton] at hb
              injection hb with hb
              exact hji hb
          · exact Or.inr (old hg)
      · intro j hj
        by_cases hji : j = i
        · subst hji; simp at hj
        · simp only [Function.update_of_ne hji] at hj
          exact old (hi.other j hj)
      · intro j e hj
        by_cases hji : j = i
        · subst hji; simp
        · simp only [Function.update_of_ne hji] at hj
          exact old (hi.amgx j e hj)
      · intro j e hj
        by_cases hji : j = i
        · subst hji
          simp only [Function.update_self, Option.some.injEq] at hj
          exact hj ▸ Nat.le_refl _
        · simp only [Function.update_of_ne hji] at hj
          exact Nat.le_trans (hi.session j e hj) g1
      · intro j e hj
        rw [freshSince_snoc hp hnot]
        by_cases hji : j = i
        · subst hji
          simp only [Function.update_self, Option.some.injEq] at hj
          refine ⟨fun _ k hk _ hsub => ?_, fun _ => ⟨initialize_on _, hj⟩⟩
          exact hpos true (hsub.subset (by simp))
        · simp only [Function.update_of_ne hji] at hj
          rw [← hi.fresh j e hj]
          have hle := hi.session j e hj
          cases hon : s.lib.on with
          | true => simp only [initialize_on, g2 hon]
          | false =>
            have := g3 hon
            simp only [initialize_on, Bool.false_eq_true, false_and, iff_false]
            intro hh
            have := hh.2
            omega
    | false =>
      simp only [coarseStep, Bool.false_eq_true, if_false] at hs
      injection hs with hs
      subst hs
      refine ⟨?_, ?_, ?_, ?_, ?_⟩
      · intro j hj
        by_cases hji : j = i
        · subst hji; simp at hj
        · simp only [Function.update_of_ne hji] at hj
          rcases hi.gone j hj with hg | hg
          · left
            intro b hb
            rcases List.mem_append.1 hb with hb | hb
            · exact hg b hb
            · rw [List.mem_singleton] at hb
              injection hb with hb
              exact hji hb
          · exact Or.inr (old hg)
      · intro j hj
        by_cases hji : j = i
        · subst hji; simp
        · simp only [Function.update_of_ne hji] at hj
          exact old (hi.other j hj)
      · intro j e hj
        by_cases hji : j = i
        · subst hji; simp at hj
        · simp only [Function.update_of_ne hji] at hj
          exact old (hi.amgx j e hj)
      · intro j e hj
        by_cases hji : j = i
        · subst hji; simp at hj
        · simp only [Function.update_of_ne hji] at hj
          exact hi.session j e hj
      · intro j e hj
        rw [freshSince_snoc hp hnot]
        by_cases hji : j = i
        · subst hji; simp at hj
        · simp only [Function.update_of_ne hji] at hj
          exact hi.fresh j e hj
  | apply i =>
    have hst : t = s := by
      simp only [coarseStep] at hs
      cases hsi : s.solvers i with
      | none => rw [hsi] at hs; cases hs
      | some o =>
        cases o with
        | none => rw [hsi] at hs; injection hs with hs; exact hs.symm
        | some e =>
          rw [hsi] at hs
          cases htc : s.lib.touch e with
          | ok u =>
            simp only [htc, Outcome.ok_bind] at hs
            injection hs with hs; exact hs.symm
          | throws m => simp only [htc] at hs; cases hs
          | aborted => simp only [htc] at hs; cases hs
          | ub w => simp only [htc] at hs; cases hs
    subst hst
    refine ⟨?_, fun j hj => old (hi.other j hj), fun j e hj => old (hi.amgx j e hj), hi.session, ?_⟩
    · intro j hj
      rcases hi.gone j hj with hg | hg
      · exact Or.inl fun b hb => by
          rcases List.mem_append.1 hb with hb | hb
          · exact hg b hb
          · simp at hb
      · exact Or.inr (old hg)
    · intro j e hj
      rw [freshSince_snoc hp (fun k hk => by cases hk)]
      exact hi.fresh j e hj
  | destruct i =>
    have gone' : ∀ (f : ℕ → Option (Option ℕ)), f = Function.update s.solvers i none → ∀ j, f j = none →
        (∀ b, CoarseCall.construct j b ∉ h ++ [.destruct i]) ∨ .destruct j ∈ h ++ [.destruct i] := by
      intro f hf j hj
      by_cases hji : j = i
      · subst hji; right; simp
      · rw [hf, Function.update_of_ne hji] at hj
        rcases hi.gone j hj with hg | hg
        · exact Or.inl fun b hb => by
            rcases List.mem_append.1 hb with hb | hb
            · exact hg b hb
            · simp at hb
        · exact Or.inr (old hg)
    have upd : ∀ j o, Function.update s.solvers i none j = some o → j ≠ i ∧ s.solvers j = some o := by
      intro j o hj
      by_cases hji : j = i
      · subst hji; simp at hj
      · exact ⟨hji, by rwa [Function.update_of_ne hji] at hj⟩
    simp only [coarseStep] at hs
    cases hsi : s.solvers i with
    | none => rw [hsi] at hs; cases hs
    | some o =>
      cases o with
      | none =>
        rw [hsi] at hs
        injection hs with hs
        subst hs
        refine ⟨gone' _ rfl, fun j hj => old (hi.other j (upd j _ hj).2),
          fun j e hj => old (hi.amgx j e (upd j _ hj).2), fun j e hj => hi.session j e (upd j _ hj).2, ?_⟩
        intro j e hj
        rw [freshSince_snoc hp]
        · exact hi.fresh j e (upd j _ hj).2
        · intro k hk hk'
          injection hk with hk
          subst hk
          have := construct_kind hp' hk' (hi.other i hsi)
          cases this
      | some e =>
        rw [hsi] at hs
        cases htc : s.lib.touch e with
        | throws m => simp only [htc] at hs; cases hs
        | aborted => simp only [htc] at hs; cases hs
        | ub w => simp only [htc] at hs; cases hs
        | ok u =>
          have hon := touch_ok htc
          simp only [htc, Outcome.ok_bind, AmgxSessions.finalize, hon.1, if_true, Bool.false_and] at hs
          injection hs with hs
          subst hs
          refine ⟨gone' _ rfl, fun j hj => old (hi.other j (upd j _ hj).2),
            fun j e hj => old (hi.amgx j e (upd j _ hj).2), fun j e hj => hi.session j e (upd j _ hj).2, ?_⟩
          intro j e' hj
          obtain ⟨hji, hj'⟩ := upd j _ hj
          simp only [Bool.false_eq_true, false_and, false_iff]
          intro hf
          refine hf i (Ne.symm hji) (old (hi.amgx i e hsi)) ?_
          exact List.Sublist.append (l₁ := [CoarseCall.construct j true])
            (List.singleton_sublist.2 (hi.amgx j e' hj')) (List.Sublist.refl _)

theorem coarseInv_run {h : List CoarseCall} (hp : IsProgram h) {s : CoarseState}
    (hs : coarseRun false .init h = .ok s) : CoarseInv h s := by
  induction h using List.reverseRecOn generalizing s with
  | nil =>
    injection hs with hs
    subst hs
    refine ⟨fun j _ => Or.inl (fun b hb => by simp at hb), ?_, ?_, ?_, ?_⟩ <;>
    · intro j
      intros
      simp_all [CoarseState.init]
  | append_singleton h c ih =>
    rw [coarseRun_append] at hs
    obtain ⟨t, h1, h2⟩ := Outcome.bind_eq_ok.1 hs
    exact coarseInv_step hp (ih hp.init.1 h1) h2

/-- The call `c` is made on the solver `j`. -/
theorem overtaken_snoc {h : List CoarseCall} {c : CoarseCall} (hp : IsProgram (h ++ [c])) {i j : ℕ} :
    Overtaken (h ++ [c]) i j ↔ Overtaken h i j ∨
      ((c = .apply j ∨ c = .destruct j) ∧ i ≠ j ∧ .construct i true ∈ h ∧
        List.Sublist [.construct j true, .destruct i] h) := by
  obtain ⟨hp', hpos⟩ := hp.init
  have hmem : .construct i true ∈ h ++ [c] → .destruct i ∈ h → CoarseCall.construct i true ∈ h := by
    intro h1 h2
    rcases List.mem_append.1 h1 with h1 | h1
    · exact h1
    · rw [List.mem_singleton] at h1
      subst h1
      obtain ⟨b, hb⟩ := destruct_constructed hp' h2
      exact absurd hb (hpos b)
  constructor
  · rintro ⟨hij, hi, hs⟩
    rcases hs with hs | hs <;>
      rcases sublist_snoc (l := [CoarseCall.construct j true, .destruct i]) hs with hs | ⟨hs, hs'⟩
    · exact Or.inl ⟨hij, hmem hi (hs.subset (by simp)), Or.inl hs⟩
    · exact Or.inr ⟨Or.inl hs.symm, hij, hmem hi (hs'.subset (by simp)), hs'⟩
    · exact Or.inl ⟨hij, hmem hi (hs.subset (by simp)), Or.inr hs⟩
    · exact Or.inr ⟨Or.inr hs.symm, hij, hmem hi (hs'.subset (by simp)), hs'⟩
  · rintro (⟨hij, hi, hs⟩ | ⟨hc, hij, hi, hs⟩)
    · exact ⟨hij, List.mem_append_left _ hi,
        hs.imp (fun hs => hs.trans (List.sublist_append_left _ _))
          (fun hs => hs.trans (List.sublist_append_left _ _))⟩
    · refine ⟨hij, List.mem_append_left _ hi, ?_⟩
      rcases hc with rfl | rfl
      · exact Or.inl (List.Sublist.append (l₁ := [CoarseCall.construct j true, .destruct i]) hs
          (List.Sublist.refl _))
      · exact Or.inr (List.Sublist.append (l₁ := [CoarseCall.construct j true, .destruct i]) hs
          (List.Sublist.refl _))

theorem coarse_outcome {h : List CoarseCall} (hp : IsProgram h) :
    ((∃ s, coarseRun false .init h = .ok s) ∧ ∀ i j, ¬ Overtaken h i j) ∨
    ((∃ w, coarseRun false .init h = .ub w) ∧ ∃ i j, Overtaken h i j) := by
  induction h using List.reverseRecOn with
  | nil =>
    left
    refine ⟨⟨_, rfl⟩, ?_⟩
    rintro i j ⟨_, hi, _⟩
    cases hi
  | append_singleton h c ih =>
    obtain ⟨hp', hpos⟩ := hp.init
    rw [coarseRun_append]
    rcases ih hp' with ⟨⟨s, hs⟩, hno⟩ | ⟨⟨w, hw⟩, i, j, hij⟩
    · have hinv := coarseInv_run hp' hs
      rw [hs, Outcome.ok_bind]
      -- a call on an existing solver
      have call : ∀ j, (c = .apply j ∨ c = .destruct j) →
          ((∃ t, coarseStep false s c = .ok t) ∧ FreshSince h j) ∨
          ((∃ t, coarseStep false s c = .ok t) ∧ CoarseCall.construct j true ∉ h) ∨
          ((∃ w, coarseStep false s c = .ub w) ∧ ¬ FreshSince h j) := by
        intro j hc
        have hex : (∃ b, CoarseCall.construct j b ∈ h) ∧ .destruct j ∉ h := by
          rcases hc with rfl | rfl <;> exact hpos
        cases hsj : s.solvers j with
        | none =>
          rcases hinv.gone j hsj with hg | hg
          · exact absurd hex.1.choose_spec (hg _)
          · exact absurd hg hex.2
        | some o =>
          cases o with
          | none =>
            refine Or.inr (Or.inl ⟨?_, fun hk => ?_⟩)
            · rcases hc with rfl | rfl <;> simp only [coarseStep, hsj] <;> exact ⟨_, rfl⟩
            · have := construct_kind hp' hk (hinv.other j hsj)
              cases this
          | some e =>
            by_cases hf : s.lib.on = true ∧ s.lib.session = e
            · refine Or.inl ⟨?_, (hinv.fresh j e hsj).1 hf⟩
              rcases hc with rfl | rfl
              · simp only [coarseStep, hsj, touch_of hf, Outcome.ok_bind]
                exact ⟨_, rfl⟩
              · simp only [coarseStep, hsj, touch_of hf, Outcome.ok_bind, AmgxSessions.finalize, hf.1,
                  if_true]
                exact ⟨_, rfl⟩
            · refine Or.inr (Or.inr ⟨?_, fun hf' => hf ((hinv.fresh j e hsj).2 hf')⟩)
              rcases hc with rfl | rfl <;> simp only [coarseStep, hsj, touch_not hf] <;> exact ⟨_, rfl⟩
      have done : ∀ j, (c = .apply j ∨ c = .destruct j) →
          ((∃ t, coarseStep false s c = .ok t) ∧ ∀ i j, ¬ Overtaken (h ++ [c]) i j) ∨
          ((∃ w, coarseStep false s c = .ub w) ∧ ∃ i j, Overtaken (h ++ [c]) i j) := by
        intro j hc
        have hname : ∀ k, (c = .apply k ∨ c = .destruct k) → k = j := by
          intro k hk
          rcases hc with rfl | rfl <;> simpa [eq_comm] using hk
        rcases call j hc with ⟨hok, hf⟩ | ⟨hok, hk⟩ | ⟨hub, hf⟩
        · refine Or.inl ⟨hok, fun i k hik => ?_⟩
          rcases (overtaken_snoc hp).1 hik with hik | ⟨hck, hne, hi, hsub⟩
          · exact hno i k hik
          · have := hname k hck
            subst this
            exact hf i hne hi hsub
        · refine Or.inl ⟨hok, fun i k hik => ?_⟩
          rcases (overtaken_snoc hp).1 hik with hik | ⟨hck, hne, hi, hsub⟩
          · exact hno i k hik
          · have := hname k hck
            subst this
            exact hk (hsub.subset (by simp))
        · refine Or.inr ⟨hub, ?_⟩
          unfold FreshSince at hf
          push Not at hf
          obtain ⟨i, hij, hi, hsub⟩ := hf
          exact ⟨i, j, (overtaken_snoc hp).2 (Or.inr ⟨hc, hij, hi, hsub⟩)⟩
      cases c with
      | construct k b =>
        refine Or.inl ⟨?_, fun i j hij => ?_⟩
        · cases b
          · exact ⟨_, rfl⟩
          · exact ⟨_, step_construct _ _ _⟩
        · rcases (overtaken_snoc hp).1 hij with hij | ⟨hc, _⟩
          · exact hno i j hij
          · rcases hc with hc | hc <;> cases hc
      | apply j => exact done j (Or.inl rfl)
      | destruct j => exact done j (Or.inr rfl)
    · refine Or.inr ⟨⟨w, by rw [hw]; rfl⟩, i, j, (overtaken_snoc hp).2 (Or.inl hij)⟩

/-- A program runs without using AMGX objects after the library has been finalised exactly if no AMGX solver
is applied or destroyed after the destruction of another AMGX solver that happened during its life. -/
theorem C104_safe_iff {h : List CoarseCall} (hp : IsProgram h) :
    (∃ s, coarseRun false .init h = .ok s) ↔ ∀ i j, ¬ Overtaken h i j := by
  rcases coarse_outcome hp with ⟨hok, hno⟩ | ⟨⟨w, hw⟩, i, j, hij⟩
  · exact ⟨fun _ => hno, fun _ => hok⟩
  · refine ⟨?_, fun hno => absurd hij (hno i j)⟩
    rintro ⟨s, hs⟩
    rw [hw] at hs
    cases hs

/-- The programs for which the claim holds: AMGX solvers one after the other, next to any number of other
solvers.  Missing for the full claim "all programs": see `C104_two_solvers_violated`. -/
theorem C104_one_at_a_time_partial {h : List CoarseCall} (hp : IsProgram h)
    (hone : ∀ (a b : List CoarseCall) (i j : ℕ), h = a ++ .construct i true :: b → ¬ AmgxExists a j) :
    ∃ s, coarseRun false .init h = .ok s := by
  rw [C104_safe_iff hp]
  rintro i j ⟨hij, hi, hs⟩
  obtain ⟨c, hc, hs⟩ : ∃ c, (c = .apply j ∨ c = .destruct j) ∧
      List.Sublist [CoarseCall.construct j true, .destruct i, c] h := by
    rcases hs with hs | hs
    · exact ⟨_, Or.inl rfl, hs⟩
    · exact ⟨_, Or.inr rfl, hs⟩
  -- the three calls and what lies between them
  obtain ⟨r1, r2, e, h1, hs⟩ := List.cons_sublist_iff.1 hs
  obtain ⟨a, a', rfl⟩ := List.append_of_mem h1
  obtain ⟨r3, r4, rfl, h2, h3⟩ := List.cons_sublist_iff.1 hs
  obtain ⟨b, b', rfl⟩ := List.append_of_mem h2
  obtain ⟨d, d', rfl⟩ := List.append_of_mem (List.singleton_sublist.1 h3)
  have p1 := hp (a ++ .construct j true :: (a' ++ b)) (.destruct i) (b' ++ (d ++ c :: d'))
    (by rw [e]; simp)
  have p2 := hp (a ++ .construct j true :: (a' ++ b ++ .destruct i :: (b' ++ d))) c d' (by rw [e]; simp)
  have p2' : CoarseCall.destruct j ∉ a ++ .construct j true :: (a' ++ b ++ .destruct i :: (b' ++ d)) := by
    rcases hc with rfl | rfl <;> exact p2.2
  obtain ⟨⟨x, hx⟩, hnd⟩ := p1
  have hxt : x = true := by
    refine construct_kind hp (i := i) ?_ hi
    rw [e]
    simp only [List.mem_append, List.mem_cons] at hx ⊢
    tauto
  subst hxt
  rcases List.mem_append.1 hx with hx | hx
  · refine hone a (a' ++ (b ++ .destruct i :: b' ++ (d ++ c :: d'))) j i (by rw [e]; simp) ⟨hx, fun hd => ?_⟩
    exact hnd (List.mem_append_left _ hd)
  · rcases List.mem_cons.1 hx with hx | hx
    · injection hx with hx
      exact hij hx
    · obtain ⟨u, v, huv⟩ := List.append_of_mem hx
      refine hone (a ++ .construct j true :: u) (v ++ (.destruct i :: b' ++ (d ++ c :: d'))) i j ?_
        ⟨by simp, fun hd => ?_⟩
      · rw [e]
        have : a' ++ (b ++ CoarseCall.destruct i :: b' ++ (d ++ c :: d'))
            = (a' ++ b) ++ (.destruct i :: b' ++ (d ++ c :: d')) := by simp
        rw [List.append_assoc, List.cons_append, this, huv]
        simp
      · apply p2'
        rw [huv]
        simp only [List.mem_append, List.mem_cons] at hd ⊢
        tauto

theorem pair_sublist {α : Type} {x y : α} {l : List α} (hx : x ∈ l) (hy : y ∈ l) (hxy : x ≠ y) :
    List.Sublist [x, y] l ∨ List.Sublist [y, x] l := by
  obtain ⟨a, b, rfl⟩ := List.append_of_mem hx
  rcases List.mem_append.1 hy with hy | hy
  · right
    have h1 : List.Sublist [y] a := List.singleton_sublist.2 hy
    have h2 : List.Sublist [x] (x :: b) := List.singleton_sublist.2 (by simp)
    exact h1.append h2
  · left
    rcases List.mem_cons.1 hy with hy | hy
    · exact absurd hy.symm hxy
    · exact (List.Sublist.cons_cons x (List.singleton_sublist.2 hy)).trans (List.sublist_append_right _ _)

/-- The claim fails for every program that has two AMGX solvers at the same time and destroys them both,
in whatever order. -/
theorem C104_two_solvers_violated {a b : List CoarseCall} (hp : IsProgram (a ++ b)) {i j : ℕ} (hij : i ≠ j)
    (hi : AmgxExists a i) (hj : AmgxExists a j) (hdi : .destruct i ∈ b) (hdj : .destruct j ∈ b) :
    ∃ w, coarseRun false .init (a ++ b) = .ub w := by
  rcases coarse_outcome hp with ⟨_, hno⟩ | ⟨hub, _⟩
  · exfalso
    rcases pair_sublist hdi hdj (by simpa using hij) with hs | hs
    · exact hno i j ⟨hij, List.mem_append_left _ hi.1, Or.inr
        (List.Sublist.append (l₁ := [_]) (List.singleton_sublist.2 hj.1) hs)⟩
    · exact hno j i ⟨hij.symm, List.mem_append_left _ hj.1, Or.inr
        (List.Sublist.append (l₁ := [_]) (List.singleton_sublist.2 hi.1) hs)⟩
  · exact hub

/-- Also a solver that is kept can no longer be applied once another one has been destroyed, whatever has
been constructed in the meantime. -/
theorem C104_kept_solver_violated {a b c : List CoarseCall} {i j : ℕ} (hij : i ≠ j)
    (hp : IsProgram (a ++ .destruct i :: (b ++ .apply j :: c))) (hi : .construct i true ∈ a)
    (hj : .construct j true ∈ a) :
    ∃ w, coarseRun false .init (a ++ .destruct i :: (b ++ .apply j :: c)) = .ub w := by
  rcases coarse_outcome hp with ⟨_, hno⟩ | ⟨hub, _⟩
  · exfalso
    refine hno i j ⟨hij, List.mem_append_left _ hi, Or.inl ?_⟩
    refine List.Sublist.append (l₁ := [_]) (List.singleton_sublist.2 hj) ?_
    exact List.Sublist.cons_cons _ (List.singleton_sublist.2 (by simp))
  · exact hub

/-- What the state says about the history when the library counts its initialisations; `L` are the AMGX
solvers that exist. -/
structure CountedInv (h : List CoarseCall) (s : CoarseState) (L : List ℕ) : Prop where
  gone : ∀ j, s.solvers j = none → (∀ b, .construct j b ∉ h) ∨ .destruct j ∈ h
  listed : ∀ j ∈ L, ∃ b, .construct j b ∈ h
  nodup : L.Nodup
  alive : ∀ j e, s.solvers j = some (some e) → j ∈ L ∧ s.lib.session = e
  pending : s.lib.pending = L.length
  on : s.lib.on = true ↔ 0 < s.lib.pending

theorem countedInv_run {h : List CoarseCall} (hp : IsProgram h) :
    ∃ s L, coarseRun true .init h = .ok s ∧ CountedInv h s L := by
  induction h using List.reverseRecOn with
  | nil =>
    refine ⟨_, [], rfl, fun j _ => Or.inl (fun b hb => by simp at hb), (fun j hj => by simp at hj), List.nodup_nil,
      (fun j e hj => by simp [CoarseState.init] at hj), rfl, by simp [CoarseState.init, AmgxSessions.init]⟩
  | append_singleton h c ih =>
    obtain ⟨hp', hpos⟩ := hp.init
    obtain ⟨s, L, hs, hi⟩ := ih hp'
    have old : ∀ {x : CoarseCall}, x ∈ h → x ∈ h ++ [c] := fun hx => List.mem_append_left _ hx
    have listed' : ∀ j ∈ L, ∃ b, .construct j b ∈ h ++ [c] := fun j hj => (hi.listed j hj).imp fun _ => old
    rw [coarseRun_append, hs, Outcome.ok_bind]
    have isOn : ∀ j e, s.solvers j = some (some e) → s.lib.on = true ∧ s.lib.session = e := by
      intro j e hj
      obtain ⟨h1, h2⟩ := hi.alive j e hj
      exact ⟨hi.on.2 (by rw [hi.pending]; exact List.length_pos_of_mem h1), h2⟩
    cases c with
    | construct i b =>
      have gone' : ∀ (o : Option ℕ) j, Function.update s.solvers i (some o) j = none →
          (∀ b', CoarseCall.construct j b' ∉ h ++ [.construct i b]) ∨
            .destruct j ∈ h ++ [CoarseCall.construct i b] := by
        intro o j hj
        by_cases hji : j = i
        · subst hji; simp at hj
        · rw [Function.update_of_ne hji] at hj
          rcases hi.gone j hj with hg | hg
          · refine Or.inl fun b' hb => ?_
            rcases List.mem_append.1 hb with hb | hb
            · exact hg b' hb
            · rw [List.mem_singleton] at hb
              injection hb with hb
              exact hji hb
          · exact Or.inr (old hg)
      cases b with
      | false =>
        refine ⟨_, L, rfl, gone' _, listed', hi.nodup, ?_, hi.pending, hi.on⟩
        intro j e hj
        by_cases hji : j = i
        · subst hji; simp at hj
        · simp only [Function.update_of_ne hji] at hj
          exact hi.alive j e hj
      | true =>
        refine ⟨_, i :: L, step_construct _ _ _, gone' _, ?_, ?_, ?_, ?_, ?_⟩
        · intro j hj
          rcases List.mem_cons.1 hj with rfl | hj
          · exact ⟨true, by simp⟩
          · exact listed' j hj
        · refine List.nodup_cons.2 ⟨fun hiL => ?_, hi.nodup⟩
          obtain ⟨b, hb⟩ := hi.listed i hiL
          exact hpos b hb
        · intro j e hj
          by_cases hji : j = i
          · subst hji
            simp only [Function.update_self, Option.some.injEq] at hj
            exact ⟨by simp, hj⟩
          · simp only [Function.update_of_ne hji] at hj
            obtain ⟨h1, h2⟩ := isOn j e hj
            exact ⟨List.mem_cons_of_mem _ (hi.alive j e hj).1,
              ((initialize_session s.lib).2.1 h1).trans h2⟩
        · simp only [List.length_cons, ← hi.pending, AmgxSessions.initialize]
          split_ifs <;> rfl
        · refine ⟨fun _ => ?_, fun _ => initialize_on _⟩
          simp only [AmgxSessions.initialize]
          split_ifs <;> exact Nat.succ_pos _
    | apply i =>
      have gone' : ∀ j, s.solvers j = none →
          (∀ b', CoarseCall.construct j b' ∉ h ++ [.apply i]) ∨ .destruct j ∈ h ++ [CoarseCall.apply i] := by
        intro j hj
        rcases hi.gone j hj with hg | hg
        · exact Or.inl fun b' hb => by
            rcases List.mem_append.1 hb with hb | hb
            · exact hg b' hb
            · simp at hb
        · exact Or.inr (old hg)
      refine ⟨s, L, ?_, gone', listed', hi.nodup, hi.alive, hi.pending, hi.on⟩
      cases hsi : s.solvers i with
      | none =>
        rcases hi.gone i hsi with hg | hg
        · exact absurd hpos.1.choose_spec (hg _)
        · exact absurd hg hpos.2
      | some o =>
        cases o with
        | none => simp only [coarseStep, hsi]
        | some e => simp only [coarseStep, hsi, touch_of (isOn i e hsi), Outcome.ok_bind]
    | destruct i =>
      have gone' : ∀ j, Function.update s.solvers i none j = none →
          (∀ b', CoarseCall.construct j b' ∉ h ++ [.destruct i]) ∨
            .destruct j ∈ h ++ [CoarseCall.destruct i] := by
        intro j hj
        by_cases hji : j = i
        · subst hji; right; simp
        · rw [Function.update_of_ne hji] at hj
          rcases hi.gone j hj with hg | hg
          · exact Or.inl fun b' hb => by
              rcases List.mem_append.1 hb with hb | hb
              · exact hg b' hb
              · simp at hb
          · exact Or.inr (old hg)
      have upd : ∀ j o, Function.update s.solvers i none j = some o → j ≠ i ∧ s.solvers j = some o := by
        intro j o hj
        by_cases hji : j = i
        · subst hji; simp at hj
        · exact ⟨hji, by rwa [Function.update_of_ne hji] at hj⟩
      cases hsi : s.solvers i with
      | none =>
        rcases hi.gone i hsi with hg | hg
        · exact absurd hpos.1.choose_spec (hg _)
        · exact absurd hg hpos.2
      | some o =>
        cases o with
        | none =>
          simp only [coarseStep, hsi]
          exact ⟨_, L, rfl, gone', listed', hi.nodup, fun j e hj => hi.alive j e (upd j _ hj).2,
            hi.pending, hi.on⟩
        | some e =>
          have hon := isOn i e hsi
          have hiL := (hi.alive i e hsi).1
          have hlen := List.length_erase_of_mem hiL
          have hpend := hi.pending
          have hpos' := List.length_pos_of_mem hiL
          simp only [coarseStep, hsi, touch_of hon, Outcome.ok_bind, AmgxSessions.finalize, hon.1, if_true,
            Bool.true_and]
          refine ⟨_, L.erase i, rfl, gone', fun j hj => listed' j (List.mem_of_mem_erase hj),
            hi.nodup.erase i, ?_, ?_, ?_⟩
          · intro j e' hj
            obtain ⟨hji, hj'⟩ := upd j _ hj
            obtain ⟨h1, h2⟩ := hi.alive j e' hj'
            exact ⟨(List.mem_erase_of_ne hji).2 h1, h2⟩
          · change s.lib.pending - 1 = _
            omega
          · change decide (1 < s.lib.pending) = true ↔ 0 < s.lib.pending - 1
            rw [decide_eq_true_eq]
            omega

/-- If the library counts its initialisations, every program runs: it is the missing count that breaks the
claim. -/
theorem C104_counted {h : List CoarseCall} (hp : IsProgram h) :
    ∃ s, coarseRun true .init h = .ok s := by
  obtain ⟨s, _, hs, _⟩ := countedInv_run hp
  exact ⟨s, hs⟩

/-- Two AMGX solvers, one after the other, next to a third solver of another type that is kept. -/
def exSequence : List CoarseCall :=
  [.construct 0 false, .construct 1 true, .apply 1, .destruct 1, .construct 2 true, .apply 0, .apply 2,
    .destruct 2, .destruct 0]

/-- Two AMGX solvers at the same time. -/
def exOverlap : List CoarseCall :=
  [.construct 0 true, .construct 1 true, .apply 0, .apply 1, .destruct 1, .destruct 0]

/-- A check of `IsProgram` by computation. -/
def checkProgram : List CoarseCall → List CoarseCall → Bool
  | _, [] => true
  | a, c :: b =>
    (match c with
      | .construct i _ => !(a.contains (.construct i true)) && !(a.contains (.construct i false))
      | .apply i => (a.contains (.construct i true) || a.contains (.construct i false))
          && !(a.contains (.destruct i))
      | .destruct i => (a.contains (.construct i true) || a.contains (.construct i false))
          && !(a.contains (.destruct i))) && checkProgram (a ++ [c]) b

theorem checkProgram_spec (p h : List CoarseCall) (hc : checkProgram p h = true) :
    ∀ (a : List CoarseCall) (c : CoarseCall) (b : List CoarseCall), h = a ++ c :: b → c.Possible (p ++ a) := by
  induction h generalizing p with
  | nil => intro a c b e; simp at e
  | cons d h ih =>
    intro a c b e
    rw [checkProgram.eq_def] at hc
    simp only [Bool.and_eq_true] at hc
    cases a with
    | nil =>
      simp only [List.nil_append, List.cons.injEq] at e
      obtain ⟨rfl, rfl⟩ := e
      rw [List.append_nil]
      cases d with
      | construct i b =>
        intro b'
        have := hc.1
        cases b' <;> simp_all
      | apply i =>
        have := hc.1
        simp only [Bool.and_eq_true, Bool.or_eq_true, Bool.not_eq_true',
          List.contains_eq_mem, decide_eq_true_eq, decide_eq_false_iff_not] at this
        exact ⟨this.1.elim (fun h => ⟨true, h⟩) (fun h => ⟨false, h⟩), this.2⟩
      | destruct i =>
        have := hc.1
        simp only [Bool.and_eq_true, Bool.or_eq_true, Bool.not_eq_true',
          List.contains_eq_mem, decide_eq_true_eq, decide_eq_false_iff_not] at this
        exact ⟨this.1.elim (fun h => ⟨true, h⟩) (fun h => ⟨false, h⟩), this.2⟩
    | cons x a =>
      simp only [List.cons_append, List.cons.injEq] at e
      obtain ⟨rfl, e⟩ := e
      have := ih (p ++ [d]) hc.2 a c b e
      simpa using this

theorem exSequence_program : IsProgram exSequence := fun a c b e => by
  simpa using checkProgram_spec [] exSequence (by decide) a c b e

theorem exOverlap_program : IsProgram exOverlap := fun a c b e => by
  simpa using checkProgram_spec [] exOverlap (by decide) a c b e

example : ∃ s, coarseRun false .init exSequence = .ok s := by
  refine C104_one_at_a_time_partial exSequence_program ?_
  rintro a b i j e ⟨h1, h2⟩
  have key : ∀ k < exSequence.length, ∀ i ∈ [1, 2], ∀ j ∈ [1, 2], exSequence[k]? = some (.construct i true) →
      CoarseCall.construct j true ∈ exSequence.take k → .destruct j ∈ exSequence.take k := by decide
  have hi : i ∈ [1, 2] := by
    have : CoarseCall.construct i true ∈ exSequence := by rw [e]; simp
    simpa [exSequence] using this
  have hj : j ∈ [1, 2] := by
    have : CoarseCall.construct j true ∈ exSequence := by rw [e]; exact List.mem_append_left _ h1
    simpa [exSequence] using this
  have ht : exSequence.take a.length = a := by rw [e]; simp
  refine h2 (ht ▸ key a.length (by rw [e]; simp) i hi j hj (by rw [e]; simp) (ht.symm ▸ h1))

example : ∃ w, coarseRun false .init exOverlap = .ub w :=
  C104_two_solvers_violated (a := exOverlap.take 4) (b := exOverlap.drop 4) (i := 0) (j := 1)
    exOverlap_program (by decide) ⟨by decide, by decide⟩ ⟨by decide, by decide⟩ (by decide) (by decide)

example : ∃ w, coarseRun false .init [.construct 0 true, .construct 1 true, .destruct 1, .construct 2 true,
    .apply 0] = .ub w :=
  C104_kept_solver_violated (a := [.construct 0 true, .construct 1 true]) (b := [.construct 2 true]) (c := [])
    (i := 1) (j := 0) (by decide)
    (fun a c b e => by simpa using checkProgram_spec [] _ (by decide) a c b e) (by decide) (by decide)

example : ∃ s, coarseRun true .init exOverlap = .ok s := C104_counted exOverlap_program

example : ¬ ∃ s, coarseRun false .init exOverlap = .ok s := by
  rw [C104_safe_iff exOverlap_program]
  intro h
  exact h 1 0 ⟨by decide, by decide, Or.inr (by decide)⟩

end Mfmg
