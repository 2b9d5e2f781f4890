import Verif.Lemmas.Store
import Verif.Lemmas.Timer

/-!
# Lemmas on several threads that apply hierarchies
-/

set_option autoImplicit false

namespace Mfmg

open Spec

variable {V : ℕ → Type}

/-! ## What the statements access -/

theorem writes_sub_accesses (s : VStmt V) : ∀ c ∈ s.writes, c ∈ s.accesses := by
  cases s <;> simp [VStmt.writes, VStmt.accesses]

/-- Access only to the vectors `b` and `x` of level `l`, to the local vectors of thread `t` and to the object of
the direct solver; only `x`, the local vectors and the object are written. -/
def Confined (P : Parts V) (t l : ℕ) (b x : VecName) (s : VStmt V) : Prop :=
  (∀ c ∈ s.accesses, c = .vec l b ∨ c = .vec l x ∨ (∃ m k, c = .vec m (.temp t k)) ∨
    ∃ q, P.problem = some q ∧ c = .problem q) ∧
  (∀ c ∈ s.writes, c = .vec l x ∨ (∃ m k, c = .vec m (.temp t k)) ∨
    ∃ q, P.problem = some q ∧ c = .problem q)

theorem smoothStmts_confined (P : Parts V) (t l k : ℕ) (b x : VecName) :
    ∀ s ∈ smoothStmts P t l k b x, Confined P t l b x s := by
  intro s hs
  simp only [smoothStmts, List.mem_cons, List.not_mem_nil, or_false] at hs
  rcases hs with rfl | rfl | rfl | rfl | rfl | rfl | rfl | rfl <;>
    simp [Confined, VStmt.accesses, VStmt.writes]

theorem smoothLoopStmts_confined (P : Parts V) (t l k : ℕ) (b x : VecName) (n : ℕ) :
    ∀ s ∈ smoothLoopStmts P t l k b x n, Confined P t l b x s := by
  induction n with
  | zero => simp [smoothLoopStmts]
  | succ n ih =>
    intro s hs
    rw [smoothLoopStmts, List.mem_append] at hs
    exact hs.elim (smoothStmts_confined P t l k b x s) (ih s)

theorem applyStmts_confined (P : Parts V) (junk : ∀ l, ℕ → V l) (t d : ℕ) :
    ∀ (l k : ℕ) (b x : VecName), ∀ s ∈ applyStmts P junk t d l k b x, Confined P t l b x s := by
  induction d with
  | zero =>
    intro l k b x s hs
    rw [applyStmts, List.mem_append] at hs
    rcases hs with hs | hs
    · split at hs
      · simp only [List.mem_singleton] at hs
        subst hs
        simp [Confined, VStmt.accesses, VStmt.writes]
      · simp at hs
    · simp only [List.mem_singleton] at hs
      subst hs
      cases hp : P.problem <;> simp [Confined, VStmt.accesses, VStmt.writes, hp]
  | succ d ih =>
    intro l k b x s hs
    rw [applyStmts] at hs
    simp only [List.mem_append] at hs
    rcases hs with (((((hs | hs) | hs) | hs) | hs) | hs) | hs
    · split at hs
      · simp only [List.mem_singleton] at hs
        subst hs
        simp [Confined, VStmt.accesses, VStmt.writes]
      · simp at hs
    · exact smoothLoopStmts_confined P t l k b x _ s hs
    · simp only [List.mem_cons, List.not_mem_nil, or_false] at hs
      rcases hs with rfl | rfl | rfl | rfl | rfl | rfl <;>
        simp [Confined, VStmt.accesses, VStmt.writes]
    · obtain ⟨h1, h2⟩ := ih _ _ _ _ s hs
      refine ⟨fun c hc => ?_, fun c hc => ?_⟩
      · rcases h1 c hc with h | h | h | h
        · exact .inr (.inr (.inl ⟨_, _, h⟩))
        · exact .inr (.inr (.inl ⟨_, _, h⟩))
        · exact .inr (.inr (.inl h))
        · exact .inr (.inr (.inr h))
      · rcases h2 c hc with h | h | h
        · exact .inr (.inl ⟨_, _, h⟩)
        · exact .inr (.inl h)
        · exact .inr (.inr h)
    · simp only [List.mem_cons, List.not_mem_nil, or_false] at hs
      rcases hs with rfl | rfl | rfl <;> simp [Confined, VStmt.accesses, VStmt.writes]
    · exact smoothLoopStmts_confined P t l (k + 4) b x _ s hs
    · simp only [List.mem_cons, List.not_mem_nil, or_false] at hs
      rcases hs with rfl | rfl | rfl | rfl <;> simp [Confined, VStmt.accesses, VStmt.writes]

/-- The coarse solver is called. -/
theorem applyStmts_solve (P : Parts V) (junk : ∀ l, ℕ → V l) (t d : ℕ) :
    ∀ (l k : ℕ) (b x : VecName), ∃ b' x',
      .solve (l + d) (P.C (l + d)) P.problem b' x' ∈ applyStmts P junk t d l k b x := by
  induction d with
  | zero => intro l k b x; exact ⟨b, x, by simp [applyStmts]⟩
  | succ d ih =>
    intro l k b x
    obtain ⟨b', x', h⟩ := ih (l + 1) (k + 3) (.temp t (k + 1)) (.temp t (k + 2))
    rw [show l + 1 + d = l + (d + 1) by omega] at h
    refine ⟨b', x', ?_⟩
    rw [applyStmts]
    simp only [List.mem_append]
    exact .inl (.inl (.inl (.inr h)))

section

variable [∀ l, AddCommGroup (V l)]

/-- A statement changes only what it writes to. -/
theorem exec_frame {s : VStmt V} {σ τ : Store V} (h : s.exec σ = .ok τ) (l : ℕ) (a : VecName)
    (hw : VCell.vec l a ∉ s.writes) : τ l a = σ l a := by
  cases s <;> simp only [VStmt.exec, VStmt.writes, Outcome.bind_eq_ok, Outcome.pure_eq,
    Outcome.ok.injEq, List.mem_cons, VCell.vec.injEq, List.not_mem_nil, or_false, not_or] at h hw
  case operate =>
    obtain ⟨v, -, w, -, h⟩ := h
    split at h
    · simp at h
    · simp only [Outcome.ok.injEq] at h
      rw [← h, Store.set_other _ _ hw]
  case build => rw [← h, Store.set_other _ _ hw]
  case solve => obtain ⟨v, -, w, -, h⟩ := h; rw [← h, Store.set_other _ _ hw.1]
  case subtract => obtain ⟨v, -, w, -, h⟩ := h; rw [← h, Store.set_other _ _ hw]
  all_goals obtain ⟨v, -, h⟩ := h; rw [← h, Store.set_other _ _ hw]

omit [∀ l, AddCommGroup (V l)] in
theorem set_agree {σ τ : Store V} {l m : ℕ} {a c : VecName} {v : Option (V l)} (h : σ m c = τ m c) :
    σ.set l a v m c = τ.set l a v m c := by
  by_cases e : m = l ∧ c = a
  · obtain ⟨rfl, rfl⟩ := e
    rw [Store.set_same, Store.set_same]
  · rw [Store.set_other _ _ e, Store.set_other _ _ e, h]

/-- What a statement does depends only on what it accesses. -/
theorem exec_agree {s : VStmt V} {σ τ σ' : Store V} (h : s.exec σ = .ok σ')
    (ha : ∀ l a, VCell.vec l a ∈ s.accesses → σ l a = τ l a) :
    ∃ τ', s.exec τ = .ok τ' ∧ ∀ l a, σ l a = τ l a → σ' l a = τ' l a := by
  cases s <;> simp only [VStmt.exec, VStmt.accesses, Outcome.bind_eq_ok, Outcome.pure_eq,
    Outcome.ok.injEq, Store.read] at h ha ⊢
  case zero l x =>
    obtain ⟨v, hv, rfl⟩ := h
    rw [ha l x (by simp)] at hv
    exact ⟨_, ⟨v, hv, rfl⟩, fun _ _ => set_agree⟩
  case build l a v =>
    subst h
    exact ⟨_, rfl, fun _ _ => set_agree⟩
  case copy l a b =>
    obtain ⟨v, hv, rfl⟩ := h
    rw [ha l b (by simp)] at hv
    exact ⟨_, ⟨v, hv, rfl⟩, fun _ _ => set_agree⟩
  case operate l m f x y =>
    obtain ⟨v, hv, w, hw, h⟩ := h
    rw [ha l x (by simp)] at hv
    rw [ha m y (by simp)] at hw
    split at h
    · simp at h
    · simp only [Outcome.ok.injEq] at h
      subst h
      refine ⟨_, ⟨v, hv, w, hw, ?_⟩, fun _ _ => set_agree⟩
      rw [if_neg (by assumption)]
  case subtract l x y =>
    obtain ⟨v, hv, w, hw, rfl⟩ := h
    rw [ha l x (by simp)] at hv
    rw [ha l y (by simp)] at hw
    exact ⟨_, ⟨v, hv, w, hw, rfl⟩, fun _ _ => set_agree⟩
  case solve l f p b x =>
    obtain ⟨v, hv, w, hw, rfl⟩ := h
    rw [ha l b (by simp)] at hv
    rw [ha l x (by simp)] at hw
    exact ⟨_, ⟨v, hv, w, hw, rfl⟩, fun _ _ => set_agree⟩
  case drop l a =>
    obtain ⟨v, hv, rfl⟩ := h
    rw [ha l a (by simp)] at hv
    exact ⟨_, ⟨v, hv, rfl⟩, fun _ _ => set_agree⟩

/-- A program changes only what its statements write to. -/
theorem runStmts_frame {p : List (VStmt V)} {σ τ : Store V} (h : runStmts p σ = .ok τ) (l : ℕ)
    (a : VecName) (hw : ∀ s ∈ p, VCell.vec l a ∉ s.writes) : τ l a = σ l a := by
  induction p generalizing σ with
  | nil => simp only [runStmts, Outcome.ok.injEq] at h; rw [h]
  | cons s p ih =>
    simp only [runStmts, Outcome.bind_eq_ok] at h
    obtain ⟨ρ, hρ, h⟩ := h
    rw [ih h fun s' hs' => hw s' (List.mem_cons_of_mem _ hs'),
      exec_frame hρ l a (hw s List.mem_cons_self)]

/-- Threads that write to nothing that another accesses do, in every order of their statements, what each of
them does alone. -/
theorem interleaving_run {ι : Type} [DecidableEq ι] {p : ι → List (VStmt V)}
    {s : List (ι × VStmt V)} (hs : Interleaving p s) :
    ∀ (σ : Store V) (σi τi : ι → Store V) (F W : ι → ℕ → VecName → Prop),
      (∀ i, ∀ q ∈ p i, ∀ l a, VCell.vec l a ∈ q.accesses → F i l a) →
      (∀ i, ∀ q ∈ p i, ∀ l a, VCell.vec l a ∈ q.writes → W i l a) →
      (∀ i j, i ≠ j → ∀ l a, W i l a → ¬ F j l a) →
      (∀ i l a, F i l a → σi i l a = σ l a) →
      (∀ i, runStmts (p i) (σi i) = .ok (τi i)) →
    ∃ τ, runStmts (s.map (·.2)) σ = .ok τ ∧ (∀ i l a, F i l a → τ l a = τi i l a) ∧
      ∀ l a, (∀ i, ¬ W i l a) → τ l a = σ l a := by
  induction hs with
  | done p hp =>
    intro σ σi τi F W _ _ _ hσ hr
    refine ⟨σ, rfl, fun i l a hF => ?_, fun _ _ _ => rfl⟩
    have := hr i
    rw [hp i] at this
    simp only [runStmts, Outcome.ok.injEq] at this
    rw [← this, hσ i l a hF]
  | step p i q rest s hi _ ih =>
    intro σ σi τi F W hF hW hdis hσ hr
    have hri := hr i
    rw [hi] at hri
    simp only [runStmts, Outcome.bind_eq_ok] at hri
    obtain ⟨ρ, hρ, hri⟩ := hri
    have hqF := hF i q (by rw [hi]; exact List.mem_cons_self)
    have hqW := hW i q (by rw [hi]; exact List.mem_cons_self)
    obtain ⟨σ', hσ', hag⟩ := exec_agree hρ (fun l a h => hσ i l a (hqF l a h))
    have sub : ∀ j, ∀ q' ∈ Function.update p i rest j, q' ∈ p j := fun j q' hq' => by
      by_cases hj : j = i
      · subst hj
        rw [Function.update_self] at hq'
        rw [hi]
        exact List.mem_cons_of_mem _ hq'
      · rwa [Function.update_of_ne hj] at hq'
    obtain ⟨τ, hτ, h1, h2⟩ := ih σ' (Function.update σi i ρ) τi F W
      (fun j q' hq' => hF j q' (sub j q' hq')) (fun j q' hq' => hW j q' (sub j q' hq')) hdis
      (fun j l a hj => by
        by_cases hji : j = i
        · subst hji
          rw [Function.update_self]
          exact hag l a (hσ j l a hj)
        · rw [Function.update_of_ne hji, hσ j l a hj]
          refine (exec_frame hσ' l a fun hw => ?_).symm
          exact hdis i j (Ne.symm hji) l a (hqW l a hw) hj)
      (fun j => by
        by_cases hji : j = i
        · subst hji
          rw [Function.update_self, Function.update_self, hri]
        · rw [Function.update_of_ne hji, Function.update_of_ne hji, hr j])
    refine ⟨τ, ?_, h1, fun l a hl => ?_⟩
    · simp only [List.map_cons, runStmts, hσ', Outcome.ok_bind, hτ]
    · rw [h2 l a hl]
      exact exec_frame hσ' l a fun hw => hl i (hqW l a hw)

end

/-! ## The timer -/

/-- Whatever part of the trace has been run, the sections that were active before are active. -/
def Deepens (t : List Event) : Prop :=
  ∀ u, u <+: t → ∀ st st', timerRunLax st u = some st' → st <:+ st'

theorem timerRun_lax {st st' : List String} {t : List Event} (h : timerRun st t = some st') :
    timerRunLax st t = some st' := by
  induction t generalizing st with
  | nil => exact h
  | cons e t ih =>
    cases e with
    | enter s =>
      rw [timerRun_enter] at h
      split at h
      · simp at h
      · rw [timerRunLax_enter]; exact ih h
    | leave =>
      cases st with
      | nil =>
        exfalso
        have : ∀ u : List Event, u.foldl timerStep none = none := by
          intro u; induction u with
          | nil => rfl
          | cons e u ih => cases e <;> simpa [timerStep] using ih
        simp [timerRun, timerStep, this] at h
      | cons s st => rw [timerRun_leave] at h; rw [timerRunLax_leave]; exact ih h
    | smooth l => rw [timerRun_smooth] at h; rw [timerRunLax_smooth]; exact ih h
    | coarse l => rw [timerRun_coarse] at h; rw [timerRunLax_coarse]; exact ih h
    | put b => rw [timerRun_put] at h; rw [timerRunLax_put]; exact ih h

theorem prefix_append_cases {α : Type} {w t u : List α} (h : w <+: t ++ u) :
    w <+: t ∨ ∃ w', w = t ++ w' ∧ w' <+: u := by
  rcases List.prefix_or_prefix_of_prefix h (List.prefix_append t u) with h' | ⟨w', rfl⟩
  · exact .inl h'
  · exact .inr ⟨w', rfl, (List.prefix_append_right_inj t).mp h⟩

theorem Deepens.append {t u : List Event} (ht : Deepens t) (hu : Deepens u)
    (hb : ∀ st, timerRunLax st t = some st) : Deepens (t ++ u) := by
  intro w hw st st' hrun
  rcases prefix_append_cases hw with h | ⟨w', rfl, h⟩
  · exact ht w h st st' hrun
  · rw [timerRunLax_append, hb] at hrun
    exact hu w' h st st' hrun

theorem Deepens.nil : Deepens [] := by
  intro u hu st st' h
  rw [List.prefix_nil] at hu
  subst hu
  simp only [timerRunLax_nil, Option.some.injEq] at h
  exact h ▸ List.suffix_rfl

theorem Deepens.coarse {t : List Event} (l : ℕ) (ht : Deepens t) : Deepens (.coarse l :: t) := by
  intro u hu st st' h
  rcases u with _ | ⟨e, u⟩
  · simp only [timerRunLax_nil, Option.some.injEq] at h
    exact h ▸ List.suffix_rfl
  · obtain ⟨rfl, hu'⟩ := List.cons_prefix_cons.mp hu
    exact ht u hu' st st' h

theorem Deepens.smooths {t : List Event} (l n : ℕ) (ht : Deepens t) :
    Deepens (List.replicate n (.smooth l) ++ t) := by
  induction n with
  | zero => simpa using ht
  | succ n ih =>
    rw [List.replicate_succ, List.cons_append]
    intro u hu st st' h
    rcases u with _ | ⟨e, u⟩
    · simp only [timerRunLax_nil, Option.some.injEq] at h
      exact h ▸ List.suffix_rfl
    · obtain ⟨rfl, hu'⟩ := List.cons_prefix_cons.mp hu
      exact ih u hu' st st' h

theorem Deepens.wrap {t : List Event} (s : String) (ht : Deepens t)
    (hb : ∀ st, timerRunLax st t = some st) : Deepens (.enter s :: (t ++ [.leave])) := by
  intro u hu st st' h
  rcases u with _ | ⟨e, u⟩
  · simp only [timerRunLax_nil, Option.some.injEq] at h
    exact h ▸ List.suffix_rfl
  · obtain ⟨rfl, hu'⟩ := List.cons_prefix_cons.mp hu
    rw [timerRunLax_enter] at h
    rcases prefix_append_cases hu' with hu | ⟨w, rfl, hw⟩
    · exact (List.suffix_cons s st).trans (ht u hu _ _ h)
    · rw [timerRunLax_append, hb] at h
      rcases w with _ | ⟨e, w⟩
      · simp only [Option.bind_some, timerRunLax_nil, Option.some.injEq] at h
        rw [← h]
        exact List.suffix_cons s st
      · obtain ⟨rfl, hw'⟩ := List.cons_prefix_cons.mp hw
        rw [List.prefix_nil] at hw'
        subst hw'
        simp only [Option.bind_some, timerRunLax_leave, timerRunLax_nil, Option.some.injEq] at h
        exact h ▸ List.suffix_rfl

theorem applyTrace_deepens (n d : ℕ) : ∀ l, Deepens (applyTrace true n d l) := by
  induction d with
  | zero =>
    intro l
    have := Deepens.wrap "Apply: coarsest level" (Deepens.coarse l Deepens.nil) (fun st => rfl)
    simpa [applyTrace, tEnter, tLeave] using this
  | succ d ih =>
    intro l
    have h1 : Deepens (List.replicate n (.smooth l) ++ []) := Deepens.smooths l n Deepens.nil
    have h2 := Deepens.smooths l n ((ih (l + 1)).append h1 (applyTrace_lax _ _ _ _))
    have := h2.wrap "Apply: fine levels" (fun st => by
      rw [timerRunLax_smooths, timerRunLax_append, applyTrace_lax]
      exact timerRunLax_smooths st n l [])
    simpa [applyTrace, tEnter, tLeave] using this

/-- The first section is active as long as the trace has not been run to its end. -/
theorem first_active {s : String} {t u w : List Event} (ht : Deepens t)
    (hu : u ++ w = .enter s :: (t ++ [.leave])) (hne : u ≠ []) (hw : w ≠ []) {st st' : List String}
    (h : timerRun st u = some st') : s ∈ st' := by
  rcases u with _ | ⟨e, u⟩
  · exact absurd rfl hne
  · rw [List.cons_append, List.cons.injEq] at hu
    obtain ⟨rfl, hu⟩ := hu
    have hp : u <+: t := by
      rcases prefix_append_cases ⟨w, hu⟩ with h' | ⟨w', rfl, h'⟩
      · exact h'
      · rcases w' with _ | ⟨e, w'⟩
        · simp
        · exfalso
          obtain ⟨rfl, h''⟩ := List.cons_prefix_cons.mp h'
          rw [List.prefix_nil] at h''
          subst h''
          apply hw
          simpa using hu
    have h := timerRun_lax h
    rw [timerRunLax_enter] at h
    exact (ht u hp _ _ h).subset List.mem_cons_self

/-- When only one thread has statements left its statements follow in their order. -/
theorem interleaving_single {ι α : Type} [DecidableEq ι] {p : ι → List α} {s : List (ι × α)}
    (h : Interleaving p s) (j : ι) (hp : ∀ i, i ≠ j → p i = []) : s = (p j).map (fun a => (j, a)) := by
  induction h with
  | done p hd => rw [hd j]; rfl
  | step p i a rest s hi _ ih =>
    have hij : i = j := by
      by_contra hne
      rw [hp i hne] at hi
      simp at hi
    subst hij
    rw [ih fun k hk => by rw [Function.update_of_ne hk, hp k hk], hi, Function.update_self]
    rfl

theorem timerRun_cons_enter_mem {st : List String} {s : String} (h : s ∈ st) (t : List Event) :
    timerRun st (.enter s :: t) = none := by
  rw [timerRun_enter, if_pos h]

theorem interleaving_timer {t rest : List Event} (ht : Deepens t) (s : String) (i : Bool)
    (w : List Event) : ∀ (u : List Event) (st : List String) (p : Bool → List Event)
      (tr : List (Bool × Event)), u ++ w = .enter s :: (t ++ [.leave]) → u ≠ [] →
      timerRun [] u = some st → p i = w → p (!i) = .enter s :: rest →
      Interleaving p tr → timerRun st (tr.map (·.2)) ≠ none →
      tr = w.map (fun a => (i, a)) ++ (p (!i)).map (fun a => (!i, a)) := by
  induction w with
  | nil =>
    intro u st p tr _ _ _ hpi hpj h _
    rw [interleaving_single h (!i) fun k hk => by
      have : k = i := by cases k <;> cases i <;> simp_all
      rw [this, hpi]]
    rfl
  | cons e w ih =>
    intro u st p tr hu hne hst hpi hpj h hrun
    cases h with
    | done _ hd => rw [hd i] at hpi; simp at hpi
    | step _ k a rest' tr hk h =>
      by_cases hki : k = i
      · subst hki
        rw [hpi, List.cons.injEq] at hk
        obtain ⟨rfl, rfl⟩ := hk
        obtain ⟨st', hst'⟩ : ∃ st', timerRun st [e] = some st' := by
          rw [Option.ne_none_iff_exists'] at hrun
          obtain ⟨x, hx⟩ := hrun
          have := timerRun_append st [e] (tr.map (·.2))
          simp only [List.map_cons] at hx
          rw [List.singleton_append, hx] at this
          cases h' : timerRun st [e] with
          | none => rw [h'] at this; simp at this
          | some y => exact ⟨y, rfl⟩
        have hpk : Function.update p k w (!k) = p (!k) :=
          Function.update_of_ne (by cases k <;> simp) _ _
        have := ih (u ++ [e]) st' (Function.update p k w) tr (by simpa using hu) (by simp)
          (by rw [timerRun_append, hst]; exact hst') (Function.update_self _ _ _)
          (by rw [hpk, hpj]) h (by
            have h3 := timerRun_append st [e] (tr.map (·.2))
            simp only [List.map_cons] at hrun
            rw [List.singleton_append, hst'] at h3
            simp only [Option.bind_some] at h3
            rw [← h3]
            exact hrun)
        rw [this, hpk]
        rfl
      · exfalso
        have : k = !i := by cases k <;> cases i <;> simp_all
        subst this
        rw [hpj, List.cons.injEq] at hk
        obtain ⟨rfl, _⟩ := hk
        have hmem := first_active ht hu hne (by simp) hst
        exact hrun (timerRun_cons_enter_mem hmem _)

end Mfmg
