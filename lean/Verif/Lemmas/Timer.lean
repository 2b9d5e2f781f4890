import Verif.Lemmas.Build

set_option autoImplicit false

namespace Mfmg

open Spec

theorem timerRun_append (st : List String) (t u : List Event) :
    timerRun st (t ++ u) = (timerRun st t).bind (fun st' => timerRun st' u) := by
  have hnone : ∀ u : List Event, u.foldl timerStep none = none := by
    intro u; induction u with
    | nil => rfl
    | cons e u ih => cases e <;> simpa [timerStep] using ih
  simp only [timerRun, List.foldl_append]
  cases h : List.foldl timerStep (some st) t <;> simp [hnone]

theorem timerRunLax_append (st : List String) (t u : List Event) :
    timerRunLax st (t ++ u) = (timerRunLax st t).bind (fun st' => timerRunLax st' u) := by
  have hnone : ∀ u : List Event, u.foldl timerStepLax none = none := by
    intro u; induction u with
    | nil => rfl
    | cons e u ih => cases e <;> simpa [timerStepLax] using ih
  simp only [timerRunLax, List.foldl_append]
  cases h : List.foldl timerStepLax (some st) t <;> simp [hnone]

@[simp] theorem timerRun_nil (st : List String) : timerRun st [] = some st := rfl
@[simp] theorem timerRunLax_nil (st : List String) : timerRunLax st [] = some st := rfl

theorem timerRun_enter (st : List String) (s : String) (t : List Event) :
    timerRun st (.enter s :: t) = if s ∈ st then none else timerRun (s :: st) t := by
  have := timerRun_append st [.enter s] t
  rw [List.singleton_append] at this
  rw [this]
  simp only [timerRun, List.foldl_cons, List.foldl_nil, timerStep]
  split <;> simp

@[simp] theorem timerRun_leave (st : List String) (s : String) (t : List Event) :
    timerRun (s :: st) (.leave :: t) = timerRun st t := rfl
@[simp] theorem timerRun_coarse (st : List String) (l : ℕ) (t : List Event) :
    timerRun st (.coarse l :: t) = timerRun st t := rfl
@[simp] theorem timerRun_smooth (st : List String) (l : ℕ) (t : List Event) :
    timerRun st (.smooth l :: t) = timerRun st t := rfl
@[simp] theorem timerRun_put (st : List String) (b : Bool) (t : List Event) :
    timerRun st (.put b :: t) = timerRun st t := rfl
@[simp] theorem timerRun_smooths (st : List String) (n l : ℕ) (t : List Event) :
    timerRun st (List.replicate n (.smooth l) ++ t) = timerRun st t := by
  induction n with
  | zero => rfl
  | succ n ih => simpa [List.replicate_succ] using ih

@[simp] theorem timerRunLax_enter (st : List String) (s : String) (t : List Event) :
    timerRunLax st (.enter s :: t) = timerRunLax (s :: st) t := rfl
@[simp] theorem timerRunLax_leave (st : List String) (s : String) (t : List Event) :
    timerRunLax (s :: st) (.leave :: t) = timerRunLax st t := rfl
@[simp] theorem timerRunLax_coarse (st : List String) (l : ℕ) (t : List Event) :
    timerRunLax st (.coarse l :: t) = timerRunLax st t := rfl
@[simp] theorem timerRunLax_smooth (st : List String) (l : ℕ) (t : List Event) :
    timerRunLax st (.smooth l :: t) = timerRunLax st t := rfl
@[simp] theorem timerRunLax_put (st : List String) (b : Bool) (t : List Event) :
    timerRunLax st (.put b :: t) = timerRunLax st t := rfl
@[simp] theorem timerRunLax_smooths (st : List String) (n l : ℕ) (t : List Event) :
    timerRunLax st (List.replicate n (.smooth l) ++ t) = timerRunLax st t := by
  induction n with
  | zero => rfl
  | succ n ih => simpa [List.replicate_succ] using ih

theorem applyTrace_lax (t : Bool) (n d l : ℕ) (st : List String) :
    timerRunLax st (applyTrace t n d l) = some st := by
  induction d generalizing l st with
  | zero => cases t <;> simp [applyTrace, tEnter, tLeave]
  | succ d ih =>
    cases t
    · simp only [applyTrace, tEnter, tLeave, Bool.false_eq_true, if_false, List.nil_append,
        List.append_nil, timerRunLax_smooths]
      rw [timerRunLax_append, ih]
      simpa using timerRunLax_smooths st n l []
    · simp only [applyTrace, tEnter, tLeave, if_true, List.singleton_append,
        timerRunLax_enter, timerRunLax_smooths]
      rw [timerRunLax_append, ih]
      simp

theorem applyTrace_two (n l : ℕ) (st : List String) (h1 : "Apply: fine levels" ∉ st)
    (h2 : "Apply: coarsest level" ∉ st) (d : ℕ) (hd : d ≤ 1) :
    timerRun st (applyTrace true n d l) = some st := by
  have h3 : "Apply: coarsest level" ∉ "Apply: fine levels" :: st := by simp [h2]
  rcases Nat.le_one_iff_eq_zero_or_eq_one.mp hd with rfl | rfl
  · simp [applyTrace, tEnter, tLeave, timerRun_enter, h2]
  · simp [applyTrace, tEnter, tLeave, timerRun_enter, h1, h3]

theorem timerRun_none_of_no_timer (n d l : ℕ) (st : List String) :
    timerRun st (applyTrace false n d l) = some st := by
  induction d generalizing l with
  | zero => simp [applyTrace, tEnter, tLeave]
  | succ d ih =>
    simp only [applyTrace, tEnter, tLeave, Bool.false_eq_true, if_false, List.nil_append,
        List.append_nil, timerRun_smooths]
    rw [timerRun_append, ih]
    simpa using timerRun_smooths st n l []

theorem applyTrace_three (n d l : ℕ) (st : List String) :
    timerRun st (applyTrace true n (d + 2) l) = none := by
  simp only [applyTrace, tEnter, tLeave, if_true, List.singleton_append, timerRun_enter,
    timerRun_smooths]
  split
  · rfl
  · simp only [List.cons_append, timerRun_enter]
    simp

variable {V : ℕ → Type}

/-- Expected trace of the constructor's loop when it succeeds. -/
def buildTrace (t : Bool) (p : Params) : (d l : ℕ) → List Event
  | 0, l => (if l = 0 then [.put (p.isPreconditioner.getD true)] else []) ++
      (tEnter t "Setup: build coarse solver" ++ tLeave t)
  | d + 1, l => (tEnter t "Setup: build smoother" ++ tLeave t) ++
      ((tEnter t "Setup: build restrictor" ++ tLeave t) ++
      ((tEnter t (if p.fastAp.getD false then "Setup: fast_ap" else "Setup: ap") ++ tLeave t) ++
      ((tEnter t "Setup: build coarse matrix" ++ tLeave t) ++ buildTrace t p d (l + 1))))

theorem buildLoop_trace (h : Helpers V) (p : Params) (t : Bool) (n : ℕ) (d l : ℕ)
    (hd : l + d + 1 = n) (L R : Levels V) (hR : (buildLoop h p t n l L).result = .ok R) :
    (buildLoop h p t n l L).trace = buildTrace t p d l := by
  induction d generalizing l L with
  | zero =>
    obtain ⟨a, s, ha, hs, rfl⟩ := (buildLoop_last h p t n l L (by omega) R).mp hR
    rw [buildLoop]
    have h1 : l < n := by omega
    have h2 : l = n - 1 := by omega
    simp only [h1, if_true, if_pos h2, ha, Outcome.deref_some, Run.result_lift_ok_bind]
    by_cases h0 : l = 0
    · subst h0
      simp only [if_true, buildTrace]
      simp only [coarseParams, if_true] at hs
      rw [Run.trace_bind_ok (a := { p with
          zeroStartingSolution := some (p.isPreconditioner.getD true) }) rfl,
        Run.trace_bind_ok (a := s) (by simpa using hs), timed_trace_ok _ _ _ s hs]
      simp [emit_bind_trace]
    · simp only [h0, if_false, buildTrace, Run.pure_bind']
      simp only [coarseParams, h0, if_false] at hs
      rw [Run.trace_bind_ok (a := s) (by simpa using hs), timed_trace_ok _ _ _ s hs]
      simp
  | succ d ih =>
    obtain ⟨a, s, r, ap, ac, ha, hs, hr, hap, hac, hR'⟩ :=
      (buildLoop_step h p t n l L (by omega) R).mp hR
    have ih' := ih (l + 1) (by omega) _ hR'
    rw [buildLoop]
    have h1 : l < n := by omega
    have h2 : ¬ l = n - 1 := by omega
    simp only [h1, if_true, if_neg h2, ha, Outcome.deref_some, Run.result_lift_ok_bind]
    rw [Run.trace_bind_ok (a := s) (by simpa using hs), timed_trace_ok _ _ _ s hs,
      Run.trace_bind_ok (a := r) (by simpa using hr), timed_trace_ok _ _ _ r hr]
    simp only [chooseAP] at hap
    have hap' : ∀ x, (if p.fastAp.getD false = true then
        timed t "Setup: fast_ap" (h.fastMultiplyTranspose l)
        else timed t "Setup: ap" (h.multiplyTranspose l a r)) = x →
        x.result = .ok ap ∧ x.trace = tEnter t (if p.fastAp.getD false then "Setup: fast_ap"
          else "Setup: ap") ++ tLeave t := by
      rintro x rfl
      split at hap
      · rename_i hf; simp only [hf, if_true, timed_result]
        exact ⟨hap, timed_trace_ok _ _ _ _ hap⟩
      · rename_i hf; simp only [hf, if_false, timed_result, Bool.false_eq_true]
        exact ⟨hap, timed_trace_ok _ _ _ _ hap⟩
    obtain ⟨e1, e2⟩ := hap' _ rfl
    rw [Run.trace_bind_ok e1, e2, Run.trace_bind_ok (a := ac) (by simpa using hac),
      timed_trace_ok _ _ _ ac hac]
    simp only [stepLevels] at ih'
    rw [ih', buildTrace]

/-- The names of all sections used during set-up below "Setup". -/
def setupNames : List String := ["Setup: build coarse solver", "Setup: build smoother",
  "Setup: build restrictor", "Setup: fast_ap", "Setup: ap", "Setup: build coarse matrix"]

theorem timerRun_section (t : Bool) (s : String) (st : List String) (hs : s ∉ st)
    (u : List Event) : timerRun st ((tEnter t s ++ tLeave t) ++ u) = timerRun st u := by
  cases t <;> simp [tEnter, tLeave, timerRun_enter, hs]

theorem buildTrace_run (t : Bool) (p : Params) (d l : ℕ) (st : List String)
    (hst : ∀ s ∈ setupNames, s ∉ st) : timerRun st (buildTrace t p d l) = some st := by
  induction d generalizing l with
  | zero =>
    have := timerRun_section t _ st (hst "Setup: build coarse solver" (by decide)) []
    simp only [List.append_nil] at this
    simp only [buildTrace]
    split <;> simp [this]
  | succ d ih =>
    rw [buildTrace, timerRun_section t _ st (hst _ (by decide)),
      timerRun_section t _ st (hst _ (by decide)), timerRun_section t _ st ?_,
      timerRun_section t _ st (hst _ (by decide)), ih]
    split <;> exact hst _ (by decide)

/-- Trace fragments that never pop below the initial stack. -/
def Above (t : List Event) : Prop := ∀ st, ∃ pre, timerRunLax st t = some (pre ++ st)

theorem Above.append {t u : List Event} (ht : Above t) (hu : Above u) : Above (t ++ u) := by
  intro st
  obtain ⟨p1, h1⟩ := ht st
  obtain ⟨p2, h2⟩ := hu (p1 ++ st)
  exact ⟨p2 ++ p1, by rw [timerRunLax_append, h1]; simp [h2]⟩

theorem Above.nil : Above [] := fun _ => ⟨[], rfl⟩

theorem Above.timed {α : Type} (t : Bool) (s : String) (f : Outcome α) :
    Above (timed t s f).trace := by
  intro st
  by_cases h : ∃ a, f = .ok a
  · obtain ⟨a, rfl⟩ := h
    rw [timed_trace_ok t s _ a rfl]
    exact ⟨[], by cases t <;> simp [tEnter, tLeave]⟩
  · rw [timed_trace_fail t s f (fun a ha => h ⟨a, ha⟩)]
    cases t
    · exact ⟨[], by simp [tEnter]⟩
    · exact ⟨[s], by simp [tEnter]⟩

theorem Above.bind {α β : Type} {x : Run α} {f : α → Run β} (hx : Above x.trace)
    (hf : ∀ a, Above (f a).trace) : Above (x >>= f).trace := by
  match x, hx with
  | (t, .ok a), hx => exact hx.append (hf a)
  | (t, .throws m), hx => exact hx
  | (t, .aborted), hx => exact hx
  | (t, .ub w), hx => exact hx

theorem Above.lift {α : Type} (o : Outcome α) : Above (Run.lift o).trace := Above.nil

theorem buildLoop_above (h : Helpers V) (p : Params) (t : Bool) (n l : ℕ) (L : Levels V) :
    Above (buildLoop h p t n l L).trace := by
  rw [buildLoop]
  split
  · rename_i hl
    refine Above.bind (Above.lift _) (fun a => ?_)
    split
    · refine Above.bind ?_ (fun p' => Above.bind (Above.timed _ _ _) (fun _ => Above.nil))
      split
      · exact fun st => ⟨[], rfl⟩
      · exact Above.nil
    · refine Above.bind (Above.timed _ _ _) (fun s => Above.bind (Above.timed _ _ _) (fun r =>
        Above.bind ?_ (fun ap => Above.bind (Above.timed _ _ _) (fun ac => ?_))))
      · split <;> exact Above.timed _ _ _
      · exact buildLoop_above h p t n (l + 1) _
  · exact Above.nil
termination_by n - l

end Mfmg
