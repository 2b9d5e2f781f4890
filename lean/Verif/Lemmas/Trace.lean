import Verif.Lemmas.Hierarchy

set_option autoImplicit false

namespace Mfmg

open Spec

/-- Events of the timer. -/
def tEnter (t : Bool) (s : String) : List Event := if t then [.enter s] else []
def tLeave (t : Bool) : List Event := if t then [.leave] else []

@[simp] theorem timerEnter_trace (t : Bool) (s : String) : (timerEnter t s).trace = tEnter t s := by
  cases t <;> rfl
@[simp] theorem timerLeave_trace (t : Bool) : (timerLeave t).trace = tLeave t := by
  cases t <;> rfl

theorem timerEnter_bind_trace {β : Type} (t : Bool) (s : String) (f : PUnit → Run β) :
    (timerEnter t s >>= f).trace = tEnter t s ++ (f ⟨⟩).trace := by
  rw [Run.trace_bind_ok (timerEnter_result t s), timerEnter_trace]

theorem timerLeave_bind_trace {β : Type} (t : Bool) (f : PUnit → Run β) :
    (timerLeave t >>= f).trace = tLeave t ++ (f ⟨⟩).trace := by
  rw [Run.trace_bind_ok (timerLeave_result t), timerLeave_trace]

theorem emit_bind_trace {β : Type} (e : Event) (f : PUnit → Run β) :
    (Run.emit e >>= f).trace = e :: (f ⟨⟩).trace := rfl

/-- Expected trace of `apply` with `d + 1` levels from level `l`. -/
def applyTrace (t : Bool) (n : ℕ) : (d l : ℕ) → List Event
  | 0, l => tEnter t "Apply: coarsest level" ++ .coarse l :: tLeave t
  | d + 1, l => tEnter t "Apply: fine levels" ++ (List.replicate n (.smooth l) ++
      (applyTrace t n d (l + 1) ++ (List.replicate n (.smooth l) ++ tLeave t)))

variable {V : ℕ → Type} [∀ l, AddCommGroup (V l)]

theorem apply_populated (H : Hierarchy V) (hH : Populated H) (fresh : ∀ l, V l) (d l : ℕ)
    (hd : l + d + 1 = H.numLevels) (b x : V l) :
    (∃ y, (H.apply fresh l b x).result = .ok y) ∧
    (H.apply fresh l b x).trace = applyTrace H.timer H.nSmoothingSteps d l := by
  induction d generalizing l with
  | zero =>
    obtain ⟨s, hs⟩ := Option.isSome_iff_exists.mp ((hH.solver l (by omega)).mpr (by omega))
    refine ⟨⟨_, Hierarchy.apply_coarsest H fresh l b x (by omega) (by omega) s hs⟩, ?_⟩
    rw [Hierarchy.apply]
    have hl : l < H.numLevels := by omega
    have hlast : l = H.numLevels - 1 := by omega
    simp only [hl, dif_pos, if_pos hlast, hs, Outcome.deref_some, Run.result_lift_ok_bind,
      timerEnter_bind_trace, emit_bind_trace, timerLeave_bind_trace, Run.trace_pure, applyTrace,
      List.append_nil]
  | succ d ih =>
    obtain ⟨a, ha⟩ := Option.isSome_iff_exists.mp (hH.operator l (by omega))
    obtain ⟨s, hs⟩ := Option.isSome_iff_exists.mp ((hH.smoother l (by omega)).mpr (by omega))
    obtain ⟨r, hr⟩ := Option.isSome_iff_exists.mp
      ((hH.restrictor (l + 1) (by omega)).mpr (by omega))
    obtain ⟨⟨c, hc⟩, ht⟩ := ih (l + 1) (by omega) ((r : Op (V l) (V (l + 1))).fwd
      (a.fwd ((s b)^[H.nSmoothingSteps] (if l > 0 ∨ H.isPreconditioner then 0 else x)) - b))
      (fresh (l + 1))
    refine ⟨⟨_, Hierarchy.apply_fine H fresh l b x (by omega) a ha s hs r hr c hc⟩, ?_⟩
    rw [Hierarchy.apply]
    simp only [show l < H.numLevels by omega, show ¬ l = H.numLevels - 1 by omega, dif_pos,
      if_false, ha, hr, hs, Outcome.deref_some, Run.result_lift_ok_bind, timerEnter_bind_trace]
    rw [Run.trace_bind_ok (smoothLoop_result _ _ _ _ _)]
    rw [Run.trace_bind_ok hc, ht, Run.trace_bind_ok (smoothLoop_result _ _ _ _ _)]
    simp only [smoothLoop_trace, timerLeave_bind_trace, Run.trace_pure, applyTrace,
      List.append_nil]

end Mfmg
