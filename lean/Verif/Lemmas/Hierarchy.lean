import Verif.Spec.Multigrid
import Mathlib.Tactic.Abel
import Mathlib.Tactic.NoncommRing

set_option autoImplicit false

namespace Mfmg

open Mfmg.Spec

namespace Run

@[simp] theorem result_bind_ok {α β : Type} {x : Run α} {f : α → Run β} {a : α}
    (h : x.result = .ok a) : (x >>= f).result = (f a).result := by
  obtain ⟨t, o⟩ := x
  simp only [result] at h
  subst h
  rfl

theorem trace_bind_ok {α β : Type} {x : Run α} {f : α → Run β} {a : α}
    (h : x.result = .ok a) : (x >>= f).trace = x.trace ++ (f a).trace := by
  obtain ⟨t, o⟩ := x
  simp only [result] at h
  subst h
  rfl

@[simp] theorem result_pure {α : Type} (a : α) : (pure a : Run α).result = .ok a := rfl
@[simp] theorem trace_pure {α : Type} (a : α) : (pure a : Run α).trace = [] := rfl
@[simp] theorem result_lift {α : Type} (o : Outcome α) : (lift o).result = o := rfl
@[simp] theorem trace_lift {α : Type} (o : Outcome α) : (lift o).trace = [] := rfl
@[simp] theorem result_emit (e : Event) : (emit e).result = .ok ⟨⟩ := rfl
@[simp] theorem trace_emit (e : Event) : (emit e).trace = [e] := rfl

@[simp] theorem result_emit_bind {β : Type} (e : Event) (f : PUnit → Run β) :
    (emit e >>= f).result = (f ⟨⟩).result := rfl
@[simp] theorem result_lift_ok_bind {α β : Type} (a : α) (f : α → Run β) :
    (lift (.ok a) >>= f) = f a := by
  rfl
@[simp] theorem lift_ub_bind {α β : Type} (w : String) (f : α → Run β) :
    (lift (.ub w : Outcome α) >>= f) = lift (.ub w) := rfl
@[simp] theorem lift_throws_bind {α β : Type} (w : String) (f : α → Run β) :
    (lift (.throws w : Outcome α) >>= f) = lift (.throws w) := rfl
@[simp] theorem lift_aborted_bind {α β : Type} (f : α → Run β) :
    (lift (.aborted : Outcome α) >>= f) = lift .aborted := rfl

@[simp] theorem pure_bind' {α β : Type} (a : α) (f : α → Run β) : (pure a >>= f) = f a := by
  rfl

end Run

@[simp] theorem timerEnter_result (t : Bool) (s : String) :
    (timerEnter t s).result = .ok ⟨⟩ := by
  cases t <;> rfl

@[simp] theorem timerLeave_result (t : Bool) : (timerLeave t).result = .ok ⟨⟩ := by
  cases t <;> rfl

@[simp] theorem timerEnter_bind_result {β : Type} (t : Bool) (s : String) (f : PUnit → Run β) :
    (timerEnter t s >>= f).result = (f ⟨⟩).result :=
  Run.result_bind_ok (timerEnter_result t s)

@[simp] theorem timerLeave_bind_result {β : Type} (t : Bool) (f : PUnit → Run β) :
    (timerLeave t >>= f).result = (f ⟨⟩).result :=
  Run.result_bind_ok (timerLeave_result t)

theorem smoothLoop_result {X : Type} (l : ℕ) (s : X → X → X) (b : X) (n : ℕ) (x : X) :
    (smoothLoop l s b n x).result = .ok ((s b)^[n] x) := by
  induction n generalizing x with
  | zero => rfl
  | succ n ih => simp [smoothLoop, ih]

theorem smoothLoop_trace {X : Type} (l : ℕ) (s : X → X → X) (b : X) (n : ℕ) (x : X) :
    (smoothLoop l s b n x).trace = List.replicate n (.smooth l) := by
  induction n generalizing x with
  | zero => rfl
  | succ n ih =>
    rw [smoothLoop, Run.trace_bind_ok (a := PUnit.unit) rfl, ih, List.replicate_succ]; rfl

namespace Hierarchy

variable {V : ℕ → Type} [∀ l, AddCommGroup (V l)]

/-- The incoming `x` and the fresh vectors do not matter below the finest level or in
preconditioner mode. -/
theorem apply_indep (H : Hierarchy V) (fresh fresh' : ∀ l, V l) (l : ℕ) (b x x' : V l)
    (h : l > 0 ∨ H.isPreconditioner) :
    H.apply fresh l b x = H.apply fresh' l b x' := by
  by_cases hl : l < H.numLevels
  · have ih := fun b' => apply_indep H fresh fresh' (l + 1) b' (fresh (l + 1)) (fresh' (l + 1))
      (Or.inl (Nat.succ_pos l))
    rw [apply, apply]
    simp only [hl, h, ih, if_true, dif_pos]
  · rw [apply, apply]
    simp [hl]
termination_by H.numLevels - l

theorem apply_fresh_indep (H : Hierarchy V) (fresh fresh' : ∀ l, V l) (l : ℕ) (b x : V l) :
    H.apply fresh l b x = H.apply fresh' l b x := by
  have ih := fun b' => apply_indep H fresh fresh' (l + 1) b' (fresh (l + 1)) (fresh' (l + 1))
      (Or.inl (Nat.succ_pos l))
  rw [apply, apply]
  simp only [ih]

variable {K : Type} [Field K] [∀ l, Module K (V l)]

/-- Value computed on the coarsest level. -/
theorem apply_coarsest (H : Hierarchy V) (fresh : ∀ l, V l) (l : ℕ) (b x : V l)
    (hl : l < H.numLevels) (hlast : l = H.numLevels - 1) (s) (hs : (H.level l).solver = some s) :
    (H.apply fresh l b x).result = .ok (s b (if l > 0 ∨ H.isPreconditioner then 0 else x)) := by
  rw [apply]
  simp only [hl, dif_pos, if_pos hlast, hs, Outcome.deref_some, Run.result_lift_ok_bind,
    timerEnter_bind_result, Run.result_emit_bind, timerLeave_bind_result, Run.result_pure]

/-- Value computed on a finer level. -/
theorem apply_fine (H : Hierarchy V) (fresh : ∀ l, V l) (l : ℕ) (b x : V l)
    (hl : l + 1 < H.numLevels) (a) (ha : (H.level l).operator = some a)
    (s) (hs : (H.level l).smoother = some s)
    (r : Op (V l) (V (l + 1))) (hr : (H.level (l + 1)).restrictor = some r) :
    let x₀ := if l > 0 ∨ H.isPreconditioner then 0 else x
    let x₁ := (s b)^[H.nSmoothingSteps] x₀
    ∀ c, (H.apply fresh (l + 1) (r.fwd (a.fwd x₁ - b)) (fresh (l + 1))).result = .ok c →
    (H.apply fresh l b x).result = .ok ((s b)^[H.nSmoothingSteps] (x₁ - r.trans c)) := by
  intro x₀ x₁ c hc
  have h1 : l < H.numLevels := by omega
  have h2 : ¬ l = H.numLevels - 1 := by omega
  rw [apply]
  simp only [h1, dif_pos, if_neg h2, hs, ha, hr, Outcome.deref_some, Run.result_lift_ok_bind,
    timerEnter_bind_result]
  rw [Run.result_bind_ok (smoothLoop_result _ _ _ _ _), Run.result_bind_ok hc,
    Run.result_bind_ok (smoothLoop_result _ _ _ _ _)]
  simp only [timerLeave_bind_result, Run.result_pure]
  rfl

end Hierarchy

namespace Spec

variable {K : Type} [Field K] {V : ℕ → Type} [∀ l, AddCommGroup (V l)] [∀ l, Module K (V l)]

/-- Iteration matrix of the smoother. -/
def S (D : Data K V) (l : ℕ) : V l →ₗ[K] V l := 1 - D.B l ∘ₗ D.A l

/-- `n` smoothing steps from zero. -/
def G (D : Data K V) (l : ℕ) : ℕ → (V l →ₗ[K] V l)
  | 0 => 0
  | n + 1 => S D l ∘ₗ G D l n + D.B l

theorem richardson_iterate (D : Data K V) (l : ℕ) (b x : V l) (n : ℕ) :
    (richardson D l b)^[n] x = (S D l ^ n) x + G D l n b := by
  induction n with
  | zero => simp [G]
  | succ n ih =>
    rw [Function.iterate_succ_apply', ih, pow_succ']
    simp only [richardson, G, S, Module.End.mul_apply, LinearMap.add_apply, LinearMap.sub_apply,
      LinearMap.comp_apply, Module.End.one_apply, map_add, map_sub]
    abel

/-- The preconditioner as a linear map. -/
def M (D : Data K V) (n : ℕ) : (d l : ℕ) → (V l →ₗ[K] V l)
  | 0, l => D.C l
  | d + 1, l => (S D l ^ n) ∘ₗ (G D l n +
      D.P l ∘ₗ M D n d (l + 1) ∘ₗ D.R l ∘ₗ (1 - D.A l ∘ₗ G D l n)) + G D l n

theorem cycle_zero (D : Data K V) (n d l : ℕ) (b : V l) : cycle D n d l b 0 = M D n d l b := by
  induction d generalizing l with
  | zero => rfl
  | succ d ih =>
    simp only [cycle, M, richardson_iterate, ih, map_zero, zero_add, LinearMap.add_apply,
      LinearMap.comp_apply, LinearMap.sub_apply, Module.End.one_apply]

/-- `A G = I - S'^n`-type identity: smoothing from `x` equals `x` plus smoothing from zero on the
residual. -/
theorem S_pow_apply (D : Data K V) (l n : ℕ) (x : V l) :
    (S D l ^ n) x = x - G D l n (D.A l x) := by
  induction n generalizing x with
  | zero => simp [G]
  | succ n ih =>
    rw [pow_succ', Module.End.mul_apply, ih]
    simp only [G, S, LinearMap.sub_apply, LinearMap.add_apply, LinearMap.comp_apply,
      Module.End.one_apply, map_sub]
    abel

theorem cycle_affine (D : Data K V) (n d l : ℕ) (b x : V l) :
    cycle D n (d + 1) l b x = x + M D n (d + 1) l (b - D.A l x) := by
  have h := S_pow_apply D l n
  simp only [cycle, M, richardson_iterate, cycle_zero, LinearMap.add_apply,
      LinearMap.comp_apply, LinearMap.sub_apply, Module.End.one_apply]
  simp only [h, map_add, map_sub]
  abel

end Spec

open Spec in
/-- The code computes the textbook cycle. -/
theorem apply_eq_cycle {K : Type} [Field K] {V : ℕ → Type} [∀ l, AddCommGroup (V l)]
    [∀ l, Module K (V l)] (H : Hierarchy V) (D : Data K V) (hH : IsLinear H D)
    (fresh : ∀ l, V l) (d l : ℕ) (hd : l + d + 1 = H.numLevels) (b x : V l)
    (h1 : d = 0 → l > 0 ∨ H.isPreconditioner) :
    (H.apply fresh l b x).result =
      .ok (cycle D H.nSmoothingSteps d l b (if l > 0 ∨ H.isPreconditioner then 0 else x)) := by
  induction d generalizing l with
  | zero =>
    obtain ⟨s, hs, hs'⟩ := hH.solver
    have hl : l = H.numLevels - 1 := by omega
    subst hl
    rw [Hierarchy.apply_coarsest H fresh _ b x (by omega) rfl s hs, if_pos (h1 rfl), hs']
    rfl
  | succ d ih =>
    obtain ⟨a, ha, ha'⟩ := hH.operator l (by omega)
    obtain ⟨s, hs, hs'⟩ := hH.smoother l (by omega)
    obtain ⟨r, hr, hr', hr''⟩ := hH.restrictor l (by omega)
    have hsr : ∀ b, s b = richardson D l b := by
      intro b; funext x
      rw [hs', richardson, ← neg_sub b, map_neg, sub_neg_eq_add]
    have ih' := ih (l + 1) (by omega)
      (r.fwd (a.fwd ((s b)^[H.nSmoothingSteps] (if l > 0 ∨ H.isPreconditioner then 0 else x)) - b))
      (fresh (l + 1)) (fun _ => Or.inl (Nat.succ_pos l))
    rw [if_pos (Or.inl (Nat.succ_pos l))] at ih'
    rw [Hierarchy.apply_fine H fresh l b x (by omega) a ha s hs r hr _ ih']
    congr 1
    simp only [hr', hr'', ha', hsr, cycle_zero, cycle]
    congr 1
    rw [← neg_sub b, map_neg, map_neg, map_neg, sub_neg_eq_add]

end Mfmg
