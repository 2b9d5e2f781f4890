import Verif.Spec.Rounded
import Verif.Lemmas.Hierarchy
import Mathlib.Tactic.Linarith
import Mathlib.Tactic.Ring
import Mathlib.Tactic.Positivity

/-!
# Lemmas: the rounded cycle
-/

set_option autoImplicit false

namespace Mfmg

open Spec

namespace Hierarchy

variable {V : ℕ → Type} [∀ l, AddCommGroup (V l)]

theorem applyWith_exact (H : Hierarchy V) (fresh : ∀ l, V l) (l : ℕ) (b x : V l) :
    applyWith (fun _ x y => x - y) H fresh l b x = H.apply fresh l b x := by
  by_cases hl : l < H.numLevels
  · have ih := fun b' => applyWith_exact H fresh (l + 1) b' (fresh (l + 1))
    rw [apply, applyWith]
    simp only [ih]
  · rw [apply, applyWith]
    simp [hl]
termination_by H.numLevels - l

theorem applyWith_coarsest (sub : ∀ l, V l → V l → V l) (H : Hierarchy V) (fresh : ∀ l, V l) (l : ℕ)
    (b x : V l) (hl : l < H.numLevels) (hlast : l = H.numLevels - 1) (s)
    (hs : (H.level l).solver = some s) :
    (applyWith sub H fresh l b x).result
      = .ok (s b (if l > 0 ∨ H.isPreconditioner then 0 else x)) := by
  rw [applyWith]
  simp only [hl, dif_pos, if_pos hlast, hs, Outcome.deref_some, Run.result_lift_ok_bind,
    timerEnter_bind_result, Run.result_emit_bind, timerLeave_bind_result, Run.result_pure]

theorem applyWith_fine (sub : ∀ l, V l → V l → V l) (H : Hierarchy V) (fresh : ∀ l, V l) (l : ℕ)
    (b x : V l) (hl : l + 1 < H.numLevels) (a) (ha : (H.level l).operator = some a)
    (s) (hs : (H.level l).smoother = some s)
    (r : Op (V l) (V (l + 1))) (hr : (H.level (l + 1)).restrictor = some r) :
    let x₀ := if l > 0 ∨ H.isPreconditioner then 0 else x
    let x₁ := (s b)^[H.nSmoothingSteps] x₀
    ∀ c, (applyWith sub H fresh (l + 1) (r.fwd (sub l (a.fwd x₁) b)) (fresh (l + 1))).result = .ok c →
    (applyWith sub H fresh l b x).result
      = .ok ((s b)^[H.nSmoothingSteps] (sub l x₁ (r.trans c))) := by
  intro x₀ x₁ c hc
  have h1 : l < H.numLevels := by omega
  have h2 : ¬ l = H.numLevels - 1 := by omega
  rw [applyWith]
  simp only [h1, dif_pos, if_neg h2, hs, ha, hr, Outcome.deref_some, Run.result_lift_ok_bind,
    timerEnter_bind_result]
  rw [Run.result_bind_ok (smoothLoop_result _ _ _ _ _), Run.result_bind_ok hc,
    Run.result_bind_ok (smoothLoop_result _ _ _ _ _)]
  simp only [timerLeave_bind_result, Run.result_pure]
  rfl

end Hierarchy

section Tracks

variable {X Y : Type} [AddCommGroup X] [AddCommGroup Y]

/-- `x'` is a computed value of `x`: size and error relative to the scale `T`. -/
def Tracks (N : AddGroupSeminorm X) (c T κ γ : ℝ) (x x' : X) : Prop :=
  N x ≤ κ * T ∧ N (x' - x) ≤ c * γ * T

variable {N : AddGroupSeminorm X} {M : AddGroupSeminorm Y} {c T κ γ κ₂ γ₂ K : ℝ}

theorem Tracks.size {x x' : X} (h : Tracks N c T κ γ x x') (hc1 : c ≤ 1) (hγ : 0 ≤ γ)
    (hT : 0 ≤ T) : N x' ≤ (κ + γ) * T := by
  have h1 : N x' ≤ N (x' - x) + N x := by
    have := map_add_le_add N (x' - x) x
    rwa [sub_add_cancel] at this
  have h2 : c * γ * T ≤ 1 * γ * T := by gcongr
  have := h.1; have := h.2
  linarith

theorem Tracks.map {x x' : X} (h : Tracks N c T κ γ x x') (hc : 0 ≤ c) (hc1 : c ≤ 1) (hγ : 0 ≤ γ)
    (hT : 0 ≤ T) (hK : 0 ≤ K) (f f' : X → Y) (hsub : ∀ x y, f (x - y) = f x - f y)
    (hf : ∀ x, M (f x) ≤ K * N x) (hf' : ∀ x, M (f' x - f x) ≤ c * N x) :
    Tracks M c T (K * κ) (κ + γ + K * γ) (f x) (f' x') := by
  constructor
  · calc M (f x) ≤ K * N x := hf x
      _ ≤ K * (κ * T) := by gcongr; exact h.1
      _ = K * κ * T := by ring
  · have h1 : M (f' x' - f x) ≤ M (f' x' - f x') + M (f (x' - x)) := by
      have := map_add_le_add M (f' x' - f x') (f x' - f x)
      rwa [sub_add_sub_cancel, ← hsub] at this
    have h2 : M (f' x' - f x') ≤ c * ((κ + γ) * T) :=
      (hf' x').trans (by gcongr; exact h.size hc1 hγ hT)
    have h3 : M (f (x' - x)) ≤ K * (c * γ * T) := (hf _).trans (by gcongr; exact h.2)
    calc M (f' x' - f x) ≤ c * ((κ + γ) * T) + K * (c * γ * T) := by linarith
      _ = c * (κ + γ + K * γ) * T := by ring

theorem Tracks.sub {x x' y y' : X} (h : Tracks N c T κ γ x x') (h' : Tracks N c T κ₂ γ₂ y y')
    (hc : 0 ≤ c) (hc1 : c ≤ 1) (hγ : 0 ≤ γ) (hγ₂ : 0 ≤ γ₂) (hT : 0 ≤ T) (s : X → X → X)
    (hs : ∀ x y, N (s x y - (x - y)) ≤ c * (N x + N y)) :
    Tracks N c T (κ + κ₂) (κ + γ + (κ₂ + γ₂) + (γ + γ₂)) (x - y) (s x' y') := by
  have hsubN : ∀ a b : X, N (a - b) ≤ N a + N b := fun a b => by
    rw [sub_eq_add_neg]
    exact (map_add_le_add N a (-b)).trans (by rw [map_neg_eq_map])
  constructor
  · have := hsubN x y
    have := h.1; have := h'.1
    linarith
  · have h1 : N (s x' y' - (x - y)) ≤ N (s x' y' - (x' - y')) + N ((x' - x) - (y' - y)) := by
      have := map_add_le_add N (s x' y' - (x' - y')) ((x' - x) - (y' - y))
      rwa [show s x' y' - (x' - y') + ((x' - x) - (y' - y)) = s x' y' - (x - y) by abel] at this
    have h2 := hsubN (x' - x) (y' - y)
    have h3 : N (s x' y' - (x' - y')) ≤ c * ((κ + γ) * T + (κ₂ + γ₂) * T) :=
      (hs x' y').trans (by
        gcongr
        · exact h.size hc1 hγ hT
        · exact h'.size hc1 hγ₂ hT)
    have := h.2; have := h'.2
    calc N (s x' y' - (x - y)) ≤ c * ((κ + γ) * T + (κ₂ + γ₂) * T) + (c * γ * T + c * γ₂ * T) := by
          linarith
      _ = c * (κ + γ + (κ₂ + γ₂) + (γ + γ₂)) * T := by ring

theorem Tracks.mono {x x' : X} (h : Tracks N c T κ γ x x') (hc : 0 ≤ c) (hT : 0 ≤ T)
    (h1 : κ ≤ κ₂) (h2 : γ ≤ γ₂) : Tracks N c T κ₂ γ₂ x x' :=
  ⟨h.1.trans (by gcongr), h.2.trans (by gcongr)⟩

end Tracks

variable {V : ℕ → Type} [∀ l, AddCommGroup (V l)] [∀ l, Module ℝ (V l)]

/-- One smoothing step. -/
theorem Tracks.step {N : ∀ l, AddGroupSeminorm (V l)} {D : Data ℝ V} {l : ℕ} {c T K κb γb κ γ : ℝ}
    {b b' x x' : V l} (hb : Tracks (N l) c T κb γb b b') (hx : Tracks (N l) c T κ γ x x')
    (hc : 0 ≤ c) (hc1 : c ≤ 1) (hγb : 0 ≤ γb) (hγ : 0 ≤ γ) (hT : 0 ≤ T) (hK : 0 ≤ K)
    (hA : ∀ x, N l (D.A l x) ≤ K * N l x) (hB : ∀ x, N l (D.B l x) ≤ K * N l x)
    (s : V l → V l → V l)
    (hs : ∀ b x, N l (s b x - richardson D l b x) ≤ c * (N l b + N l x)) :
    Tracks (N l) c T (κ + K * (κb + K * κ))
      (κb + γb + (κ + γ) + (γ + K * (γb + K * γ))) (richardson D l b x) (s b' x') := by
  have hrich : ∀ b x : V l, N l (richardson D l b x) ≤ N l x + K * (N l b + K * N l x) := by
    intro b x
    have h1 := map_add_le_add (N l) x (D.B l (b - D.A l x))
    have h2 : N l (b - D.A l x) ≤ N l b + N l (D.A l x) := by
      rw [sub_eq_add_neg]
      exact (map_add_le_add (N l) b _).trans (by rw [map_neg_eq_map])
    have h3 : N l (D.B l (b - D.A l x)) ≤ K * (N l b + K * N l x) := by
      refine (hB _).trans ?_
      gcongr
      exact h2.trans (by gcongr; exact hA x)
    rw [richardson]
    linarith
  have hlin : richardson D l b' x' - richardson D l b x = richardson D l (b' - b) (x' - x) := by
    simp only [richardson, map_sub]; abel
  constructor
  · calc N l (richardson D l b x) ≤ N l x + K * (N l b + K * N l x) := hrich b x
      _ ≤ κ * T + K * (κb * T + K * (κ * T)) := by
        have := hx.1; have := hb.1
        gcongr
      _ = (κ + K * (κb + K * κ)) * T := by ring
  · have h1 : N l (s b' x' - richardson D l b x) ≤
        N l (s b' x' - richardson D l b' x') + N l (richardson D l (b' - b) (x' - x)) := by
      have := map_add_le_add (N l) (s b' x' - richardson D l b' x')
        (richardson D l b' x' - richardson D l b x)
      rwa [sub_add_sub_cancel, hlin] at this
    have h2 : N l (s b' x' - richardson D l b' x') ≤ c * ((κb + γb) * T + (κ + γ) * T) :=
      (hs b' x').trans (by
        gcongr
        · exact hb.size hc1 hγb hT
        · exact hx.size hc1 hγ hT)
    have h3 : N l (richardson D l (b' - b) (x' - x)) ≤
        c * γ * T + K * (c * γb * T + K * (c * γ * T)) := by
      refine (hrich _ _).trans ?_
      have := hx.2; have := hb.2
      gcongr
    calc N l (s b' x' - richardson D l b x)
        ≤ c * ((κb + γb) * T + (κ + γ) * T) + (c * γ * T + K * (c * γb * T + K * (c * γ * T))) := by
          linarith
      _ = c * (κb + γb + (κ + γ) + (γ + K * (γb + K * γ))) * T := by ring

/-- `n` smoothing steps: the constants depend on `K`, the number of steps and the constants of the
arguments only. -/
theorem Tracks.steps (K : ℝ) (hK : 0 ≤ K) (n : ℕ) : ∀ (κb γb κ γ : ℝ), 0 ≤ κb → 0 ≤ γb → 0 ≤ κ →
    0 ≤ γ → ∃ κ' γ', 0 ≤ κ' ∧ 0 ≤ γ' ∧
    ∀ {V : ℕ → Type} [∀ l, AddCommGroup (V l)] [∀ l, Module ℝ (V l)]
      {N : ∀ l, AddGroupSeminorm (V l)} {D : Data ℝ V} {l : ℕ} {c T : ℝ} {b b' x x' : V l}
      (_ : Tracks (N l) c T κb γb b b') (_ : Tracks (N l) c T κ γ x x')
      (_ : 0 ≤ c) (_ : c ≤ 1) (_ : 0 ≤ T)
      (_ : ∀ x, N l (D.A l x) ≤ K * N l x) (_ : ∀ x, N l (D.B l x) ≤ K * N l x)
      (s : V l → V l → V l)
      (_ : ∀ b x, N l (s b x - richardson D l b x) ≤ c * (N l b + N l x)),
      Tracks (N l) c T κ' γ' ((richardson D l b)^[n] x) ((s b')^[n] x') := by
  induction n with
  | zero =>
    intro κb γb κ γ _ _ h3 h4
    exact ⟨κ, γ, h3, h4, fun _ hx _ _ _ _ _ _ _ => hx⟩
  | succ n ih =>
    intro κb γb κ γ h1 h2 h3 h4
    obtain ⟨κ', γ', h5, h6, h⟩ := ih κb γb (κ + K * (κb + K * κ))
      (κb + γb + (κ + γ) + (γ + K * (γb + K * γ))) h1 h2 (by positivity) (by positivity)
    refine ⟨κ', γ', h5, h6, ?_⟩
    intro V _ _ N D l c T b b' x x' hb hx hc hc1 hT hA hB s hs
    rw [Function.iterate_succ_apply, Function.iterate_succ_apply]
    exact h hb (hb.step hx hc hc1 h2 h4 hT hK hA hB s hs) hc hc1 hT hA hB s hs

/-- The cycle: the constants depend on the bound of the exact maps, the number of steps and of levels
and the constants of the arguments only. -/
theorem Tracks.cycle (K : ℝ) (hK : 0 ≤ K) (n d : ℕ) : ∀ (κb γb κ γ : ℝ), 0 ≤ κb → 0 ≤ γb → 0 ≤ κ →
    0 ≤ γ → ∃ κ' γ', 0 ≤ κ' ∧ 0 ≤ γ' ∧
    ∀ {V : ℕ → Type} [∀ l, AddCommGroup (V l)] [∀ l, Module ℝ (V l)]
      (N : ∀ l, AddGroupSeminorm (V l)) (D : Data ℝ V) (sub : ∀ l, V l → V l → V l)
      (H : Hierarchy V) (fresh : ∀ l, V l) (l : ℕ) (c T : ℝ) (b b' x x' : V l)
      (_ : Tracks (N l) c T κb γb b b')
      (_ : Tracks (N l) c T κ γ (if l > 0 ∨ H.isPreconditioner then 0 else x)
        (if l > 0 ∨ H.isPreconditioner then 0 else x'))
      (_ : 0 ≤ c) (_ : c ≤ 1) (_ : 0 ≤ T) (_ : H.nSmoothingSteps = n) (_ : l + d + 1 = H.numLevels)
      (_ : d = 0 → l > 0 ∨ H.isPreconditioner)
      (_ : Bounded N D H.numLevels K) (_ : Computes N D c sub H),
      ∃ y', (Hierarchy.applyWith sub H fresh l b' x').result = .ok y' ∧
        Tracks (N l) c T κ' γ'
          (cycle D n d l b (if l > 0 ∨ H.isPreconditioner then 0 else x)) y' := by
  induction d with
  | zero =>
    intro κb γb κ γ h1 h2 h3 h4
    refine ⟨K * κb, κb + γb + K * γb, by positivity, by positivity, ?_⟩
    intro V _ _ N D sub H fresh l c T b b' x x' hb hx hc hc1 hT hn hd h0 hbd hcmp
    obtain ⟨s, hs, hs'⟩ := hcmp.solver
    have hl : l = H.numLevels - 1 := by omega
    subst hl
    refine ⟨_, Hierarchy.applyWith_coarsest sub H fresh _ b' x' (by omega) rfl s hs, ?_⟩
    simp only [if_pos (h0 rfl)]
    exact hb.map hc hc1 h2 hT hK (D.C _) (fun b => s b 0) (map_sub _) (hbd.C _ (by omega)) hs'
  | succ d ih =>
    intro κb γb κ γ h1 h2 h3 h4
    -- pre-smoothing
    obtain ⟨κ1, γ1, h5, h6, hpre⟩ := Tracks.steps K hK n κb γb κ γ h1 h2 h3 h4
    -- constants of the residual and its restriction
    obtain ⟨κr, hκr⟩ : ∃ z, z = K * κ1 + κb := ⟨_, rfl⟩
    obtain ⟨γr, hγr⟩ : ∃ z, z = K * κ1 + (κ1 + γ1 + K * γ1) + (κb + γb) + (κ1 + γ1 + K * γ1 + γb) :=
      ⟨_, rfl⟩
    have hκr0 : 0 ≤ κr := by rw [hκr]; positivity
    have hγr0 : 0 ≤ γr := by rw [hγr]; positivity
    obtain ⟨κ2, γ2, h7, h8, hco⟩ := ih (K * κr) (κr + γr + K * γr) 0 0 (by positivity) (by positivity)
      le_rfl le_rfl
    obtain ⟨κ3, hκ3⟩ : ∃ z, z = κ1 + K * κ2 := ⟨_, rfl⟩
    obtain ⟨γ3, hγ3⟩ : ∃ z, z = κ1 + γ1 + (K * κ2 + (κ2 + γ2 + K * γ2)) + (γ1 + (κ2 + γ2 + K * γ2)) :=
      ⟨_, rfl⟩
    obtain ⟨κ4, γ4, h9, h10, hpost⟩ := Tracks.steps K hK n κb γb κ3 γ3 h1 h2
      (by rw [hκ3]; positivity) (by rw [hγ3]; positivity)
    refine ⟨κ4, γ4, h9, h10, ?_⟩
    intro V _ _ N D sub H fresh l c T b b' x x' hb hx hc hc1 hT hn hd h0 hbd hcmp
    obtain ⟨a, ha, ha'⟩ := hcmp.operator l (by omega)
    obtain ⟨s, hs, hs'⟩ := hcmp.smoother l (by omega)
    obtain ⟨r, hr, hr', hr''⟩ := hcmp.restrictor l (by omega)
    have hA := hbd.A l (by omega)
    have hB := hbd.B l (by omega)
    generalize hx0 : (if l > 0 ∨ H.isPreconditioner then 0 else x) = x0 at hx ⊢
    generalize hx0' : (if l > 0 ∨ H.isPreconditioner then 0 else x') = x0' at hx
    have t1 := hpre hb hx hc hc1 hT hA hB s hs'
    have t2 := t1.map (M := N l) (f := D.A l) (f' := a.fwd) hc hc1 h6 hT hK (map_sub _) hA ha'
    have t3 := t2.sub hb hc hc1 (by positivity) h2 hT (sub l) (hcmp.sub l)
    rw [← hκr, ← hγr] at t3
    have t4 := t3.map (M := N (l + 1)) (f := D.R l) (f' := r.fwd) hc hc1 hγr0 hT hK (map_sub _)
      (hbd.R l (by omega)) hr'
    obtain ⟨yc, hyc, t5⟩ := hco N D sub H fresh (l + 1) c T _ _ (fresh (l + 1)) (fresh (l + 1)) t4
      (by rw [if_pos (Or.inl (Nat.succ_pos l))]
          exact ⟨by simp, by simp⟩)
      hc hc1 hT hn (by omega) (fun _ => Or.inl (Nat.succ_pos l)) hbd hcmp
    have t6 := t5.map (M := N l) (f := D.P l) (f' := r.trans) hc hc1 h8 hT hK (map_sub _)
      (hbd.P l (by omega)) hr''
    have t7 := t1.sub t6 hc hc1 h6 (by positivity) hT (sub l) (hcmp.sub l)
    rw [← hκ3, ← hγ3] at t7
    have t8 := hpost hb t7 hc hc1 hT hA hB s hs'
    rw [← hn, ← hx0'] at hyc
    refine ⟨_, Hierarchy.applyWith_fine sub H fresh l b' x' (by omega) a ha s hs r hr yc hyc, ?_⟩
    rw [hn, hx0']
    have hcyc : Spec.cycle D n (d + 1) l b x0 = (richardson D l b)^[n]
        ((richardson D l b)^[n] x0 - D.P l (Spec.cycle D n d (l + 1)
          (D.R l (D.A l ((richardson D l b)^[n] x0) - b))
          (if l + 1 > 0 ∨ H.isPreconditioner then 0 else fresh (l + 1)))) := by
      rw [if_pos (Or.inl (Nat.succ_pos l))]
      simp only [Spec.cycle, cycle_zero]
      congr 1
      rw [← neg_sub b, map_neg, map_neg, map_neg, sub_neg_eq_add]
    rw [hcyc]
    exact t8

end Mfmg
