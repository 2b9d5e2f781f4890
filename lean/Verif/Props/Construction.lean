import Verif.Lemmas.Timer
import Verif.Lemmas.VCycle
import Verif.Examples.Multigrid

/-!
# Properties of the `Hierarchy` constructor and of whole applications (C06–C10)
-/

set_option autoImplicit false

namespace Mfmg

open Spec Example

variable {V : ℕ → Type}

/-- Helpers that never fail and multiply exactly; used as a concrete case. -/
def exHelpers : Helpers exV where
  globalOperator := .ok ⟨mat 2 (-1) (-1) 2, mat 2 (-1) (-1) 2⟩
  buildSmoother := fun _ a _ => .ok (fun b x => x - mat (1/4) 0 0 (1/4) (a.fwd x - b))
  buildRestrictor := fun _ _ => .ok ⟨mat 1 1 0 0, mat 1 0 1 0⟩
  fastMultiplyTranspose := fun _ => .throws "not implemented"
  multiplyTranspose := fun _ a r => .ok (a.mulTranspose r)
  multiply := fun _ r ap => .ok (r.mul ap)
  buildCoarseSolver := fun _ _ _ => .ok (fun b _ => mat (1/2) 0 0 (1/2) b)

/-! ## C08 -/

/-- **C08.** Whenever construction returns, the hierarchy has exactly the requested positive
number of levels and every level is completely and uniquely populated. -/
theorem C08_levels_populated (debug timer : Bool) (params : Option Params)
    (helpers : Outcome (Helpers V)) (H : Hierarchy V)
    (hH : (buildHierarchy debug timer params helpers).result = .ok H) :
    Populated H ∧ ∃ p, params = some p ∧ (H.numLevels : ℤ) = p.maxLevels.getD 2 := by
  obtain ⟨h, p, a, L, rfl, rfl, hpos, ha, hL, rfl⟩ := (build_ok _ _ _ _ _).mp hH
  have hn : (p.maxLevels.getD 2).toNat - 1 + 1 = (p.maxLevels.getD 2).toNat := by omega
  obtain ⟨hF, h0⟩ := buildLoop_final h p timer _ ((p.maxLevels.getD 2).toNat - 1) 0 (by omega) _ _
    (initInv h p a) hL
  refine ⟨⟨by dsimp; omega, ?_, ?_, ?_, ?_⟩, p, rfl, by dsimp; omega⟩ <;> dsimp <;> intro l hl
  · by_cases hl' : l + 1 < (p.maxLevels.getD 2).toNat
    · obtain ⟨a, s, r, ap, ac, h1, _⟩ := hF.prev l hl'
      simp [h1]
    · obtain ⟨a, s, h1, _⟩ := hF.last l (by omega)
      simp [h1]
  · by_cases hl' : l + 1 < (p.maxLevels.getD 2).toNat
    · obtain ⟨a, s, r, ap, ac, _, h2, _⟩ := hF.prev l hl'
      simp [h2, hl']
    · simp [hF.noSmoother l (by omega), hl']
  · cases l with
    | zero => simp [hF.noRestrictor]
    | succ l =>
      obtain ⟨a, s, r, ap, ac, _, _, h3, _⟩ := hF.prev l hl
      simp [h3]
  · by_cases hl' : l + 1 = (p.maxLevels.getD 2).toNat
    · obtain ⟨a, s, _, h2, _⟩ := hF.last l hl'
      simp [h2, hl']
    · simp [hF.noSolver l hl', hl']

/-- **C08.** Applying a constructed hierarchy always returns a vector: no unset component is
dereferenced. -/
theorem C08_apply_never_dereferences_null [∀ l, AddCommGroup (V l)] (debug timer : Bool)
    (params : Option Params) (helpers : Outcome (Helpers V)) (H : Hierarchy V)
    (hH : (buildHierarchy debug timer params helpers).result = .ok H) (fresh : ∀ l, V l)
    (x b : V 0) : ∃ y, (H.vmult fresh x b).result = .ok y := by
  have hP := (C08_levels_populated debug timer params helpers H hH).1
  have hpos := hP.pos
  obtain ⟨⟨y, hy⟩, _⟩ := apply_populated H hP fresh (H.numLevels - 1) 0 (by omega) b x
  refine ⟨y, ?_⟩
  simp only [Hierarchy.vmult, timerEnter_bind_result]
  rw [Run.result_bind_ok hy]
  simp

/-- **C08.** Construction succeeds when the requested number of levels is positive and no helper
fails. -/
theorem C08_construction_succeeds (debug timer : Bool) (p : Params) (h : Helpers V)
    (hpos : 0 < p.maxLevels.getD 2)
    (h0 : ∃ a, h.globalOperator = .ok a)
    (h1 : ∀ l a, ∃ s, h.buildSmoother l a p = .ok s)
    (h2 : ∀ l, ∃ r, h.buildRestrictor l p = .ok r)
    (h3 : if p.fastAp.getD false then ∀ l, ∃ ap, h.fastMultiplyTranspose l = .ok ap
      else ∀ l a r, ∃ ap, h.multiplyTranspose l a r = .ok ap)
    (h4 : ∀ l r ap, ∃ ac, h.multiply l r ap = .ok ac)
    (h5 : ∀ l a p, ∃ s, h.buildCoarseSolver l a p = .ok s) :
    ∃ H, (buildHierarchy debug timer (some p) (.ok h)).result = .ok H := by
  obtain ⟨a, ha⟩ := h0
  have h3' : ∀ l a r, ∃ ap, chooseAP h p l a r = .ok ap := by
    intro l a r
    simp only [chooseAP]
    split at h3 <;> rename_i hf <;> simp only [hf, if_true, Bool.false_eq_true, if_false]
    · exact h3 l
    · exact h3 l a r
  obtain ⟨L, hL⟩ := buildLoop_total h p timer (p.maxLevels.getD 2).toNat
    ((p.maxLevels.getD 2).toNat - 1) 0 (by omega) _ (initInv h p a) h1 h2 h3' h4 h5
  exact ⟨_, (build_ok _ _ _ _ _).mpr ⟨h, p, a, L, rfl, rfl, hpos, ha, hL, rfl⟩⟩

/-- **C08.** `max levels = 0`: undefined behaviour in release (the check is a debug-only
`ASSERT`), abort in debug. -/
theorem C08_zero_levels (timer : Bool) (p : Params) (h : Helpers V) (hp : p.maxLevels = some 0)
    (a) (ha : h.globalOperator = .ok a) :
    (∃ w, (buildHierarchy false timer (some p) (.ok h)).result = .ub w) ∧
    (buildHierarchy true timer (some p) (.ok h)).result = .aborted := by
  constructor
  · exact ⟨_, by simp [buildHierarchy, hp, ha, Outcome.assert]; rfl⟩
  · simp [buildHierarchy, hp, Outcome.assert]

/-- **C08.** A negative number of levels: exception in release, abort in debug. -/
theorem C08_negative_levels (timer : Bool) (p : Params) (h : Helpers V) (m : ℤ) (hm : m < 0)
    (hp : p.maxLevels = some m) :
    (∃ w, (buildHierarchy false timer (some p) (.ok h)).result = .throws w) ∧
    (buildHierarchy true timer (some p) (.ok h)).result = .aborted := by
  constructor
  · exact ⟨_, by simp [buildHierarchy, hp, Outcome.assert, hm]; rfl⟩
  · simp [buildHierarchy, hp, Outcome.assert, show m ≤ 0 by omega]

/-- **C08.** Without parameters (the default argument) the constructor dereferences a null
pointer. -/
theorem C08_null_params (debug timer : Bool) (h : Helpers V) :
    ∃ w, (buildHierarchy debug timer none (.ok h)).result = .ub w :=
  ⟨_, by simp [buildHierarchy]; rfl⟩

/-- Four levels with concrete helpers: the hypotheses of `C08_construction_succeeds` hold, hence
also those of `C08_levels_populated` and C06. -/
theorem exBuild (m : ℤ) (hm : 0 < m) (timer : Bool) : ∃ H, (buildHierarchy true timer
    (some { maxLevels := some m }) (.ok exHelpers)).result = .ok H :=
  C08_construction_succeeds _ _ _ _ hm ⟨_, rfl⟩ (fun _ _ => ⟨_, rfl⟩) (fun _ => ⟨_, rfl⟩)
    (fun _ _ _ => ⟨_, rfl⟩) (fun _ _ _ => ⟨_, rfl⟩) (fun _ _ _ => ⟨_, rfl⟩)

example : ∃ H, (buildHierarchy true true (some { maxLevels := some 4 })
    (.ok exHelpers)).result = .ok H := exBuild 4 (by decide) true

example : ∃ a, exHelpers.globalOperator = .ok a := ⟨_, rfl⟩

/-! ## C06 -/

/-- **C06.** After construction, with exact matrix products (and, for `fast_ap`, a correct
`A Rᵀ`, see C23), the operator of level `l + 1` is `R A Rᵀ`, with `R` the restrictor stored on
level `l + 1`, and the finest operator is the one supplied. -/
theorem C06_galerkin (debug timer : Bool) (p : Params) (h : Helpers V) (H : Hierarchy V)
    (hH : (buildHierarchy debug timer (some p) (.ok h)).result = .ok H)
    (hmulT : ∀ l a r ap, h.multiplyTranspose l a r = .ok ap →
      ∀ y, ap.fwd y = a.fwd (r.trans y))
    (hmul : ∀ l r ap ac, h.multiply l r ap = .ok ac → ∀ y, ac.fwd y = r.fwd (ap.fwd y))
    (hfast : ∀ l ap a (r : Op (V l) (V (l + 1))), h.fastMultiplyTranspose l = .ok ap →
      (H.level l).operator = some a →
      (H.level (l + 1)).restrictor = some r → ∀ y, ap.fwd y = a.fwd (r.trans y)) :
    h.globalOperator = Outcome.deref (H.level 0).operator "" ∧
    ∀ l, l + 1 < H.numLevels → ∃ (a : Op (V l) (V l)) (r : Op (V l) (V (l + 1)))
      (ac : Op (V (l + 1)) (V (l + 1))),
      (H.level l).operator = some a ∧ (H.level (l + 1)).restrictor = some r ∧
      (H.level (l + 1)).operator = some ac ∧
      ∀ y, ac.fwd y = r.fwd (a.fwd (r.trans y)) := by
  obtain ⟨h', p', a, L, e1, e2, hpos, ha, hL, rfl⟩ := (build_ok _ _ _ _ _).mp hH
  obtain rfl := Outcome.ok.inj e1
  obtain rfl := Option.some.inj e2
  obtain ⟨hF, h0⟩ := buildLoop_final h p timer _ ((p.maxLevels.getD 2).toNat - 1) 0 (by omega) _ _
    (initInv h p a) hL
  dsimp only at hfast ⊢
  refine ⟨by rw [h0, ha]; simp [initLevels], fun l hl => ?_⟩
  obtain ⟨a, s, r, ap, ac, h1, h2, h3, h4, h5, h6, h7, h8⟩ := hF.prev l hl
  refine ⟨a, r, ac, h1, h3, h4, fun y => ?_⟩
  rw [hmul l r ap ac h8]
  congr 1
  simp only [chooseAP] at h7
  split at h7
  · exact hfast l ap a r h7 h1 h3 y
  · exact hmulT l a r ap h7 y

/-- **C06.** Symmetry and positive semi-definiteness of the finest operator are inherited by the
operator of every level (for restrictors whose transpose action is their adjoint). -/
theorem C06_symmetry_and_semidefiniteness_inherited {K : Type} [Field K] [LinearOrder K]
    [∀ l, AddCommGroup (V l)] [∀ l, Module K (V l)] (φ : Forms K V) (H : Hierarchy V)
    (hsym : ∀ l x y, φ l x y = φ l y x)
    (hgal : ∀ l, l + 1 < H.numLevels → ∃ (a : Op (V l) (V l)) (r : Op (V l) (V (l + 1)))
      (ac : Op (V (l + 1)) (V (l + 1))),
      (H.level l).operator = some a ∧ (H.level (l + 1)).restrictor = some r ∧
      (H.level (l + 1)).operator = some ac ∧ ∀ y, ac.fwd y = r.fwd (a.fwd (r.trans y)))
    (hadj : ∀ l (r : Op (V l) (V (l + 1))), (H.level (l + 1)).restrictor = some r →
      ∀ x y, φ (l + 1) (r.fwd x) y = φ l x (r.trans y))
    (hA : ∀ a, (H.level 0).operator = some a →
      (∀ x y, φ 0 (a.fwd x) y = φ 0 x (a.fwd y)) ∧ ∀ x, 0 ≤ φ 0 (a.fwd x) x)
    (l : ℕ) (hl : l < H.numLevels) (a : Op (V l) (V l)) (ha : (H.level l).operator = some a) :
    (∀ x y, φ l (a.fwd x) y = φ l x (a.fwd y)) ∧ ∀ x, 0 ≤ φ l (a.fwd x) x := by
  induction l with
  | zero => exact hA a ha
  | succ l ih =>
    obtain ⟨a', r, ac, h1, h2, h3, h4⟩ := hgal l hl
    obtain ⟨s1, s2⟩ := ih (by omega) a' h1
    obtain rfl := Option.some.inj (h3.symm.trans ha)
    refine ⟨fun x y => ?_, fun x => ?_⟩
    · rw [h4, h4, hadj l r h2, s1, hsym l (r.trans x), ← hadj l r h2, hsym]
    · rw [h4, hadj l r h2]; exact s2 _

/-- The concrete helpers meet the hypotheses of C06 on any number of levels, and the example
forms and operator those of the inheritance theorem. -/
example (m : ℤ) (hm : 0 < m) : ∃ H, (buildHierarchy true false (some { maxLevels := some m })
      (.ok exHelpers)).result = .ok H ∧
    (∀ l a r ap, exHelpers.multiplyTranspose l a r = .ok ap → ∀ y, ap.fwd y = a.fwd (r.trans y)) ∧
    (∀ l r ap ac, exHelpers.multiply l r ap = .ok ac → ∀ y, ac.fwd y = r.fwd (ap.fwd y)) ∧
    (∀ x y, exForms 1 ((⟨mat 1 1 0 0, mat 1 0 1 0⟩ : Op (ℚ × ℚ) (ℚ × ℚ)).fwd x) y
      = exForms 0 x (mat 1 0 1 0 y)) := by
  obtain ⟨H, hH⟩ := exBuild m hm false
  refine ⟨H, hH, ?_, ?_, ?_⟩
  · rintro l a r ap h y; simp only [exHelpers, Outcome.ok.injEq] at h; subst h; rfl
  · rintro l a r ap h y; simp only [exHelpers, Outcome.ok.injEq] at h; subst h; rfl
  · intro x y; simp [exForms]; ring

/-! ## C07 -/

section C07

variable {K : Type} [Field K] [LinearOrder K] [IsStrictOrderedRing K]
  [∀ l, AddCommGroup (V l)] [∀ l, Module K (V l)]

/-- **C07.** Two-level method with an exact coarse solve on the Galerkin operator: between the
pre-smoothed `y₁` and the post-smoothing lies a vector `y₂`, a correction of `y₁` in the range of
`Rᵀ`, whose residual is annihilated by the restriction and whose error has the least energy among
all such corrections. -/
theorem C07_coarse_correction_optimal (H : Hierarchy V) (D : Data K V) (hH : IsLinear H D)
    (hL : H.numLevels = 2) (hp : H.isPreconditioner = false) (φ : Forms K V)
    (hs : Symmetric D φ 2) (hpsd : ∀ x, 0 ≤ energy D φ 0 x)
    (hexact : ∀ e, D.R 0 (D.A 0 (D.P 0 (D.C 1 (D.R 0 (D.A 0 e))))) = D.R 0 (D.A 0 e))
    (fresh : ∀ l, V l) (x xs b : V 0) (hxs : D.A 0 xs = b) :
    ∃ y₁ y₂, y₁ = (richardson D 0 b)^[H.nSmoothingSteps] x ∧
      (H.vmult fresh x b).result = .ok ((richardson D 0 b)^[H.nSmoothingSteps] y₂) ∧
      (∃ w, y₂ = y₁ + D.P 0 w) ∧
      D.R 0 (b - D.A 0 y₂) = 0 ∧
      ∀ w, energy D φ 0 (xs - y₂) ≤ energy D φ 0 (xs - (y₁ + D.P 0 w)) := by
  set y₁ := (richardson D 0 b)^[H.nSmoothingSteps] x with hy1
  set y₂ := y₁ + D.P 0 (D.C 1 (D.R 0 (b - D.A 0 y₁))) with hy2
  have hb : b - D.A 0 y₁ = D.A 0 (xs - y₁) := by rw [map_sub, hxs]
  have hres : D.R 0 (D.A 0 (xs - y₂)) = 0 := by
    rw [hy2, ← sub_sub, map_sub, map_sub, hb, hexact, sub_self]
  refine ⟨y₁, y₂, rfl, ?_, ⟨_, rfl⟩, ?_, fun w => ?_⟩
  · have h := apply_eq_cycle H D hH fresh 1 0 (by omega) b x (by omega)
    rw [if_neg (by simp [hp])] at h
    simp only [Hierarchy.vmult, timerEnter_bind_result]
    rw [Run.result_bind_ok h]
    simp only [timerLeave_bind_result, Run.result_pure, cycle]
    rfl
  · rw [show b - D.A 0 y₂ = D.A 0 (xs - y₂) by rw [map_sub, hxs], hres]
  · obtain ⟨v, hv⟩ : ∃ v, xs - (y₁ + D.P 0 w) = (xs - y₂) + D.P 0 v :=
      ⟨D.C 1 (D.R 0 (b - D.A 0 y₁)) - w, by
        rw [hy2, map_sub (D.P 0)]
        generalize D.P 0 (D.C 1 (D.R 0 (b - D.A 0 y₁))) = q
        abel⟩
    rw [hv]
    have h1 : φ 0 (D.A 0 (xs - y₂)) (D.P 0 v) = 0 := by
      rw [← hs.RP 0 (by omega), hres]; simp
    have h2 : φ 0 (D.A 0 (D.P 0 v)) (xs - y₂) = 0 := by
      rw [hs.A 0 (by omega), hs.form, h1]
    have h3 := hpsd (D.P 0 v)
    have h4 : energy D φ 0 (xs - y₂ + D.P 0 v) =
        energy D φ 0 (xs - y₂) + energy D φ 0 (D.P 0 v) := by
      rw [energy, map_add, map_add, map_add, LinearMap.add_apply, LinearMap.add_apply, h1, h2]
      simp [energy]
    rw [h4]
    exact le_add_of_nonneg_right h3

/-- The two-level example meets the hypotheses of C07. -/
example : IsLinear (ofData exData 2 1 false true) exData ∧ Symmetric exData exForms 2 ∧
    (∀ x, 0 ≤ energy exData exForms 0 x) ∧
    (∀ e, exData.R 0 (exData.A 0 (exData.P 0 (exData.C 1 (exData.R 0 (exData.A 0 e))))) =
      exData.R 0 (exData.A 0 e)) ∧ exData.A 0 (1, 2) = ((0, 3) : ℚ × ℚ) := by
  refine ⟨ofData_isLinear _ _ _ _ _ (by decide), exSymmetric 2, exVariational.psd, fun e => ?_,
    by simp [exData]; norm_num⟩
  simp [exData]; ring

end C07

/-! ## C09 -/

/-- The section names used by mfmg. -/
def mfmgSections : List String := ["Setup", "Setup: build coarse solver", "Setup: build smoother",
  "Setup: build restrictor", "Setup: fast_ap", "Setup: ap", "Setup: build coarse matrix", "Apply",
  "Apply: fine levels", "Apply: coarsest level"]

/-- **C09** (set-up part, any number of levels). A construction that returns leaves the timer as it
found it and never enters a section that is active, if the user has none of mfmg's sections
open. -/
theorem C09_setup_balanced (debug timer : Bool) (params : Option Params)
    (helpers : Outcome (Helpers V)) (H : Hierarchy V)
    (hH : (buildHierarchy debug timer params helpers).result = .ok H) (st : List String)
    (hst : ∀ s ∈ mfmgSections, s ∉ st) :
    timerRun st (buildHierarchy debug timer params helpers).trace = some st := by
  obtain ⟨h, p, a, L, rfl, rfl, hpos, ha, hL, rfl⟩ := (build_ok _ _ _ _ _).mp hH
  have ht := buildLoop_trace h p timer _ ((p.maxLevels.getD 2).toNat - 1) 0 (by omega) _ _ hL
  have hrun : (buildHierarchy debug timer (some p) (.ok h)).trace =
      tEnter timer "Setup" ++ (buildTrace timer p ((p.maxLevels.getD 2).toNat - 1) 0
        ++ tLeave timer) := by
    simp only [buildHierarchy, timerEnter_bind_trace, Run.result_lift_ok_bind, Outcome.deref_some]
    have hassert : Outcome.assert debug (decide (p.maxLevels.getD 2 > 0)) = .ok () := by
      simp [Outcome.assert, hpos]
    rw [hassert, Run.result_lift_ok_bind, if_neg (by omega), ha, Run.result_lift_ok_bind,
      if_neg (by omega)]
    have hL' := hL
    simp only [initLevels] at ht hL'
    rw [Run.trace_bind_ok hL', ht, timerLeave_bind_trace]
    simp
  rw [hrun]
  have hinner : ∀ st', (∀ s ∈ setupNames, s ∉ st') → timerRun st'
      (buildTrace timer p ((p.maxLevels.getD 2).toNat - 1) 0 ++ tLeave timer) =
      timerRun st' (tLeave timer) := by
    intro st' hst'
    rw [timerRun_append, buildTrace_run _ _ _ _ _ hst']; rfl
  cases timer
  · simp only [tEnter, Bool.false_eq_true, if_false, List.nil_append]
    rw [hinner st (fun s hs => hst s (by revert s; decide))]
    simp [tLeave]
  · simp only [tEnter, if_true, List.singleton_append, timerRun_enter,
      hst "Setup" (by decide), if_false]
    rw [hinner]
    · simp [tLeave]
    · intro s hs
      have h1 : s ∈ mfmgSections := by revert s; decide
      have h2 : s ≠ "Setup" := by revert s; decide
      simp [h2, hst s h1]

variable [∀ l, AddCommGroup (V l)]

theorem vmult_trace (H : Hierarchy V) (hP : Populated H) (fresh : ∀ l, V l) (x b : V 0) :
    (H.vmult fresh x b).trace = tEnter H.timer "Apply" ++
      (applyTrace H.timer H.nSmoothingSteps (H.numLevels - 1) 0 ++ tLeave H.timer) := by
  have hpos := hP.pos
  obtain ⟨⟨y, hy⟩, ht⟩ := apply_populated H hP fresh (H.numLevels - 1) 0 (by omega) b x
  simp only [Hierarchy.vmult, timerEnter_bind_trace]
  rw [Run.trace_bind_ok hy, ht, timerLeave_bind_trace]
  simp

/-- **C09** (partial: at most two levels, or no timer).  Full statement: the same for any number
of levels; it is false for three or more, see `C09_reentry_violated`. -/
theorem C09_apply_balanced_partial (H : Hierarchy V) (hP : Populated H)
    (hL : H.numLevels ≤ 2 ∨ H.timer = false) (fresh : ∀ l, V l) (x b : V 0) (st : List String)
    (hst : ∀ s ∈ mfmgSections, s ∉ st) :
    timerRun st (H.vmult fresh x b).trace = some st := by
  rw [vmult_trace H hP]
  cases ht : H.timer
  · simp only [tEnter, tLeave, Bool.false_eq_true, if_false, List.nil_append, List.append_nil]
    exact timerRun_none_of_no_timer _ _ _ _
  · have hL : H.numLevels ≤ 2 := by simpa [ht] using hL
    simp only [tEnter, tLeave, if_true, List.singleton_append, timerRun_enter,
      hst "Apply" (by decide), if_false]
    rw [timerRun_append, applyTrace_two _ _ _ _ _ _ (by omega)]
    · simp
    · simp [hst "Apply: fine levels" (by decide)]
    · simp [hst "Apply: coarsest level" (by decide)]

/-- **C09** violated: with a timer and three or more levels every application enters the section
"Apply: fine levels" while it is active, whatever was active before. -/
theorem C09_reentry_violated (H : Hierarchy V) (hP : Populated H) (hL : 3 ≤ H.numLevels)
    (ht : H.timer = true) (fresh : ∀ l, V l) (x b : V 0) (st : List String) :
    timerRun st (H.vmult fresh x b).trace = none := by
  rw [vmult_trace H hP, ht]
  obtain ⟨d, hd⟩ : ∃ d, H.numLevels - 1 = d + 2 := ⟨H.numLevels - 3, by omega⟩
  simp only [tEnter, if_true, List.singleton_append, timerRun_enter]
  split
  · rfl
  · rw [timerRun_append, hd, applyTrace_three]; rfl

/-- **C09** (balance only, any number of levels): as many sections are left as were entered, in
stack order. -/
theorem C09_apply_balanced_up_to_reentry (H : Hierarchy V) (hP : Populated H) (fresh : ∀ l, V l)
    (x b : V 0) (st : List String) :
    timerRunLax st (H.vmult fresh x b).trace = some st := by
  rw [vmult_trace H hP]
  cases ht : H.timer
  · simpa [tEnter, tLeave] using applyTrace_lax false _ _ _ _
  · simp only [tEnter, tLeave, if_true, List.singleton_append, timerRunLax_enter]
    rw [timerRunLax_append, applyTrace_lax]
    simp

omit [∀ l, AddCommGroup (V l)] in
/-- **C09** violated: whenever construction does not return (a set-up step throws), the section
"Setup" is still active afterwards. -/
theorem C09_sections_leak_on_throw_violated (debug : Bool) (params : Option Params)
    (helpers : Outcome (Helpers V))
    (hH : ∀ H, (buildHierarchy debug true params helpers).result ≠ .ok H) (st : List String) :
    ∃ pre, timerRunLax st (buildHierarchy debug true params helpers).trace =
      some (pre ++ "Setup" :: st) := by
  simp only [buildHierarchy, timerEnter_bind_trace, tEnter, if_true, List.singleton_append,
    timerRunLax_enter, timerEnter_bind_result] at hH ⊢
  generalize "Setup" :: st = st' at *
  have hlift : ∀ {α : Type} (o : Outcome α), ∃ pre, timerRunLax st' (Run.lift o).trace =
      some (pre ++ st') := fun o => ⟨[], rfl⟩
  cases helpers with
  | ok h =>
    cases params with
    | none => exact hlift _
    | some p =>
      simp only [Run.result_lift_ok_bind, Outcome.deref_some] at hH ⊢
      cases has : Outcome.assert debug (decide (p.maxLevels.getD 2 > 0)) with
      | ok _ =>
        simp only [has, Run.result_lift_ok_bind] at hH ⊢
        split
        · exact hlift _
        · rename_i hneg
          simp only [if_neg hneg] at hH
          cases ha : h.globalOperator with
          | ok a =>
            simp only [ha, Run.result_lift_ok_bind] at hH ⊢
            split
            · exact hlift _
            · rename_i hz
              simp only [if_neg hz] at hH
              have habove := buildLoop_above h p true (p.maxLevels.getD 2).toNat 0
                (Levels.set (fun _ => {}) 0 (fun v => { v with operator := some a })) st'
              revert hH habove
              generalize buildLoop h p true (p.maxLevels.getD 2).toNat 0
                (Levels.set (fun _ => {}) 0 (fun v => { v with operator := some a })) = r
              intro hH habove
              match r, hH, habove with
              | (t, .ok L), hH, _ =>
                exact absurd (Run.result_bind_ok (x := ((t, .ok L) : Run (Levels V))) rfl) (by
                  intro hcon
                  exact hH _ hcon)
              | (t, .throws m), _, habove => exact habove
              | (t, .aborted), _, habove => exact habove
              | (t, .ub w), _, habove => exact habove
          | _ => exact hlift _
      | _ => exact hlift _
  | _ => exact hlift _

/-- Concrete cases: two and three levels, and a helper that throws. -/
example : Populated (ofData exData 2 1 true true) ∧ (ofData exData 2 1 true true).numLevels ≤ 2 ∧
    Populated (ofData exData 3 1 true true) ∧ 3 ≤ (ofData exData 3 1 true true).numLevels ∧
    (∀ s ∈ mfmgSections, s ∉ ["My solver"]) :=
  ⟨ofData_populated _ _ _ _ _ (by decide), le_refl 2, ofData_populated _ _ _ _ _ (by decide),
    le_refl 3, by decide⟩

example : ∀ H, (buildHierarchy false true (some {}) (.ok { exHelpers with
    buildSmoother := fun _ _ _ => .throws "unknown smoother" })).result ≠ .ok H := by
  intro H hH
  obtain ⟨h', p', a, L, e1, e2, hpos, ha, hL, rfl⟩ := (build_ok _ _ _ _ _).mp hH
  obtain rfl := Outcome.ok.inj e1
  obtain rfl := Option.some.inj e2
  obtain ⟨_, _, _, _, _, _, hs, _⟩ := (buildLoop_step _ _ _ _ _ _ (by decide) _).mp hL
  simp at hs

/-! ## C10 -/

omit [∀ l, AddCommGroup (V l)] in
/-- **C10.** How parameters determine the hierarchy: the defaults are 2 levels, 1 smoothing step
and preconditioner mode; a non-negative step count is taken as is; a negative one becomes
`2^32 - |n|`. -/
theorem C10_parameters (debug timer : Bool) (p : Params) (helpers : Outcome (Helpers V))
    (H : Hierarchy V) (hH : (buildHierarchy debug timer (some p) helpers).result = .ok H) :
    (p.maxLevels = none → H.numLevels = 2) ∧
    (∀ n : ℕ, p.maxLevels = some (n : ℤ) → H.numLevels = n) ∧
    (p.isPreconditioner = none → H.isPreconditioner = true) ∧
    (∀ v, p.isPreconditioner = some v → H.isPreconditioner = v) ∧
    (p.nSmoothingSteps = none → H.nSmoothingSteps = 1) ∧
    (∀ n : ℕ, n < 2 ^ 31 → p.nSmoothingSteps = some (n : ℤ) → H.nSmoothingSteps = n) ∧
    (∀ n : ℕ, 0 < n → n ≤ 2 ^ 31 → p.nSmoothingSteps = some (-(n : ℤ)) →
      H.nSmoothingSteps = 2 ^ 32 - n) := by
  obtain ⟨h', p', a, L, e1, e2, hpos, ha, hL, rfl⟩ := (build_ok _ _ _ _ _).mp hH
  obtain rfl := Option.some.inj e2
  dsimp only
  refine ⟨?_, ?_, ?_, ?_, ?_, ?_, ?_⟩
  · intro h; simp [h]
  · intro n h; simp [h]
  · intro h; simp [h]
  · intro v h; simp [h]
  · intro h; simp [h, toUnsigned]
  · intro n hn h
    rw [h]
    simp only [toUnsigned, Option.getD_some]
    omega
  · intro n hn hn' h
    rw [h]
    simp only [toUnsigned, Option.getD_some]
    omega

theorem count_applyTrace (t : Bool) (n d l k : ℕ) :
    (applyTrace t n d l).count (.smooth k) = if l ≤ k ∧ k < l + d then 2 * n else 0 := by
  induction d generalizing l with
  | zero => cases t <;> simp [applyTrace, tEnter, tLeave]
  | succ d ih =>
    have h1 : ∀ s, (tEnter t s).count (.smooth k) = 0 := by cases t <;> simp [tEnter]
    have h2 : (tLeave t).count (.smooth k) = 0 := by cases t <;> simp [tLeave]
    simp only [applyTrace, List.count_append, h1, h2, ih, List.count_replicate]
    by_cases hk : k = l
    · subst hk
      simp; omega
    · have h3 : ¬ ((Event.smooth l == Event.smooth k) = true) := by simp [Ne.symm hk]
      rw [if_neg h3]
      by_cases h4 : l + 1 ≤ k ∧ k < l + 1 + d
      · rw [if_pos h4, if_pos (by omega)]; omega
      · rw [if_neg h4, if_neg (by omega)]

theorem count_coarse_applyTrace (t : Bool) (n d l k : ℕ) :
    (applyTrace t n d l).count (.coarse k) = if k = l + d then 1 else 0 := by
  induction d generalizing l with
  | zero =>
    by_cases h : k = l
    · subst h; cases t <;> simp [applyTrace, tEnter, tLeave]
    · cases t <;> simp [applyTrace, tEnter, tLeave, h, Ne.symm h]
  | succ d ih =>
    have h1 : ∀ s, (tEnter t s).count (.coarse k) = 0 := by cases t <;> simp [tEnter]
    have h2 : (tLeave t).count (.coarse k) = 0 := by cases t <;> simp [tLeave]
    simp only [applyTrace, List.count_append, h1, h2, ih, List.count_replicate]
    rw [show l + 1 + d = l + (d + 1) by omega]
    simp

/-- **C10.** One application calls the smoother of every level but the last exactly
`2 * n_smoothing_steps` times, that of no other level, and the coarse solver exactly once. -/
theorem C10_smoothing_steps (H : Hierarchy V) (hP : Populated H) (fresh : ∀ l, V l) (x b : V 0) :
    (∀ l, l + 1 < H.numLevels →
      (H.vmult fresh x b).trace.count (.smooth l) = 2 * H.nSmoothingSteps) ∧
    (∀ l, H.numLevels ≤ l + 1 → (H.vmult fresh x b).trace.count (.smooth l) = 0) ∧
    (∀ l, (H.vmult fresh x b).trace.count (.coarse l) = if l + 1 = H.numLevels then 1 else 0) := by
  have hpos := hP.pos
  have h1 : ∀ s l, (tEnter H.timer s).count (.smooth l) = 0 := by
    intro s l; cases H.timer <;> simp [tEnter]
  have h2 : ∀ l, (tLeave H.timer).count (.smooth l) = 0 := by
    intro l; cases H.timer <;> simp [tLeave]
  have h3 : ∀ s l, (tEnter H.timer s).count (.coarse l) = 0 := by
    intro s l; cases H.timer <;> simp [tEnter]
  have h4 : ∀ l, (tLeave H.timer).count (.coarse l) = 0 := by
    intro l; cases H.timer <;> simp [tLeave]
  rw [vmult_trace H hP]
  simp only [List.count_append, h1, h2, h3, h4, count_applyTrace, count_coarse_applyTrace]
  refine ⟨fun l hl => ?_, fun l hl => ?_, fun l => ?_⟩
  · rw [if_pos (by omega)]; omega
  · rw [if_neg (by omega)]
  · by_cases h : l + 1 = H.numLevels
    · rw [if_pos h, if_pos (by omega)]
    · rw [if_neg h, if_neg (by omega)]

/-- Sequence of smoother/solver calls of one application with `d + 1` levels from level `l`. -/
def callOrder (n : ℕ) : (d l : ℕ) → List Event
  | 0, l => [.coarse l]
  | d + 1, l => List.replicate n (.smooth l) ++ callOrder n d (l + 1) ++
      List.replicate n (.smooth l)

/-- **C10.** The calls come in V-cycle order: on each level `n` pre-smoothing steps, everything
coarser, then `n` post-smoothing steps. -/
theorem C10_call_order (H : Hierarchy V) (hP : Populated H) (fresh : ∀ l, V l) (x b : V 0) :
    (H.vmult fresh x b).trace.filter
      (fun e => match e with | .smooth _ => true | .coarse _ => true | _ => false) =
    callOrder H.nSmoothingSteps (H.numLevels - 1) 0 := by
  rw [vmult_trace H hP]
  set f : Event → Bool :=
    fun e => match e with | .smooth _ => true | .coarse _ => true | _ => false with hf
  have h1 : ∀ t s, (tEnter t s).filter f = [] := by intro t s; cases t <;> simp [tEnter, hf]
  have h2 : ∀ t, (tLeave t).filter f = [] := by intro t; cases t <;> simp [tLeave, hf]
  have h3 : ∀ n l, (List.replicate n (Event.smooth l)).filter f =
      List.replicate n (Event.smooth l) := by
    intro n l; simp [hf]
  have key : ∀ t n d l, (applyTrace t n d l).filter f = callOrder n d l := by
    intro t n d
    induction d with
    | zero => intro l; cases t <;> simp [applyTrace, callOrder, tEnter, tLeave, hf]
    | succ d ih => intro l; simp [applyTrace, callOrder, h1, h2, h3, ih]
  simp [List.filter_append, h1, h2, key]

theorem put_buildTrace (t : Bool) (p : Params) (d l : ℕ) (v : Bool) :
    Event.put v ∈ buildTrace t p d l ↔ d = 0 ∧ l = 0 ∧ v = p.isPreconditioner.getD true := by
  induction d generalizing l with
  | zero =>
    by_cases hl : l = 0 <;> cases t <;> simp [buildTrace, tEnter, tLeave, hl]
  | succ d ih => cases t <;> simp [buildTrace, tEnter, tLeave, ih]

omit [∀ l, AddCommGroup (V l)] in
/-- **C10.** A successful construction modifies the user's parameter tree only for a single-level
hierarchy, where the entry written is the preconditioner flag. -/
theorem C10_user_parameters (debug timer : Bool) (p : Params) (helpers : Outcome (Helpers V))
    (H : Hierarchy V) (hH : (buildHierarchy debug timer (some p) helpers).result = .ok H)
    (v : Bool) :
    Event.put v ∈ (buildHierarchy debug timer (some p) helpers).trace ↔
      H.numLevels = 1 ∧ v = H.isPreconditioner := by
  obtain ⟨h, p', a, L, rfl, e2, hpos, ha, hL, rfl⟩ := (build_ok _ _ _ _ _).mp hH
  obtain rfl := Option.some.inj e2
  have ht := buildLoop_trace h p timer _ ((p.maxLevels.getD 2).toNat - 1) 0 (by omega) _ _ hL
  simp only [buildHierarchy, timerEnter_bind_trace, Run.result_lift_ok_bind, Outcome.deref_some]
  have hassert : Outcome.assert debug (decide (p.maxLevels.getD 2 > 0)) = .ok () := by
    simp [Outcome.assert, hpos]
  rw [hassert, Run.result_lift_ok_bind, if_neg (by omega), ha, Run.result_lift_ok_bind,
    if_neg (by omega)]
  have hL' := hL
  simp only [initLevels] at ht hL'
  rw [Run.trace_bind_ok hL', ht, timerLeave_bind_trace]
  have h1 : Event.put v ∉ tEnter timer "Setup" := by cases timer <;> simp [tEnter]
  have h2 : Event.put v ∉ tLeave timer := by cases timer <;> simp [tLeave]
  simp only [Run.trace_pure, List.append_nil, List.mem_append, h1, h2, put_buildTrace, false_or,
    or_false, true_and]
  constructor
  · rintro ⟨h3, h4⟩; exact ⟨by omega, h4⟩
  · rintro ⟨h3, h4⟩; exact ⟨by omega, h4⟩

/-- Concrete cases for C10: one level in standalone mode, and -1 smoothing steps on three
levels. -/
example : ∃ H, (buildHierarchy true false (some ⟨some false, none, some 1, none, none⟩) (.ok exHelpers)).result = .ok H :=
  C08_construction_succeeds _ _ _ _ (by decide) ⟨_, rfl⟩ (fun _ _ => ⟨_, rfl⟩) (fun _ => ⟨_, rfl⟩)
    (fun _ _ _ => ⟨_, rfl⟩) (fun _ _ _ => ⟨_, rfl⟩) (fun _ _ _ => ⟨_, rfl⟩)

example : ∃ H, (buildHierarchy true false (some ⟨none, some (-1), some 3, none, none⟩) (.ok exHelpers)).result = .ok H ∧
    H.nSmoothingSteps = 4294967295 := by
  obtain ⟨H, hH⟩ := C08_construction_succeeds true false
    ⟨none, some (-1), some 3, none, none⟩ exHelpers (by decide) ⟨_, rfl⟩ (fun _ _ => ⟨_, rfl⟩)
    (fun _ => ⟨_, rfl⟩) (fun _ _ _ => ⟨_, rfl⟩) (fun _ _ _ => ⟨_, rfl⟩) (fun _ _ _ => ⟨_, rfl⟩)
  exact ⟨H, hH, (C10_parameters _ _ _ _ H hH).2.2.2.2.2.2 1 (by decide) (by decide) rfl⟩

end Mfmg
