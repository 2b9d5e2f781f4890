import Verif.Lemmas.Trace

set_option autoImplicit false

namespace Mfmg

open Spec

variable {V : ℕ → Type}

namespace Levels

@[simp] theorem set_same (L : Levels V) (l : ℕ) (f : Level V l → Level V l) :
    L.set l f l = f (L l) := by simp [Levels.set]

@[simp] theorem set_ne (L : Levels V) (l k : ℕ) (f : Level V l → Level V l) (h : k ≠ l) :
    L.set l f k = L k := by simp [Levels.set, h]

end Levels

theorem Run.bind_result_ok {α β : Type} {x : Run α} {f : α → Run β} {b : β} :
    (x >>= f).result = .ok b ↔ ∃ a, x.result = .ok a ∧ (f a).result = .ok b := by
  constructor
  · intro h
    match x, h with
    | (t, .ok a), h => exact ⟨a, rfl, h⟩
  · rintro ⟨a, ha, hb⟩
    rw [Run.result_bind_ok ha, hb]

theorem Run.bind_trace_ok {α β : Type} {x : Run α} {f : α → Run β} {b : β}
    (h : (x >>= f).result = .ok b) : ∃ a, x.result = .ok a ∧ (f a).result = .ok b ∧
      (x >>= f).trace = x.trace ++ (f a).trace := by
  obtain ⟨a, ha, hb⟩ := Run.bind_result_ok.mp h
  exact ⟨a, ha, hb, Run.trace_bind_ok ha⟩

@[simp] theorem timed_result {α : Type} (t : Bool) (s : String) (f : Outcome α) :
    (timed t s f).result = f := by
  simp only [timed, timerEnter_bind_result]
  cases f <;> simp

theorem timed_trace_ok {α : Type} (t : Bool) (s : String) (f : Outcome α) (a : α)
    (h : f = .ok a) : (timed t s f).trace = tEnter t s ++ tLeave t := by
  subst h
  simp [timed, timerEnter_bind_trace, timerLeave_bind_trace]

theorem timed_trace_fail {α : Type} (t : Bool) (s : String) (f : Outcome α)
    (h : ∀ a, f ≠ .ok a) : (timed t s f).trace = tEnter t s := by
  simp only [timed, timerEnter_bind_trace]
  cases f with
  | ok a => exact absurd rfl (h a)
  | _ => simp

/-- The product `A Rᵀ` chosen by the flag `fast_ap`. -/
def chooseAP (h : Helpers V) (p : Params) (l : ℕ) (a : Op (V l) (V l)) (r : Op (V l) (V (l + 1))) :
    Outcome (Op (V (l + 1)) (V l)) :=
  if p.fastAp.getD false then h.fastMultiplyTranspose l else h.multiplyTranspose l a r

/-- The levels after processing level `l` (not the last). -/
def stepLevels (L : Levels V) (l : ℕ) (s : V l → V l → V l) (r : Op (V l) (V (l + 1)))
    (ac : Op (V (l + 1)) (V (l + 1))) : Levels V :=
  ((L.set l (fun v => { v with smoother := some s })).set (l + 1)
    (fun v => { v with restrictor := some r })).set (l + 1)
    (fun v => { v with operator := some ac })

/-- Parameters seen by the coarse solver factory. -/
def coarseParams (p : Params) (l : ℕ) : Params :=
  if l = 0 then { p with zeroStartingSolution := some (p.isPreconditioner.getD true) } else p

theorem buildLoop_last (h : Helpers V) (p : Params) (t : Bool) (n l : ℕ) (L : Levels V)
    (hl : l + 1 = n) (R : Levels V) :
    (buildLoop h p t n l L).result = .ok R ↔
      ∃ a s, (L l).operator = some a ∧ h.buildCoarseSolver l a (coarseParams p l) = .ok s ∧
        R = L.set l (fun v => { v with solver := some s }) := by
  rw [buildLoop]
  have h1 : l < n := by omega
  have h2 : l = n - 1 := by omega
  simp only [h1, if_true, if_pos h2]
  cases ha : (L l).operator with
  | none => simp
  | some a =>
    simp only [Outcome.deref_some, Run.result_lift_ok_bind, Option.some.injEq]
    by_cases h0 : l = 0
    · simp only [h0, if_true]
      subst h0
      simp [Run.bind_result_ok, coarseParams]
      exact ⟨fun ⟨s, h1, h2⟩ => ⟨s, h1, h2.symm⟩, fun ⟨s, h1, h2⟩ => ⟨s, h1, h2.symm⟩⟩
    · simp [h0, Run.bind_result_ok, coarseParams]
      exact ⟨fun ⟨s, h1, h2⟩ => ⟨s, h1, h2.symm⟩, fun ⟨s, h1, h2⟩ => ⟨s, h1, h2.symm⟩⟩

theorem buildLoop_step (h : Helpers V) (p : Params) (t : Bool) (n l : ℕ) (L : Levels V)
    (hl : l + 1 < n) (R : Levels V) :
    (buildLoop h p t n l L).result = .ok R ↔
      ∃ a s r ap ac, (L l).operator = some a ∧ h.buildSmoother l a p = .ok s ∧
        h.buildRestrictor l p = .ok r ∧ chooseAP h p l a r = .ok ap ∧
        h.multiply l r ap = .ok ac ∧
        (buildLoop h p t n (l + 1) (stepLevels L l s r ac)).result = .ok R := by
  rw [buildLoop]
  have h1 : l < n := by omega
  have h2 : ¬ l = n - 1 := by omega
  simp only [h1, if_true, if_neg h2]
  cases ha : (L l).operator with
  | none => simp
  | some a =>
    simp only [Outcome.deref_some, Run.result_lift_ok_bind, Option.some.injEq, chooseAP]
    by_cases hf : p.fastAp.getD false = true
    · simp [hf, Run.bind_result_ok]
      constructor
      · rintro ⟨s, hs, r, hr, ap, hap, ac, hac, hR⟩
        exact ⟨s, hs, r, hr, ap, hap, ac, hac, hR⟩
      · rintro ⟨s, hs, r, hr, ap, hap, ac, hac, hR⟩
        exact ⟨s, hs, r, hr, ap, hap, ac, hac, hR⟩
    · simp [hf, Run.bind_result_ok]
      constructor
      · rintro ⟨s, hs, r, hr, ap, hap, ac, hac, hR⟩
        exact ⟨s, hs, r, hr, ap, hap, ac, hac, hR⟩
      · rintro ⟨s, hs, r, hr, ap, hap, ac, hac, hR⟩
        exact ⟨s, hs, r, hr, ap, hap, ac, hac, hR⟩

/-- What is known about the levels when the loop reaches level `l`. -/
structure Inv (h : Helpers V) (p : Params) (l : ℕ) (L : Levels V) : Prop where
  cur : ∃ a, (L l).operator = some a
  prev : ∀ k < l, ∃ a s r ap ac, (L k).operator = some a ∧ (L k).smoother = some s ∧
    (L (k + 1)).restrictor = some r ∧ (L (k + 1)).operator = some ac ∧
    h.buildSmoother k a p = .ok s ∧ h.buildRestrictor k p = .ok r ∧
    chooseAP h p k a r = .ok ap ∧ h.multiply k r ap = .ok ac
  noSolver : ∀ k, (L k).solver = none
  noSmoother : ∀ k, l ≤ k → (L k).smoother = none
  noRestrictor : (L 0).restrictor = none

theorem Inv.step {h : Helpers V} {p : Params} {l : ℕ} {L : Levels V} (hI : Inv h p l L)
    {a s r ap ac} (ha : (L l).operator = some a) (hs : h.buildSmoother l a p = .ok s)
    (hr : h.buildRestrictor l p = .ok r) (hap : chooseAP h p l a r = .ok ap)
    (hac : h.multiply l r ap = .ok ac) : Inv h p (l + 1) (stepLevels L l s r ac) where
  cur := ⟨ac, by simp [stepLevels]⟩
  prev := by
    intro k hk
    rcases Nat.lt_succ_iff_lt_or_eq.mp hk with hk | rfl
    · obtain ⟨a', s', r', ap', ac', h1, h2, h3, h4, h5⟩ := hI.prev k hk
      refine ⟨a', s', r', ap', ac', ?_, ?_, ?_, ?_, h5⟩
      · simp [stepLevels, show k ≠ l by omega, show k ≠ l + 1 by omega, h1]
      · simp [stepLevels, show k ≠ l by omega, show k ≠ l + 1 by omega, h2]
      · by_cases hkl : k + 1 = l
        · subst hkl; simp [stepLevels, h3]
        · simp [stepLevels, hkl, show k ≠ l by omega, h3]
      · by_cases hkl : k + 1 = l
        · subst hkl; simp [stepLevels, h4]
        · simp [stepLevels, hkl, show k ≠ l by omega, h4]
    · exact ⟨a, s, r, ap, ac, by simp [stepLevels, ha], by simp [stepLevels],
        by simp [stepLevels], by simp [stepLevels], hs, hr, hap, hac⟩
  noSolver := by
    intro k
    by_cases h1 : k = l
    · subst h1; simp [stepLevels, hI.noSolver]
    · by_cases h2 : k = l + 1
      · subst h2; simp [stepLevels, hI.noSolver]
      · simp [stepLevels, h1, h2, hI.noSolver]
  noSmoother := by
    intro k hk
    by_cases h2 : k = l + 1
    · subst h2; simp [stepLevels, hI.noSmoother]
    · simp [stepLevels, show k ≠ l by omega, h2, hI.noSmoother k (by omega)]
  noRestrictor := by
    by_cases h1 : 0 = l
    · subst h1; simp [stepLevels, hI.noRestrictor]
    · simp [stepLevels, h1, hI.noRestrictor]

/-- What is known about the levels after the constructor's loop. -/
structure Final (h : Helpers V) (p : Params) (n : ℕ) (L : Levels V) : Prop where
  prev : ∀ k, k + 1 < n → ∃ a s r ap ac, (L k).operator = some a ∧ (L k).smoother = some s ∧
    (L (k + 1)).restrictor = some r ∧ (L (k + 1)).operator = some ac ∧
    h.buildSmoother k a p = .ok s ∧ h.buildRestrictor k p = .ok r ∧
    chooseAP h p k a r = .ok ap ∧ h.multiply k r ap = .ok ac
  last : ∀ k, k + 1 = n → ∃ a s, (L k).operator = some a ∧ (L k).solver = some s ∧
    h.buildCoarseSolver k a (coarseParams p k) = .ok s
  noSolver : ∀ k, k + 1 ≠ n → (L k).solver = none
  noSmoother : ∀ k, n ≤ k + 1 → (L k).smoother = none
  noRestrictor : (L 0).restrictor = none

theorem buildLoop_final (h : Helpers V) (p : Params) (t : Bool) (n : ℕ) (d l : ℕ)
    (hd : l + d + 1 = n) (L R : Levels V) (hI : Inv h p l L)
    (hR : (buildLoop h p t n l L).result = .ok R) : Final h p n R ∧ (R 0).operator = (L 0).operator := by
  induction d generalizing l L with
  | zero =>
    obtain ⟨a, s, ha, hs, rfl⟩ := (buildLoop_last h p t n l L (by omega) R).mp hR
    refine ⟨⟨?_, ?_, ?_, ?_, ?_⟩, ?_⟩
    · intro k hk
      obtain ⟨a', s', r', ap', ac', h1, h2, h3, h4, h5⟩ := hI.prev k (by omega)
      refine ⟨a', s', r', ap', ac', ?_, ?_, ?_, ?_, h5⟩
      · simp [show k ≠ l by omega, h1]
      · simp [show k ≠ l by omega, h2]
      · by_cases hkl : k + 1 = l
        · subst hkl; simp [h3]
        · simp [hkl, h3]
      · by_cases hkl : k + 1 = l
        · subst hkl; simp [h4]
        · simp [hkl, h4]
    · intro k hk
      have : k = l := by omega
      subst this
      exact ⟨a, s, by simp [ha], by simp, hs⟩
    · intro k hk
      simp [show k ≠ l by omega, hI.noSolver]
    · intro k hk
      by_cases hkl : k = l
      · subst hkl; simp [hI.noSmoother]
      · simp [hkl, hI.noSmoother k (by omega)]
    · by_cases hkl : 0 = l
      · subst hkl; simp [hI.noRestrictor]
      · simp [hkl, hI.noRestrictor]
    · by_cases hkl : 0 = l
      · subst hkl; simp
      · simp [hkl]
  | succ d ih =>
    obtain ⟨a, s, r, ap, ac, ha, hs, hr, hap, hac, hR'⟩ :=
      (buildLoop_step h p t n l L (by omega) R).mp hR
    obtain ⟨h1, h2⟩ := ih (l + 1) (by omega) _ (hI.step ha hs hr hap hac) hR'
    refine ⟨h1, h2.trans ?_⟩
    by_cases hkl : 0 = l
    · subst hkl; simp [stepLevels]
    · simp [stepLevels, hkl]

/-- If no helper fails the loop succeeds. -/
theorem buildLoop_total (h : Helpers V) (p : Params) (t : Bool) (n : ℕ) (d l : ℕ)
    (hd : l + d + 1 = n) (L : Levels V) (hI : Inv h p l L)
    (h1 : ∀ l a, ∃ s, h.buildSmoother l a p = .ok s)
    (h2 : ∀ l, ∃ r, h.buildRestrictor l p = .ok r)
    (h3 : ∀ l a r, ∃ ap, chooseAP h p l a r = .ok ap)
    (h4 : ∀ l r ap, ∃ ac, h.multiply l r ap = .ok ac)
    (h5 : ∀ l a p, ∃ s, h.buildCoarseSolver l a p = .ok s) :
    ∃ R, (buildLoop h p t n l L).result = .ok R := by
  induction d generalizing l L with
  | zero =>
    obtain ⟨a, ha⟩ := hI.cur
    obtain ⟨s, hs⟩ := h5 l a (coarseParams p l)
    exact ⟨_, (buildLoop_last h p t n l L (by omega) _).mpr ⟨a, s, ha, hs, rfl⟩⟩
  | succ d ih =>
    obtain ⟨a, ha⟩ := hI.cur
    obtain ⟨s, hs⟩ := h1 l a
    obtain ⟨r, hr⟩ := h2 l
    obtain ⟨ap, hap⟩ := h3 l a r
    obtain ⟨ac, hac⟩ := h4 l r ap
    obtain ⟨R, hR⟩ := ih (l + 1) (by omega) _ (hI.step ha hs hr hap hac)
    exact ⟨R, (buildLoop_step h p t n l L (by omega) R).mpr
      ⟨a, s, r, ap, ac, ha, hs, hr, hap, hac, hR⟩⟩

/-- The loop's initial levels. -/
def initLevels (a : Op (V 0) (V 0)) : Levels V :=
  Levels.set (fun _ => {}) 0 (fun v => { v with operator := some a })

theorem initInv (h : Helpers V) (p : Params) (a : Op (V 0) (V 0)) : Inv h p 0 (initLevels a) where
  cur := ⟨a, by simp [initLevels]⟩
  prev := by simp
  noSolver := by
    intro k
    by_cases hk : k = 0
    · subst hk; simp [initLevels]
    · simp [initLevels, hk]
  noSmoother := by
    intro k _
    by_cases hk : k = 0
    · subst hk; simp [initLevels]
    · simp [initLevels, hk]
  noRestrictor := by simp [initLevels]

/-- Successful construction, unfolded. -/
theorem build_ok (debug timer : Bool) (params : Option Params) (helpers : Outcome (Helpers V))
    (H : Hierarchy V) :
    (buildHierarchy debug timer params helpers).result = .ok H ↔
    ∃ h p a L, helpers = .ok h ∧ params = some p ∧ 0 < p.maxLevels.getD 2 ∧
      h.globalOperator = .ok a ∧
      (buildLoop h p timer (p.maxLevels.getD 2).toNat 0 (initLevels a)).result = .ok L ∧
      H = { numLevels := (p.maxLevels.getD 2).toNat, level := L,
            isPreconditioner := p.isPreconditioner.getD true,
            nSmoothingSteps := toUnsigned (p.nSmoothingSteps.getD 1), timer := timer } := by
  simp only [buildHierarchy, timerEnter_bind_result, Run.bind_result_ok, Run.result_lift]
  constructor
  · rintro ⟨h, rfl, p, hp, _, hassert, hrest⟩
    cases params with
    | none => simp at hp
    | some p' =>
      simp only [Outcome.deref_some, Outcome.ok.injEq] at hp
      subst hp
      split at hrest
      · simp at hrest
      · rename_i hneg
        simp only [Run.bind_result_ok, Run.result_lift] at hrest
        obtain ⟨a, ha, hrest⟩ := hrest
        split at hrest
        · simp at hrest
        · rename_i hz
          simp only [Run.bind_result_ok, timerLeave_result, Run.result_pure] at hrest
          obtain ⟨L, hL, _, _, hH⟩ := hrest
          exact ⟨h, p', a, L, rfl, rfl, by omega, ha, hL, (Outcome.ok.inj hH).symm⟩
  · rintro ⟨h, p, a, L, rfl, rfl, hpos, ha, hL, rfl⟩
    refine ⟨h, rfl, p, rfl, (), ?_, ?_⟩
    · simp [Outcome.assert, hpos]
    · rw [if_neg (by omega)]
      simp only [Run.bind_result_ok, Run.result_lift]
      refine ⟨a, ha, ?_⟩
      rw [if_neg (by omega)]
      simp only [Run.bind_result_ok, timerLeave_result, Run.result_pure]
      exact ⟨L, hL, ⟨⟩, trivial, rfl⟩

end Mfmg
