import Verif.Lemmas.VCycle
import Verif.Lemmas.Trace
import Verif.Examples.Multigrid

/-!
# Properties of `Hierarchy::vmult` (C01–C05, C52, C53)
-/

set_option autoImplicit false

namespace Mfmg

open Spec Example

section Plain

variable {V : ℕ → Type} [∀ l, AddCommGroup (V l)]

/-- **C01.** In preconditioner mode the result of `vmult` (value, exceptions and events) depends
only on `b`: neither the previous content of the output vector nor the contents of freshly
allocated vectors matter, for any number of levels and arbitrary (nonlinear) components. -/
theorem C01_result_ignores_output_vector (H : Hierarchy V) (hp : H.isPreconditioner = true)
    (fresh fresh' : ∀ l, V l) (x x' b : V 0) :
    H.vmult fresh x b = H.vmult fresh' x' b := by
  simp only [Hierarchy.vmult, Hierarchy.apply_indep H fresh fresh' 0 b x x' (Or.inr hp)]

/-- **C01.** In standalone mode only the finest-level guess matters: fresh vectors never do, and
below the finest level the incoming vector never does. -/
theorem C01_standalone_guess_finest_only (H : Hierarchy V) (fresh fresh' : ∀ l, V l) :
    (∀ x b : V 0, H.vmult fresh x b = H.vmult fresh' x b) ∧
    (∀ l, 0 < l → ∀ b x x' : V l, H.apply fresh l b x = H.apply fresh' l b x') :=
  ⟨fun x b => by simp only [Hierarchy.vmult, Hierarchy.apply_fresh_indep H fresh fresh'],
   fun l hl b x x' => Hierarchy.apply_indep H fresh fresh' l b x x' (Or.inl hl)⟩

/-- The initial guess is really used in standalone mode (so the flag matters). -/
example : ((ofData exData 2 1 false false).vmult (fun _ => 0) (1, 2) (0, 0)).result ≠
    ((ofData exData 2 1 false false).vmult (fun _ => 0) (3, 5) (0, 0)).result := by
  have h := fun x => apply_eq_cycle (ofData exData 2 1 false false) exData
    (ofData_isLinear _ _ _ _ _ (by decide)) (fun _ => 0) 1 0 rfl (0, 0) x (by simp)
  simp only [Hierarchy.vmult, timerEnter_bind_result]
  rw [Run.result_bind_ok (h _), Run.result_bind_ok (h _)]
  simp [ofData, cycle, richardson, exData]
  norm_num

/-- A three-level preconditioner meets the hypothesis of C01. -/
example : (ofData exData 3 2 true false).isPreconditioner = true := rfl

theorem fixed_zero (H : Hierarchy V) (hP : Populated H) (hz : FixesZero H) (fresh : ∀ l, V l)
    (d l : ℕ) (hd : l + d + 1 = H.numLevels) (x : V l) (hl : 0 < l) :
    (H.apply fresh l 0 x).result = .ok 0 := by
  induction d generalizing l with
  | zero =>
    obtain ⟨s, hs⟩ := Option.isSome_iff_exists.mp ((hP.solver l (by omega)).mpr (by omega))
    rw [Hierarchy.apply_coarsest H fresh l 0 x (by omega) (by omega) s hs, if_pos (Or.inl hl),
      hz.solver l s hs]
  | succ d ih =>
    obtain ⟨a, ha⟩ := Option.isSome_iff_exists.mp (hP.operator l (by omega))
    obtain ⟨s, hs⟩ := Option.isSome_iff_exists.mp ((hP.smoother l (by omega)).mpr (by omega))
    obtain ⟨r, hr⟩ := Option.isSome_iff_exists.mp
      ((hP.restrictor (l + 1) (by omega)).mpr (by omega))
    have hit : (s 0)^[H.nSmoothingSteps] 0 = 0 :=
      Function.iterate_fixed (hz.smoother l s hs) _
    have hr1 : (r : Op (V l) (V (l + 1))).fwd 0 = 0 := hz.restrict (l + 1) r hr
    have hr2 : (r : Op (V l) (V (l + 1))).trans 0 = 0 := hz.prolong (l + 1) r hr
    have key := Hierarchy.apply_fine H fresh l 0 x (by omega) a ha s hs r hr
    simp only [if_pos (Or.inl hl : l > 0 ∨ H.isPreconditioner), hit, hz.operator l a ha, hr1,
      sub_zero] at key
    rw [key 0 (ih (l + 1) (by omega) _ (by omega)), hr2, sub_zero, hit]

/-- **C03.** In standalone mode with at least two levels a solution of `A x = b` is returned
unchanged.  The components may be nonlinear: the smoother has to leave a solution alone, and every
component has to map zero to zero. -/
theorem C03_solution_is_fixed_point (H : Hierarchy V) (hP : Populated H) (hz : FixesZero H)
    (hs : H.isPreconditioner = false) (hL : 2 ≤ H.numLevels) (fresh : ∀ l, V l) (x b : V 0)
    (hA : ∀ o, (H.level 0).operator = some o → o.fwd x = b)
    (hB : ∀ s, (H.level 0).smoother = some s → s b x = x) :
    (H.vmult fresh x b).result = .ok x := by
  obtain ⟨a, ha⟩ := Option.isSome_iff_exists.mp (hP.operator 0 (by omega))
  obtain ⟨s, hs'⟩ := Option.isSome_iff_exists.mp ((hP.smoother 0 (by omega)).mpr (by omega))
  obtain ⟨r, hr⟩ := Option.isSome_iff_exists.mp ((hP.restrictor (0 + 1) (by omega)).mpr (by omega))
  have hit : (s b)^[H.nSmoothingSteps] x = x := Function.iterate_fixed (hB s hs') _
  have hr1 : (r : Op (V 0) (V (0 + 1))).fwd 0 = 0 := hz.restrict (0 + 1) r hr
  have hr2 : (r : Op (V 0) (V (0 + 1))).trans 0 = 0 := hz.prolong (0 + 1) r hr
  have key := Hierarchy.apply_fine H fresh 0 b x (by omega) a ha s hs' r hr
  have hno : ¬ (0 > 0 ∨ H.isPreconditioner = true) := by simp [hs]
  simp only [if_neg hno, hit, hA a ha, sub_self, hr1] at key
  have := key 0 (fixed_zero H hP hz fresh (H.numLevels - 2) (0 + 1) (by omega) _ (by omega))
  rw [hr2, sub_zero, hit] at this
  simp only [Hierarchy.vmult, timerEnter_bind_result]
  rw [Run.result_bind_ok this]
  simp

/-- **C03.** With a single level, provided the solver returns a solution it was started from. -/
theorem C03_single_level (H : Hierarchy V) (hs : H.isPreconditioner = false)
    (hL : H.numLevels = 1) (fresh : ∀ l, V l) (x b : V 0) (s)
    (hs' : (H.level 0).solver = some s) (hB : s b x = x) :
    (H.vmult fresh x b).result = .ok x := by
  have := Hierarchy.apply_coarsest H fresh 0 b x (by omega) (by omega) s hs'
  simp only [hs, gt_iff_lt, lt_self_iff_false, Bool.false_eq_true, or_self, if_false, hB] at this
  simp only [Hierarchy.vmult, timerEnter_bind_result]
  rw [Run.result_bind_ok this]
  simp

/-- A three-level standalone hierarchy with a nonzero solution meets the hypotheses. -/
example : let H := ofData exData 3 2 false true
    Populated H ∧ FixesZero H ∧ H.isPreconditioner = false ∧ 2 ≤ H.numLevels ∧
    (∀ o, (H.level 0).operator = some o → o.fwd (1, 2) = (0, 3)) ∧
    (∀ s, (H.level 0).smoother = some s → s (0, 3) (1, 2) = (1, 2)) := by
  refine ⟨ofData_populated _ _ _ _ _ (by decide), ofData_fixesZero _ _ _ _ _, rfl, by decide,
    ?_, ?_⟩
  · intro o h; simp only [ofData, Option.some.injEq] at h; subst h; simp [exData]; norm_num
  · intro s h
    simp only [ofData, show (0 + 1 < 3) by decide, if_true, Option.some.injEq] at h
    subst h; simp [exData]; norm_num

/-- A single-level example: the solver keeps an exact guess. -/
example : let H : Hierarchy exV := ⟨1, fun _ => Level.mk none none none
      (some (fun b x => if exData.A 0 x = b then x else b)), false, 1, false⟩
    ∃ s, (H.level 0).solver = some s ∧ s (0, 3) (1, 2) = (1, 2) := by
  refine ⟨_, rfl, ?_⟩
  simp [exData]; norm_num

end Plain

section Linear

variable {K : Type} [Field K] {V : ℕ → Type} [∀ l, AddCommGroup (V l)] [∀ l, Module K (V l)]

theorem vmult_pre (H : Hierarchy V) (D : Data K V) (hH : IsLinear H D)
    (hp : H.isPreconditioner = true) (fresh : ∀ l, V l) (x b : V 0) :
    (H.vmult fresh x b).result =
      .ok (M D H.nSmoothingSteps (H.numLevels - 1) 0 b) := by
  have hpos := hH.pos
  have h := apply_eq_cycle H D hH fresh (H.numLevels - 1) 0 (by omega) b x (fun _ => Or.inr hp)
  rw [if_pos (Or.inr hp), cycle_zero] at h
  simp only [Hierarchy.vmult, timerEnter_bind_result]
  rw [Run.result_bind_ok h]
  simp

theorem vmult_sa (H : Hierarchy V) (D : Data K V) (hH : IsLinear H D)
    (hp : H.isPreconditioner = false) (hL : 2 ≤ H.numLevels) (fresh : ∀ l, V l) (x b : V 0) :
    (H.vmult fresh x b).result =
      .ok (x + M D H.nSmoothingSteps (H.numLevels - 1) 0 (b - D.A 0 x)) := by
  have h := apply_eq_cycle H D hH fresh (H.numLevels - 1) 0 (by omega) b x (by omega)
  obtain ⟨d, hd⟩ : ∃ d, H.numLevels - 1 = d + 1 := ⟨H.numLevels - 2, by omega⟩
  rw [if_neg (by simp [hp]), hd, cycle_affine, ← hd] at h
  simp only [Hierarchy.vmult, timerEnter_bind_result]
  rw [Run.result_bind_ok h]
  simp

/-- **C02.** The preconditioner is a linear map: `vmult` returns normally, with
`vmult (b₁ + c b₂) = vmult b₁ + c vmult b₂`. -/
theorem C02_cycle_linear (H : Hierarchy V) (D : Data K V) (hH : IsLinear H D)
    (hp : H.isPreconditioner = true) (fresh : ∀ l, V l) (c : K) (b₁ b₂ : V 0) :
    ∃ y₁ y₂ : V 0, (∀ x, (H.vmult fresh x b₁).result = .ok y₁) ∧
      (∀ x, (H.vmult fresh x b₂).result = .ok y₂) ∧
      (∀ x, (H.vmult fresh x (b₁ + c • b₂)).result = .ok (y₁ + c • y₂)) := by
  refine ⟨_, _, fun x => vmult_pre H D hH hp fresh x b₁, fun x => vmult_pre H D hH hp fresh x b₂,
    fun x => ?_⟩
  rw [vmult_pre H D hH hp, map_add, map_smul]

/-- **C02/C04.** What is computed is the textbook V-cycle. -/
theorem C04_cycle_is_textbook (H : Hierarchy V) (D : Data K V) (hH : IsLinear H D)
    (fresh : ∀ l, V l) (x b : V 0) (h1 : H.isPreconditioner = true ∨ 2 ≤ H.numLevels) :
    (H.vmult fresh x b).result = .ok (cycle D H.nSmoothingSteps (H.numLevels - 1) 0 b
      (if H.isPreconditioner then 0 else x)) := by
  have hpos := hH.pos
  have h := apply_eq_cycle H D hH fresh (H.numLevels - 1) 0 (by omega) b x
    (fun h => h1.elim Or.inr (fun h => by omega))
  simp only [gt_iff_lt, lt_self_iff_false, false_or] at h
  simp only [Hierarchy.vmult, timerEnter_bind_result]
  rw [Run.result_bind_ok h]
  simp

/-- **C04.** A standalone cycle from `x` is `x + M (b - A x)`, with `M` the map computed by the
same hierarchy in preconditioner mode. -/
theorem C04_standalone_is_richardson (H : Hierarchy V) (D : Data K V) (hH : IsLinear H D)
    (hL : 2 ≤ H.numLevels) (fresh : ∀ l, V l) (x b : V 0) :
    ∃ z, (∀ x', (Hierarchy.vmult { H with isPreconditioner := true } fresh x'
            (b - D.A 0 x)).result = .ok z) ∧
      (Hierarchy.vmult { H with isPreconditioner := false } fresh x b).result = .ok (x + z) :=
  ⟨_, fun x' => vmult_pre { H with isPreconditioner := true } D
      ⟨hH.pos, hH.operator, hH.smoother, hH.restrictor, hH.solver⟩ rfl fresh x' _,
    vmult_sa { H with isPreconditioner := false } D
      ⟨hH.pos, hH.operator, hH.smoother, hH.restrictor, hH.solver⟩ rfl hL fresh x b⟩

theorem iterate_S (D : Data K V) (n : ℕ) (e : V 0) :
    (fun e => e - D.B 0 (D.A 0 e))^[n] e = (S D 0 ^ n) e := by
  induction n with
  | zero => rfl
  | succ n ih =>
    rw [Function.iterate_succ_apply', ih, pow_succ', Module.End.mul_apply]
    simp [S]

/-- **C04.** Error of the two-level method: with smoother iteration `S e = e - B A e` and
correction `e - P C R A e`, the new error is `Sⁿ (I - P C R A) Sⁿ e`. -/
theorem C04_two_level_error (H : Hierarchy V) (D : Data K V) (hH : IsLinear H D)
    (hL : H.numLevels = 2) (hp : H.isPreconditioner = false) (fresh : ∀ l, V l)
    (x xs b : V 0) (hxs : D.A 0 xs = b) :
    let S : V 0 → V 0 := fun e => e - D.B 0 (D.A 0 e)
    let CC : V 0 → V 0 := fun e => e - D.P 0 (D.C 1 (D.R 0 (D.A 0 e)))
    ∃ y, (H.vmult fresh x b).result = .ok y ∧
      xs - y = S^[H.nSmoothingSteps] (CC (S^[H.nSmoothingSteps] (xs - x))) := by
  intro S' CC
  refine ⟨_, vmult_sa H D hH hp (by omega) fresh x b, ?_⟩
  have h := error_succ D H.nSmoothingSteps 0 0 (xs - x)
  have h2 : b - D.A 0 x = D.A 0 (xs - x) := by rw [map_sub, hxs]
  rw [hL, h2]
  simp only [S', CC, iterate_S]
  rw [← sub_sub]
  exact h

/-- **C05.** If operators, smoothers and coarse solver are self-adjoint and prolongation is the
transpose of restriction, the preconditioner is self-adjoint: `⟨M b, c⟩ = ⟨b, M c⟩`. -/
theorem C05_preconditioner_symmetric (H : Hierarchy V) (D : Data K V) (hH : IsLinear H D)
    (hp : H.isPreconditioner = true) (φ : Forms K V) (hs : Symmetric D φ H.numLevels)
    (fresh : ∀ l, V l) (b c : V 0) :
    ∃ mb mc, (∀ x, (H.vmult fresh x b).result = .ok mb) ∧
      (∀ x, (H.vmult fresh x c).result = .ok mc) ∧ φ 0 mb c = φ 0 b mc := by
  have := hH.pos
  exact ⟨_, _, fun x => vmult_pre H D hH hp fresh x b, fun x => vmult_pre H D hH hp fresh x c,
    M_selfAdjoint hs _ _ 0 (by omega) b c⟩

/-- A three-level example meets the hypotheses of C02, C04 and C05. -/
example (pre : Bool) : IsLinear (ofData exData 3 2 pre true) exData ∧
    Symmetric exData exForms (ofData exData 3 2 pre true).numLevels ∧
    2 ≤ (ofData exData 3 2 pre true).numLevels :=
  ⟨ofData_isLinear _ _ _ _ _ (by decide), exSymmetric _, le_of_lt (Nat.lt_succ_self 2)⟩

/-- A two-level example for the error formula, with nonzero error. -/
example : IsLinear (ofData exData 2 1 false true) exData ∧ exData.A 0 (1, 2) = ((0, 3) : ℚ × ℚ) :=
  ⟨ofData_isLinear _ _ _ _ _ (by decide), by simp [exData]; norm_num⟩

variable [LinearOrder K] [IsStrictOrderedRing K]

/-- **C52.** If moreover every smoother is strictly convergent (`2B - BAB` positive definite), at
least one smoothing step is done and the coarse solver is positive definite, the preconditioner is
positive definite: `0 < ⟨M b, b⟩` for `b ≠ 0`. -/
theorem C52_preconditioner_positive_definite (H : Hierarchy V) (D : Data K V) (hH : IsLinear H D)
    (hp : H.isPreconditioner = true) (φ : Forms K V) (hs : Symmetric D φ H.numLevels)
    (hn : 0 < H.nSmoothingSteps)
    (hB : ∀ l, l + 1 < H.numLevels → SmootherStrictlyConvergent D φ l)
    (hC : ∀ l, l + 1 = H.numLevels → ∀ x, x ≠ 0 → 0 < φ l (D.C l x) x)
    (fresh : ∀ l, V l) (b : V 0) (hb : b ≠ 0) :
    ∃ mb, (∀ x, (H.vmult fresh x b).result = .ok mb) ∧ 0 < φ 0 mb b := by
  have := hH.pos
  exact ⟨_, fun x => vmult_pre H D hH hp fresh x b, M_pos hs _ _ 0 (by omega) hn hB hC b hb⟩

/-- **C53.** With Galerkin coarse operators and convergent smoothers, a standalone cycle (two or
more levels) never increases the energy of the error. -/
theorem C53_energy_error_does_not_grow (H : Hierarchy V) (D : Data K V) (hH : IsLinear H D)
    (hp : H.isPreconditioner = false) (hL : 2 ≤ H.numLevels) (φ : Forms K V)
    (hs : Symmetric D φ H.numLevels) (hv : Variational D φ H.numLevels)
    (hB : ∀ l, l + 1 < H.numLevels → SmootherConvergent D φ l)
    (hC : ∀ l, l + 1 = H.numLevels → ∀ x, 0 ≤ φ l (D.C l x) x)
    (fresh : ∀ l, V l) (x xs b : V 0) (hxs : D.A 0 xs = b) :
    ∃ y, (H.vmult fresh x b).result = .ok y ∧
      energy D φ 0 (xs - y) ≤ energy D φ 0 (xs - x) := by
  refine ⟨_, vmult_sa H D hH hp hL fresh x b, ?_⟩
  have hM := M_nonneg hs H.nSmoothingSteps (H.numLevels - 1) 0 (by omega) hB hC
  have h := energy_error_le_aux hs hv H.nSmoothingSteps (H.numLevels - 1) 0 (by omega) (xs - x) hM
  have h2 : b - D.A 0 x = D.A 0 (xs - x) := by rw [map_sub, hxs]
  rw [h2, ← sub_sub]
  exact h.trans (sub_le_self _ (hM _))

/-- **C53.** If the smoothers are strictly convergent and the coarse solver is positive definite,
the energy of the error strictly decreases unless `x` already solves the system: the V-cycle
iteration cannot stall. -/
theorem C53_energy_error_decreases (H : Hierarchy V) (D : Data K V) (hH : IsLinear H D)
    (hp : H.isPreconditioner = false) (hL : 2 ≤ H.numLevels) (φ : Forms K V)
    (hs : Symmetric D φ H.numLevels) (hv : Variational D φ H.numLevels)
    (hn : 0 < H.nSmoothingSteps)
    (hB : ∀ l, l + 1 < H.numLevels → SmootherStrictlyConvergent D φ l)
    (hC : ∀ l, l + 1 = H.numLevels → ∀ x, x ≠ 0 → 0 < φ l (D.C l x) x)
    (fresh : ∀ l, V l) (x xs b : V 0) (hxs : D.A 0 xs = b) (hx : D.A 0 x ≠ b) :
    ∃ y, (H.vmult fresh x b).result = .ok y ∧
      energy D φ 0 (xs - y) < energy D φ 0 (xs - x) := by
  refine ⟨_, vmult_sa H D hH hp hL fresh x b, ?_⟩
  have hM := M_pos hs H.nSmoothingSteps (H.numLevels - 1) 0 (by omega) hn hB hC
  have hM' : ∀ r, 0 ≤ φ 0 (M D H.nSmoothingSteps (H.numLevels - 1) 0 r) r := by
    intro r
    by_cases hr : r = 0
    · simp [hr]
    · exact (hM r hr).le
  have h := energy_error_le_aux hs hv H.nSmoothingSteps (H.numLevels - 1) 0 (by omega) (xs - x) hM'
  have h2 : b - D.A 0 x = D.A 0 (xs - x) := by rw [map_sub, hxs]
  have h3 : D.A 0 (xs - x) ≠ 0 := by
    rw [← h2]; exact fun h => hx (sub_eq_zero.mp h).symm
  rw [h2, ← sub_sub]
  exact h.trans_lt (sub_lt_self _ (hM _ h3))

/-- The three-level example meets all hypotheses of C52 and C53. -/
example : Symmetric exData exForms 3 ∧ Variational exData exForms 3 ∧
    (∀ l, SmootherStrictlyConvergent exData exForms l) ∧
    (∀ l, l + 1 = 3 → ∀ x, x ≠ 0 → 0 < exForms l (exData.C l x) x) ∧
    exData.A 0 (1, 2) = ((0, 3) : ℚ × ℚ) ∧ exData.A 0 (0, 0) ≠ ((0, 3) : ℚ × ℚ) := by
  refine ⟨exSymmetric 3, exVariational, exStrict, ?_, by simp [exData]; norm_num,
    by simp [exData]⟩
  intro l _ x hx
  have h : x.1 ≠ 0 ∨ x.2 ≠ 0 := by
    by_contra h
    push Not at h
    exact hx (Prod.ext h.1 h.2)
  have h2 : 0 < x.1 ^ 2 + x.2 ^ 2 := by
    rcases h with h | h <;> positivity
  simp [exData, exForms]
  nlinarith

end Linear

end Mfmg
