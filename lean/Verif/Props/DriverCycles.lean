import Verif.Model.DriverCycles
import Verif.Spec.DriverCycles
import Verif.Props.MultiLevel
import Verif.Lemmas.Numbering
import Mathlib.LinearAlgebra.Matrix.Notation

/-!
# The rate of convergence printed by the program hierarchy_driver (C107)
-/

set_option autoImplicit false

namespace Mfmg

open Matrix Spec

section

variable {dims : ℕ → ℕ}

theorem residualNorm_eq (A : Matrix (Fin (dims 0)) (Fin (dims 0)) ℝ) (b x : Fin (dims 0) → ℝ) :
    residualNorm A b x = norm2 (b - A.mulVec x) := by
  have : (-1 : ℝ) • A.mulVec x + (1 : ℝ) • b = b - A.mulVec x := by
    rw [neg_smul, one_smul, one_smul, neg_add_eq_sub]
  simp only [residualNorm, norm2, this, dotProduct, sq]

theorem norm2_sq {n : ℕ} (v : Fin n → ℝ) : norm2 v ^ 2 = v ⬝ᵥ v := by
  rw [norm2, Real.sq_sqrt (Finset.sum_nonneg fun i _ => sq_nonneg _)]
  simp only [dotProduct, sq]

theorem norm2_self_nonneg {n : ℕ} (v : Fin n → ℝ) : 0 ≤ v ⬝ᵥ v := by
  rw [← norm2_sq]
  exact sq_nonneg _

theorem norm2_nonneg {n : ℕ} (v : Fin n → ℝ) : 0 ≤ norm2 v := Real.sqrt_nonneg _

theorem norm2_eq_zero {n : ℕ} (v : Fin n → ℝ) : norm2 v = 0 ↔ v = 0 := by
  constructor
  · intro h
    have h1 := norm2_sq v
    rw [h, zero_pow two_ne_zero] at h1
    exact dotProduct_self_eq_zero.1 h1.symm
  · rintro rfl
    simp [norm2]

/-- The loop in terms of the iterates. -/
theorem cyclesLoop_eq (A : Matrix (Fin (dims 0)) (Fin (dims 0)) ℝ) (H : Hierarchy fun l => Fin (dims l) → ℝ)
    (fresh : ℕ → ∀ l, Fin (dims l) → ℝ) (b : Fin (dims 0) → ℝ) (r0 : ℝ) (n : ℕ) (y : ℕ → Fin (dims 0) → ℝ)
    (hy : AreIterates H fresh b n y) : ∀ left i, i + left = n → cyclesLoop A H fresh b r0 left i (y i) =
      .ok ((List.range' i left).map fun m => (Double.number (norm2 (b - A.mulVec (y (m + 1))))).div (.number r0)) := by
  intro left
  induction left with
  | zero => intro i _; rfl
  | succ left ih =>
    intro i hi
    rw [cyclesLoop, hy i (by omega)]
    simp only [Outcome.ok_bind, ih (i + 1) (by omega), residualNorm_eq, Outcome.pure_eq, List.range'_succ, List.map_cons]

/-- What is printed, in terms of the iterates. -/
theorem driverCycles_eq (A : Matrix (Fin (dims 0)) (Fin (dims 0)) ℝ) (H : Hierarchy fun l => Fin (dims l) → ℝ)
    (fresh : ℕ → ∀ l, Fin (dims l) → ℝ) (b : Fin (dims 0) → ℝ) (y : ℕ → Fin (dims 0) → ℝ)
    (hy : AreIterates H fresh b 20 y) : driverCycles A H fresh b (y 0) =
      .ok (((Double.number (norm2 (b - A.mulVec (y 20)))).div (.number (norm2 (b - A.mulVec (y 0))))).div
        ((Double.number (norm2 (b - A.mulVec (y 19)))).div (.number (norm2 (b - A.mulVec (y 0)))))) := by
  rw [driverCycles, nCycles, cyclesLoop_eq A H fresh b _ 20 y hy 20 0 rfl, residualNorm_eq]
  rfl

/-- The quotient of the last two entries. -/
theorem div_div_same {x y z : ℝ} (hz : z ≠ 0) (hy : y ≠ 0) :
    ((Double.number x).div (.number z)).div ((Double.number y).div (.number z)) = .number (x / y) := by
  have : y / z ≠ 0 := div_ne_zero hy hz
  simp only [Double.div, hz, this, if_false]
  rw [div_div_div_cancel_right₀ hz]

theorem div_div_zero (z : ℝ) :
    ((Double.number 0).div (.number z)).div ((Double.number 0).div (.number z)) = .nan := by
  by_cases hz : z = 0 <;> simp [Double.div, hz]

/-- Cycles that return normally have iterates. -/
theorem exists_iterates (H : Hierarchy fun l => Fin (dims l) → ℝ) (fresh : ℕ → ∀ l, Fin (dims l) → ℝ)
    (b x : Fin (dims 0) → ℝ) (hok : ∀ f z, ∃ y, (H.vmult f z b).result = .ok y) :
    ∃ y : ℕ → Fin (dims 0) → ℝ, y 0 = x ∧ ∀ n, AreIterates H fresh b n y := by
  choose next hnext using hok
  refine ⟨fun m => Nat.rec x (fun m z => next (fresh m) z) m, rfl, fun n m _ => hnext _ _⟩

/-- What is printed when solutions stay solutions. -/
theorem driverCycles_cases (A : Matrix (Fin (dims 0)) (Fin (dims 0)) ℝ) (H : Hierarchy fun l => Fin (dims l) → ℝ)
    (fresh : ℕ → ∀ l, Fin (dims l) → ℝ) (b : Fin (dims 0) → ℝ) (y : ℕ → Fin (dims 0) → ℝ)
    (hy : AreIterates H fresh b 20 y) (hstay : ∀ m < 20, A.mulVec (y m) = b → A.mulVec (y (m + 1)) = b) :
    (A.mulVec (y 19) ≠ b → driverCycles A H fresh b (y 0) =
        .ok (.number (norm2 (b - A.mulVec (y 20)) / norm2 (b - A.mulVec (y 19))))) ∧
      (A.mulVec (y 19) = b → driverCycles A H fresh b (y 0) = .ok .nan) := by
  have hz : ∀ z : Fin (dims 0) → ℝ, norm2 (b - A.mulVec z) = 0 ↔ A.mulVec z = b := by
    intro z
    rw [norm2_eq_zero, sub_eq_zero, eq_comm]
  constructor
  · intro h
    have hall : ∀ m ≤ 19, A.mulVec (y 0) = b → A.mulVec (y m) = b := by
      intro m
      induction m with
      | zero => exact fun _ h => h
      | succ m ih => exact fun hm h => hstay m (by omega) (ih (by omega) h)
    rw [driverCycles_eq A H fresh b y hy,
      div_div_same (fun h0 => h (hall 19 le_rfl ((hz _).1 h0))) (fun h0 => h ((hz _).1 h0))]
  · intro h
    rw [driverCycles_eq A H fresh b y hy, (hz _).2 h, (hz _).2 (hstay 19 (by norm_num) h), div_div_zero]

/-- **C107 (what is printed).** In standalone mode, for a hierarchy of at least two levels made of linear maps: if the
19th approximation does not solve the system yet, the program prints the factor by which the 20th cycle changes the norm
of the residual.  Missing for the full claim: the cases of `C107_solved_violated`, and that the factor is below 1. -/
theorem C107_number_partial (A : Matrix (Fin (dims 0)) (Fin (dims 0)) ℝ) (H : Hierarchy fun l => Fin (dims l) → ℝ)
    (D : Data ℝ fun l => Fin (dims l) → ℝ) (hlin : IsLinear H D) (hDA : ∀ x, D.A 0 x = A.mulVec x)
    (hpre : H.isPreconditioner = false) (hL : 2 ≤ H.numLevels) (fresh : ℕ → ∀ l, Fin (dims l) → ℝ)
    (b x : Fin (dims 0) → ℝ) :
    ∃ y, y 0 = x ∧ AreIterates H fresh b 20 y ∧
      (A.mulVec (y 19) ≠ b → driverCycles A H fresh b x =
        .ok (.number (norm2 (b - A.mulVec (y 20)) / norm2 (b - A.mulVec (y 19))))) := by
  have hv := fun f z => vmult_sa H D hlin hpre hL f z b
  obtain ⟨y, rfl, hy⟩ := exists_iterates H fresh b x fun f z => ⟨_, hv f z⟩
  refine ⟨y, rfl, hy 20, (driverCycles_cases A H fresh b y (hy 20) fun m hm h => ?_).1⟩
  have h1 := Outcome.ok.inj ((hy 20 m hm).symm.trans (hv _ _))
  rw [h1, hDA, h, sub_self, map_zero, add_zero, h]

/-- **C107 is violated by the code: systems that are solved.** For every such hierarchy: if the 19th approximation (or an
earlier one, or the start vector) solves the system, the program prints NaN. -/
theorem C107_solved_violated (A : Matrix (Fin (dims 0)) (Fin (dims 0)) ℝ) (H : Hierarchy fun l => Fin (dims l) → ℝ)
    (D : Data ℝ fun l => Fin (dims l) → ℝ) (hlin : IsLinear H D) (hDA : ∀ x, D.A 0 x = A.mulVec x)
    (hpre : H.isPreconditioner = false) (hL : 2 ≤ H.numLevels) (fresh : ℕ → ∀ l, Fin (dims l) → ℝ)
    (b : Fin (dims 0) → ℝ) (y : ℕ → Fin (dims 0) → ℝ) (hy : AreIterates H fresh b 20 y) (m : ℕ) (hm : m ≤ 19)
    (hsolved : A.mulVec (y m) = b) : driverCycles A H fresh b (y 0) = .ok .nan := by
  have hstay : ∀ m < 20, A.mulVec (y m) = b → A.mulVec (y (m + 1)) = b := by
    intro m hm h
    have h1 := Outcome.ok.inj ((hy m hm).symm.trans (vmult_sa H D hlin hpre hL _ _ b))
    rw [h1, hDA, h, sub_self, map_zero, add_zero, h]
  refine (driverCycles_cases A H fresh b y hy hstay).2 ?_
  obtain ⟨k, hk⟩ : ∃ k, 19 = m + k := ⟨19 - m, by omega⟩
  have : ∀ j ≤ k, A.mulVec (y (m + j)) = b := by
    intro j
    induction j with
    | zero => exact fun _ => hsolved
    | succ j ih => exact fun hj => hstay (m + j) (by omega) (ih (by omega))
  rw [hk]
  exact this k le_rfl

/-- **C107 is violated by the code: one level.** For a hierarchy of one level with an exact coarse solver the program
prints NaN, whatever the system and the start vector are. -/
theorem C107_one_level_violated (A : Matrix (Fin (dims 0)) (Fin (dims 0)) ℝ) (H : Hierarchy fun l => Fin (dims l) → ℝ)
    (hL : H.numLevels = 1) (s) (hs : (H.level 0).solver = some s) (hexact : ∀ b x, A.mulVec (s b x) = b)
    (fresh : ℕ → ∀ l, Fin (dims l) → ℝ) (b x : Fin (dims 0) → ℝ) :
    driverCycles A H fresh b x = .ok .nan := by
  have hv : ∀ f z, (H.vmult f z b).result = .ok (s b (if H.isPreconditioner then 0 else z)) := by
    intro f z
    have := Hierarchy.apply_coarsest H f 0 b z (by omega) (by omega) s hs
    simp only [gt_iff_lt, lt_self_iff_false, false_or] at this
    simp only [Hierarchy.vmult, timerEnter_bind_result]
    rw [Run.result_bind_ok this]
    simp
  obtain ⟨y, rfl, hy⟩ := exists_iterates H fresh b x fun f z => ⟨_, hv f z⟩
  have hsol : ∀ m < 20, A.mulVec (y (m + 1)) = b := by
    intro m hm
    rw [Outcome.ok.inj ((hy 20 m hm).symm.trans (hv _ _)), hexact]
  exact (driverCycles_cases A H fresh b y (hy 20) fun m hm _ => hsol m hm).2 (hsol 18 (by norm_num))

/-- Euclidean norm of the residual and energy of the error. -/
theorem energy_residual {n : ℕ} {A : Matrix (Fin n) (Fin n) ℝ} (hA : A.transpose = A) {lo hi : ℝ} (hlo : 0 < lo)
    (hsp : SpectrumBetween A lo hi) (e : Fin n → ℝ) :
    lo * energyOf A e ≤ A.mulVec e ⬝ᵥ A.mulVec e ∧ A.mulVec e ⬝ᵥ A.mulVec e ≤ hi * energyOf A e := by
  have hsym : ∀ u v : Fin n → ℝ, A.mulVec u ⬝ᵥ v = u ⬝ᵥ A.mulVec v := by
    intro u v
    rw [dotProduct_comm, dotProduct_mulVec, ← mulVec_transpose, hA, dotProduct_comm]
  obtain ⟨r, hr⟩ : ∃ r, r = A.mulVec e := ⟨_, rfl⟩
  have hE : energyOf A e = e ⬝ᵥ r := by rw [energyOf, hr]
  rw [← hr, hE]
  have hee := (hsp e).1
  rw [← hr] at hee
  have hE0 : 0 ≤ e ⬝ᵥ r := le_trans (mul_nonneg hlo.le (norm2_self_nonneg e)) hee
  constructor
  · -- `‖r - lo e‖² ≥ 0`
    have h0 := norm2_self_nonneg (r - lo • e)
    have h1 : (r - lo • e) ⬝ᵥ (r - lo • e) = r ⬝ᵥ r - 2 * lo * (e ⬝ᵥ r) + lo * (lo * (e ⬝ᵥ e)) := by
      simp only [sub_dotProduct, dotProduct_sub, smul_dotProduct, dotProduct_smul, smul_eq_mul, dotProduct_comm r e]
      ring
    have h2 := mul_le_mul_of_nonneg_left hee hlo.le
    linarith
  · -- the energy of `r - hi e` and of `e`
    have hrr := (hsp r).2
    have hse : ∀ t : ℝ, 0 ≤ energyOf A (e + t • r) := fun t =>
      le_trans (mul_nonneg hlo.le (norm2_self_nonneg _)) (hsp _).1
    have hq : ∀ t : ℝ, energyOf A (e + t • r) = e ⬝ᵥ r + 2 * t * (r ⬝ᵥ r) + t * t * (r ⬝ᵥ A.mulVec r) := by
      intro t
      simp only [energyOf, mulVec_add, mulVec_smul, add_dotProduct, dotProduct_add, smul_dotProduct, dotProduct_smul,
        smul_eq_mul]
      rw [← hr, ← hsym e r, ← hr]
      ring
    by_cases h0 : r ⬝ᵥ r = 0
    · have hr0 : r = 0 := dotProduct_self_eq_zero.1 h0
      simp [hr0]
    have hrpos : 0 < r ⬝ᵥ r := lt_of_le_of_ne (norm2_self_nonneg r) (Ne.symm h0)
    have hhi : 0 < hi := by
      have := (hsp r).1
      by_contra hneg
      nlinarith [mul_pos hlo hrpos]
    have h1 := hse (-(1 / hi))
    rw [hq] at h1
    have h2 : (1 / hi) * (1 / hi) * (r ⬝ᵥ A.mulVec r) ≤ (1 / hi) * (1 / hi) * (hi * (r ⬝ᵥ r)) :=
      mul_le_mul_of_nonneg_left hrr (by positivity)
    have h3 : (1 / hi) * (1 / hi) * (hi * (r ⬝ᵥ r)) = (1 / hi) * (r ⬝ᵥ r) := by field_simp
    have h4 : (1 / hi) * (r ⬝ᵥ r) ≤ e ⬝ᵥ r := by nlinarith
    have h5 := mul_le_mul_of_nonneg_left h4 hhi.le
    have h6 : hi * ((1 / hi) * (r ⬝ᵥ r)) = r ⬝ᵥ r := by field_simp
    linarith

/-- **C107 (how large the number can be).** The matrix is symmetric with eigenvalues between `lo` and `hi`, and every cycle
multiplies the energy of the error at most by `q` (as for example C77 and C84 say).  The program prints NaN if the 19th
approximation solves the system, and else a number of at most `√(q hi / lo)`.  Missing for the full claim: the NaN, and
that the number is below 1 if `q` is (`C107_above_one_violated`). -/
theorem C107_bound_partial (A : Matrix (Fin (dims 0)) (Fin (dims 0)) ℝ) (hA : A.transpose = A) (lo hi : ℝ) (hlo : 0 < lo)
    (hsp : SpectrumBetween A lo hi) (H : Hierarchy fun l => Fin (dims l) → ℝ) (q : ℝ) (hq : 0 ≤ q)
    (hrate : ∀ b xs : Fin (dims 0) → ℝ, A.mulVec xs = b → ∀ f x, ∃ y, (H.vmult f x b).result = .ok y ∧
      energyOf A (xs - y) ≤ q * energyOf A (xs - x))
    (fresh : ℕ → ∀ l, Fin (dims l) → ℝ) (b xs x : Fin (dims 0) → ℝ) (hxs : A.mulVec xs = b) :
    ∃ y, y 0 = x ∧ AreIterates H fresh b 20 y ∧
      (A.mulVec (y 19) = b → driverCycles A H fresh b x = .ok .nan) ∧
      (A.mulVec (y 19) ≠ b → ∃ rate, driverCycles A H fresh b x = .ok (.number rate) ∧
        rate = norm2 (b - A.mulVec (y 20)) / norm2 (b - A.mulVec (y 19)) ∧ rate ≤ √(q * hi / lo)) := by
  obtain ⟨y, rfl, hy⟩ := exists_iterates H fresh b x fun f z => (hrate b xs hxs f z).imp fun _ h => h.1
  have hred : ∀ m, energyOf A (xs - y (m + 1)) ≤ q * energyOf A (xs - y m) := by
    intro m
    obtain ⟨z, hz, hle⟩ := hrate b xs hxs (fresh m) (y m)
    rw [Outcome.ok.inj ((hy (m + 1) m (Nat.lt_succ_self m)).symm.trans hz)]
    exact hle
  have hres : ∀ z, b - A.mulVec z = A.mulVec (xs - z) := fun z => by rw [mulVec_sub, hxs]
  have hsol : ∀ z, A.mulVec z = b ↔ energyOf A (xs - z) ≤ 0 := by
    intro z
    have h1 := energy_residual hA hlo hsp (xs - z)
    rw [← hres] at h1
    constructor
    · intro h
      rw [h, sub_self, zero_dotProduct] at h1
      by_contra hn
      nlinarith [h1.1]
    · intro h
      have h2 := (hsp (xs - z)).1
      change _ ≤ energyOf A (xs - z) at h2
      have h3 : (xs - z) ⬝ᵥ (xs - z) = 0 := by
        refine le_antisymm ?_ (norm2_self_nonneg _)
        by_contra hn
        push Not at hn
        nlinarith [mul_pos hlo hn]
      rw [← sub_eq_zero.1 (dotProduct_self_eq_zero.1 h3), hxs]
  obtain ⟨c1, c2⟩ := driverCycles_cases A H fresh b y (hy 20) fun m _ h => by
    rw [hsol] at h ⊢
    refine (hred m).trans ?_
    exact mul_nonpos_of_nonneg_of_nonpos hq h
  refine ⟨y, rfl, hy 20, c2, fun h => ⟨_, c1 h, rfl, ?_⟩⟩
  have hpos : 0 < norm2 (b - A.mulVec (y 19)) :=
    lt_of_le_of_ne (norm2_nonneg _) fun h0 => h (by
      rw [eq_comm, norm2_eq_zero, sub_eq_zero] at h0
      exact h0.symm)
  refine Real.le_sqrt_of_sq_le ?_
  rw [div_pow, norm2_sq, norm2_sq, div_le_div_iff₀ (by rw [← norm2_sq]; positivity) hlo, hres, hres]
  have h1 := (energy_residual hA hlo hsp (xs - y 20)).2
  have h2 := (energy_residual hA hlo hsp (xs - y 19)).1
  have h3 := hred 19
  have hE : ¬ energyOf A (xs - y 19) ≤ 0 := fun hc => h ((hsol _).2 hc)
  have hhi : 0 ≤ hi := by
    have h4 := (energy_residual hA hlo hsp (xs - y 19))
    have h5 := norm2_self_nonneg (A.mulVec (xs - y 19))
    by_contra hn
    nlinarith [h4.1, h4.2, mul_pos hlo (not_le.1 hE)]
  calc A.mulVec (xs - y 20) ⬝ᵥ A.mulVec (xs - y 20) * lo ≤ hi * energyOf A (xs - y 20) * lo :=
        mul_le_mul_of_nonneg_right h1 hlo.le
    _ ≤ hi * (q * energyOf A (xs - y 19)) * lo :=
        mul_le_mul_of_nonneg_right (mul_le_mul_of_nonneg_left h3 hhi) hlo.le
    _ = q * hi * (lo * energyOf A (xs - y 19)) := by ring
    _ ≤ q * hi * (A.mulVec (xs - y 19) ⬝ᵥ A.mulVec (xs - y 19)) :=
        mul_le_mul_of_nonneg_left h2 (mul_nonneg hq hhi)

end

/-! ## A hierarchy with fast convergence for which the program prints a number above 1 -/

/-- Three coupled unknowns with different scales and one that is not coupled to the others. -/
noncomputable def exScaled : Matrix (Fin 4) (Fin 4) ℝ :=
  !![1, -1 / 3, -10 / 3, 0; -1 / 3, 1, -10 / 3, 0; -10 / 3, -10 / 3, 100, 0; 0, 0, 0, 1]

/-- The restriction to the last unknown. -/
def exLast : ∀ l, Matrix (Fin (twoDims 4 (l + 1))) (Fin (twoDims 4 l)) ℝ
  | 0 => !![0, 0, 0, 1]
  | _ + 1 => Matrix.of fun _ _ => 1

theorem exScaled_mulVec (x : Fin 4 → ℝ) : exScaled.mulVec x =
    ![x 0 - x 1 / 3 - 10 / 3 * x 2, -x 0 / 3 + x 1 - 10 / 3 * x 2, -10 / 3 * x 0 - 10 / 3 * x 1 + 100 * x 2, x 3] := by
  funext i
  fin_cases i <;> simp [exScaled, Matrix.mulVec, dotProduct, Fin.sum_univ_four] <;> ring

theorem exScaled_energy (x : Fin 4 → ℝ) : energyOf exScaled x = (x 0 + x 1 + 10 * x 2) ^ 2 / 9 +
    4 / 3 * ((x 0 - (x 0 + x 1 + 10 * x 2) / 3) ^ 2 + (x 1 - (x 0 + x 1 + 10 * x 2) / 3) ^ 2 +
      (10 * x 2 - (x 0 + x 1 + 10 * x 2) / 3) ^ 2) + x 3 ^ 2 := by
  rw [energyOf, exScaled_mulVec]
  simp [dotProduct, Fin.sum_univ_four]
  ring

theorem exScaled_spd : IsSpd exScaled := by
  refine ⟨?_, fun v hv => ?_⟩
  · ext i j
    fin_cases i <;> fin_cases j <;> simp [exScaled]
  · change 0 < energyOf exScaled v
    by_contra hn
    apply hv
    rw [exScaled_energy] at hn
    push Not at hn
    have h3 : v 3 = 0 := by
      by_contra h
      have : 0 < v 3 ^ 2 := by positivity
      nlinarith [sq_nonneg (v 0 + v 1 + 10 * v 2), sq_nonneg (v 0 - (v 0 + v 1 + 10 * v 2) / 3),
        sq_nonneg (v 1 - (v 0 + v 1 + 10 * v 2) / 3), sq_nonneg (10 * v 2 - (v 0 + v 1 + 10 * v 2) / 3)]
    have hs : v 0 + v 1 + 10 * v 2 = 0 := by
      by_contra h
      have : 0 < (v 0 + v 1 + 10 * v 2) ^ 2 := by positivity
      nlinarith [sq_nonneg (v 3), sq_nonneg (v 0 - (v 0 + v 1 + 10 * v 2) / 3),
        sq_nonneg (v 1 - (v 0 + v 1 + 10 * v 2) / 3), sq_nonneg (10 * v 2 - (v 0 + v 1 + 10 * v 2) / 3)]
    rw [hs, h3] at hn
    have h0 : v 0 = 0 := by
      by_contra h
      have : 0 < v 0 ^ 2 := by positivity
      nlinarith [sq_nonneg (v 1), sq_nonneg (10 * v 2)]
    have h1 : v 1 = 0 := by
      by_contra h
      have : 0 < v 1 ^ 2 := by positivity
      nlinarith [sq_nonneg (v 0), sq_nonneg (10 * v 2)]
    funext i
    fin_cases i
    · exact h0
    · exact h1
    · change v 2 = 0
      linarith
    · exact h3

theorem exLast_independent (l : ℕ) : IndependentRows (exLast l) := by
  intro y hy
  cases l with
  | zero =>
    have := congrFun hy (3 : Fin 4)
    funext i
    obtain rfl : i = (0 : Fin 1) := Fin.fin_one_eq_zero i
    have h : (exLast 0).transpose.mulVec y (3 : Fin 4) = y (0 : Fin 1) := by
      change ∑ j : Fin 1, exLast 0 j (3 : Fin 4) * y j = _
      rw [Fin.sum_univ_one]
      simp [exLast]
    rw [h] at this
    exact this
  | succ l =>
    have := congrFun hy (0 : Fin 1)
    funext i
    obtain rfl : i = (0 : Fin 1) := Fin.fin_one_eq_zero i
    have h : (exLast (l + 1)).transpose.mulVec y (0 : Fin 1) = y (0 : Fin 1) := by
      change ∑ j : Fin 1, exLast (l + 1) j (0 : Fin 1) * y j = _
      rw [Fin.sum_univ_one]
      exact one_mul _
    rw [h] at this
    exact this

/-- All unknowns of a level on one process. -/
def exAllOwn (l : ℕ) : List (Fin (twoDims 4 l)) := List.finRange _

/-- The error after a cycle. -/
noncomputable def exNext (e : Fin 4 → ℝ) : Fin 4 → ℝ :=
  ![(2 * e 0 + e 1 + 10 * e 2) / 9, (e 0 + 2 * e 1 + 10 * e 2) / 9, (e 0 + e 1 + 20 * e 2) / 90, 0]

theorem exScaled_sweep (e : Fin 4 → ℝ) :
    e - relaxLin .jacobi exScaled [exAllOwn 0] (exScaled.mulVec e) =
      ![(e 1 + 10 * e 2) / 3, (e 0 + 10 * e 2) / 3, (e 0 + e 1) / 30, 0] := by
  have h : ∀ r : Fin 4 → ℝ, relaxLin .jacobi exScaled [exAllOwn 0] r = fun i => r i / exScaled i i := by
    intro r
    change relaxVmult .jacobi exScaled [exAllOwn 0] r = _
    exact relaxVmult_jacobi_all (by simpa [exAllOwn] using ⟨List.nodup_finRange _, fun i => List.mem_finRange i⟩) _ r
  rw [h, exScaled_mulVec]
  funext i
  fin_cases i <;> simp [exScaled] <;> ring

/-- The hierarchy with Jacobi smoothing. -/
theorem exScaled_build (debug timer : Bool)
    (solve : ∀ l, Matrix (Fin (twoDims 4 l)) (Fin (twoDims 4 l)) ℝ → (Fin (twoDims 4 l) → ℝ) → Fin (twoDims 4 l) → ℝ)
    (hsolve : ∀ l, SolvesExactly (solve l)) :
    ∃ H, (buildHierarchy debug timer (some { isPreconditioner := some false })
        (.ok (matrixHelpers debug (some (chars! "Jacobi")) (twoDims 4) (fun l => [exAllOwn l]) exScaled exLast
          solve))).result = .ok H ∧
      ∀ (b xs : Fin (twoDims 4 0) → ℝ), exScaled.mulVec xs = b → ∀ f x, ∃ y, (H.vmult f x b).result = .ok y ∧
        xs - y = exNext (xs - x) := by
  obtain ⟨H, hH, hlin, hL, hp, hn⟩ := matrixHelpers_build debug timer { isPreconditioner := some false }
    (some (chars! "Jacobi")) .jacobi .jacobi (by cases debug <;> rfl) rfl (twoDims 4) (fun l => [exAllOwn l])
    exScaled exScaled_spd exLast exLast_independent solve hsolve (by decide) rfl
  refine ⟨H, hH, fun b xs hxs f x => ?_⟩
  have hL2 : H.numLevels = 2 := hL
  have hn1 : H.nSmoothingSteps = 1 := hn
  obtain ⟨y, hy, he⟩ := C04_two_level_error H _ hlin hL2 hp f x xs b hxs
  refine ⟨y, hy, ?_⟩
  rw [hn1] at he
  simp only [Function.iterate_one] at he
  have hS : ∀ e : Fin (twoDims 4 0) → ℝ, e - (matrixData .jacobi (twoDims 4) (fun l => [exAllOwn l]) exScaled exLast).B 0
      ((matrixData .jacobi (twoDims 4) (fun l => [exAllOwn l]) exScaled exLast).A 0 e) =
      (fun e : Fin 4 → ℝ => ![(e 1 + 10 * e 2) / 3, (e 0 + 10 * e 2) / 3, (e 0 + e 1) / 30, 0]) e := exScaled_sweep
  have hC : ∀ e : Fin 4 → ℝ, e 3 = 0 → (matrixData .jacobi (twoDims 4) (fun l => [exAllOwn l]) exScaled exLast).R 0
      ((matrixData .jacobi (twoDims 4) (fun l => [exAllOwn l]) exScaled exLast).A 0 e) = 0 := by
    intro e h3
    change (exLast 0).mulVec (exScaled.mulVec e) = 0
    rw [exScaled_mulVec]
    funext i
    obtain rfl : i = (0 : Fin 1) := Fin.fin_one_eq_zero i
    change ∑ j : Fin 4, exLast 0 (0 : Fin 1) j * _ = 0
    rw [Fin.sum_univ_four]
    simp [exLast, h3]
  rw [he]
  obtain ⟨e, hee⟩ : ∃ e : Fin 4 → ℝ, e = xs - x := ⟨_, rfl⟩
  rw [← hee]
  erw [hS e, hC _ rfl]
  rw [map_zero, map_zero]
  erw [sub_zero, hS]
  funext i
  fin_cases i <;> simp [exNext] <;> ring

/-- The start vector of the example is `exApprox 0`; the cycles make `exApprox 1`, … -/
noncomputable def exApprox (m : ℕ) : Fin 4 → ℝ :=
  let α := 40 * (9 / 4) ^ 19 * (4 / 9 : ℝ) ^ m
  let β := 5 * 9 ^ 19 * (1 / 9 : ℝ) ^ m
  ![α + β, α + β, (α - 2 * β) / 10, 0]

theorem exApprox_next (m : ℕ) : exNext (exApprox m) = exApprox (m + 1) := by
  funext i
  fin_cases i <;> simp [exNext, exApprox, pow_succ] <;> ring

theorem exNext_energy (e : Fin 4 → ℝ) : energyOf exScaled (exNext e) ≤ 16 / 81 * energyOf exScaled e := by
  rw [exScaled_energy, exScaled_energy]
  simp only [exNext, Matrix.cons_val]
  nlinarith [sq_nonneg (e 0 - (e 0 + e 1 + 10 * e 2) / 3), sq_nonneg (e 1 - (e 0 + e 1 + 10 * e 2) / 3),
    sq_nonneg (10 * e 2 - (e 0 + e 1 + 10 * e 2) / 3), sq_nonneg (e 3)]

/-- **C107 is violated by the code: numbers above 1.** A hierarchy of two levels, built by the library for a symmetric
positive definite matrix with Jacobi smoothing.  Every cycle multiplies the energy of every error at most by `16 / 81`,
but for a start vector the program prints a number above `3 / 2`. -/
theorem C107_above_one_violated (debug timer : Bool)
    (solve : ∀ l, Matrix (Fin (twoDims 4 l)) (Fin (twoDims 4 l)) ℝ → (Fin (twoDims 4 l) → ℝ) → Fin (twoDims 4 l) → ℝ)
    (hsolve : ∀ l, SolvesExactly (solve l)) :
    IsSpd exScaled ∧
    ∃ H, (buildHierarchy debug timer (some { isPreconditioner := some false })
        (.ok (matrixHelpers debug (some (chars! "Jacobi")) (twoDims 4) (fun l => [exAllOwn l]) exScaled exLast
          solve))).result = .ok H ∧
      (∀ (b xs : Fin (twoDims 4 0) → ℝ), exScaled.mulVec xs = b → ∀ f x, ∃ y, (H.vmult f x b).result = .ok y ∧
        energyOf exScaled (xs - y) ≤ 16 / 81 * energyOf exScaled (xs - x)) ∧
      ∃ x, ∀ fresh, ∃ rate, driverCycles (dims := twoDims 4) exScaled H fresh 0 x = .ok (.number rate) ∧ 3 / 2 < rate := by
  refine ⟨exScaled_spd, ?_⟩
  obtain ⟨H, hH, hv⟩ := exScaled_build debug timer solve hsolve
  refine ⟨H, hH, fun b xs hxs f x => ?_, exApprox 0, fun fresh => ?_⟩
  · obtain ⟨y, hy, he⟩ := hv b xs hxs f x
    refine ⟨y, hy, ?_⟩
    rw [he]
    exact exNext_energy _
  have hit : AreIterates (dims := twoDims 4) H fresh 0 20 exApprox := by
    intro m _
    obtain ⟨y, hy, he⟩ := hv 0 0 (mulVec_zero _) (fresh m) (exApprox m)
    rw [hy]
    congr 1
    have h1 : exNext (-exApprox m) = -exNext (exApprox m) := by
      funext i
      fin_cases i <;> simp [exNext] <;> ring
    obtain ⟨z, hz⟩ : ∃ z : Fin 4 → ℝ, z = y := ⟨_, rfl⟩
    rw [← hz]
    rw [← hz] at he
    have h2 : (0 : Fin 4 → ℝ) - z = exNext ((0 : Fin 4 → ℝ) - exApprox m) := he
    rw [zero_sub, zero_sub, h1, exApprox_next] at h2
    exact neg_inj.1 h2
  have e19 : exScaled.mulVec (exApprox 19) = ![20, 20, 0, 0] := by
    rw [exScaled_mulVec]
    funext i
    fin_cases i <;> simp [exApprox] <;> norm_num
  have e20 : exScaled.mulVec (exApprox 20) = ![20 / 3, 20 / 3, 400 / 9, 0] := by
    rw [exScaled_mulVec]
    funext i
    fin_cases i <;> simp [exApprox] <;> norm_num
  have n0 : ∀ z, exScaled.mulVec z = 0 → energyOf exScaled z ≤ 0 := by
    intro z hz
    rw [energyOf, hz, dotProduct_zero]
  have hstay : ∀ m < 20, exScaled.mulVec (exApprox m) = 0 → exScaled.mulVec (exApprox (m + 1)) = 0 := by
    intro m _ hm
    have h1 := n0 _ hm
    have h2 : exApprox m = 0 := by
      by_contra hne
      exact absurd (exScaled_spd.2 _ hne) (not_lt.2 h1)
    rw [← exApprox_next, h2]
    have : exNext 0 = 0 := by
      funext i
      fin_cases i <;> simp [exNext]
    rw [this, mulVec_zero]
  have hne : exScaled.mulVec (exApprox 19) ≠ 0 := by
    rw [e19]
    intro h0
    have := congrFun h0 0
    norm_num at this
  refine ⟨_, (driverCycles_cases (dims := twoDims 4) exScaled H fresh 0 exApprox hit hstay).1 hne, ?_⟩
  change 3 / 2 < norm2 ((0 : Fin 4 → ℝ) - exScaled.mulVec (exApprox 20)) /
    norm2 ((0 : Fin 4 → ℝ) - exScaled.mulVec (exApprox 19))
  rw [e19, e20, zero_sub, zero_sub]
  have h19 : norm2 (-![20, 20, 0, 0] : Fin 4 → ℝ) = √800 := by
    rw [norm2, Fin.sum_univ_four]
    congr 1
    simp only [Pi.neg_apply, Matrix.cons_val]
    norm_num
  have h20 : norm2 (-![20 / 3, 20 / 3, 400 / 9, 0] : Fin 4 → ℝ) = √(167200 / 81) := by
    rw [norm2, Fin.sum_univ_four]
    congr 1
    simp only [Pi.neg_apply, Matrix.cons_val]
    norm_num
  rw [h19, h20]
  rw [← Real.sqrt_div (by norm_num)]
  exact Real.lt_sqrt_of_sq_lt (by norm_num)

/-! ## Examples -/

theorem exScaled_spectrum : SpectrumBetween exScaled (1 / 3) (400 / 3) := by
  intro v
  change _ ≤ energyOf exScaled v ∧ energyOf exScaled v ≤ _
  rw [exScaled_energy]
  simp only [dotProduct, Fin.sum_univ_four]
  constructor <;>
  nlinarith [sq_nonneg (v 0), sq_nonneg (v 1), sq_nonneg (v 2), sq_nonneg (v 3), sq_nonneg (v 0 + v 1 + 10 * v 2),
    sq_nonneg (v 0 - v 1), sq_nonneg (v 0 - 10 * v 2), sq_nonneg (v 1 - 10 * v 2)]

/-- The hierarchy of `C107_above_one_violated`: the program prints NaN or at most `√(16 / 81 · 400)`. -/
example (debug timer : Bool)
    (solve : ∀ l, Matrix (Fin (twoDims 4 l)) (Fin (twoDims 4 l)) ℝ → (Fin (twoDims 4 l) → ℝ) → Fin (twoDims 4 l) → ℝ)
    (hsolve : ∀ l, SolvesExactly (solve l)) :
    ∃ H, (buildHierarchy debug timer (some { isPreconditioner := some false })
        (.ok (matrixHelpers debug (some (chars! "Jacobi")) (twoDims 4) (fun l => [exAllOwn l]) exScaled exLast
          solve))).result = .ok H ∧
      ∀ fresh x, driverCycles (dims := twoDims 4) exScaled H fresh 0 x = .ok .nan ∨
        ∃ rate, driverCycles (dims := twoDims 4) exScaled H fresh 0 x = .ok (.number rate) ∧
          rate ≤ √(16 / 81 * (400 / 3) / (1 / 3)) := by
  obtain ⟨-, H, hH, hr, -⟩ := C107_above_one_violated debug timer solve hsolve
  refine ⟨H, hH, fun fresh x => ?_⟩
  obtain ⟨y, -, -, h1, h2⟩ := C107_bound_partial (dims := twoDims 4) exScaled exScaled_spd.1 (1 / 3) (400 / 3)
    (by norm_num) exScaled_spectrum H (16 / 81) (by norm_num) hr fresh 0 0 x (mulVec_zero _)
  by_cases h : exScaled.mulVec (y 19) = 0
  · exact Or.inl (h1 h)
  · obtain ⟨rate, k1, -, k3⟩ := h2 h
    exact Or.inr ⟨rate, k1, k3⟩

/-- The same hierarchy, started from the solution. -/
example (debug timer : Bool) (fresh : ℕ → ∀ l, Fin (twoDims 4 l) → ℝ)
    (solve : ∀ l, Matrix (Fin (twoDims 4 l)) (Fin (twoDims 4 l)) ℝ → (Fin (twoDims 4 l) → ℝ) → Fin (twoDims 4 l) → ℝ)
    (hsolve : ∀ l, SolvesExactly (solve l)) :
    ∃ H, (buildHierarchy debug timer (some { isPreconditioner := some false })
        (.ok (matrixHelpers debug (some (chars! "Jacobi")) (twoDims 4) (fun l => [exAllOwn l]) exScaled exLast
          solve))).result = .ok H ∧
      ∀ x, driverCycles (dims := twoDims 4) exScaled H fresh (exScaled.mulVec x) x = .ok .nan := by
  obtain ⟨H, hH, hlin, hL, hp, -⟩ := matrixHelpers_build debug timer { isPreconditioner := some false }
    (some (chars! "Jacobi")) .jacobi .jacobi (by cases debug <;> rfl) rfl (twoDims 4) (fun l => [exAllOwn l])
    exScaled exScaled_spd exLast exLast_independent solve hsolve (by decide) rfl
  have hL2 : H.numLevels = 2 := hL
  refine ⟨H, hH, fun x => ?_⟩
  obtain ⟨y, rfl, hy, -⟩ := C107_number_partial (dims := twoDims 4) exScaled H _ hlin (fun _ => rfl) hp (by omega) fresh
    (exScaled.mulVec x) x
  exact C107_solved_violated (dims := twoDims 4) exScaled H _ hlin (fun _ => rfl) hp (by omega) fresh _ y hy 0
    (by norm_num) rfl

/-- One unknown and one level. -/
example (fresh : ℕ → ∀ _, Fin 1 → ℝ) (b x : Fin 1 → ℝ) :
    driverCycles (dims := fun _ => 1) (2 : Matrix (Fin 1) (Fin 1) ℝ)
      { numLevels := 1, level := fun _ => { solver := some fun b _ => (1 / 2 : ℝ) • b }, isPreconditioner := false,
        nSmoothingSteps := 1, timer := false } fresh b x = .ok .nan :=
  C107_one_level_violated (dims := fun _ => 1) 2 _ rfl _ rfl (fun b _ => by
    rw [mulVec_smul]
    funext i
    simp [Matrix.ofNat_mulVec]) fresh b x

end Mfmg
