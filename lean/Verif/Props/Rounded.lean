import Verif.Lemmas.RoundedOps
import Verif.Props.Cycle
import Mathlib.Data.Int.NatPrime
import Mathlib.RingTheory.Int.Basic
import Mathlib.Tactic.FinCases

/-!
# The cycle in floating-point arithmetic (C82)
-/

set_option autoImplicit false

namespace Mfmg

open Spec

section Exact

variable {V : ℕ → Type} [∀ l, AddCommGroup (V l)]

/-- **C82**: with exact subtraction the model with an arithmetic is the model of the other claims. -/
theorem C82_exact (H : Hierarchy V) (fresh : ∀ l, V l) (x b : V 0) :
    H.vmultWith (fun _ x y => x - y) fresh x b = H.vmult fresh x b := by
  simp only [Hierarchy.vmultWith, Hierarchy.vmult, Hierarchy.applyWith_exact]

theorem applyWith_indep (sub : ∀ l, V l → V l → V l) (H : Hierarchy V) (fresh fresh' : ∀ l, V l)
    (l : ℕ) (b x x' : V l) (h : l > 0 ∨ H.isPreconditioner) :
    H.applyWith sub fresh l b x = H.applyWith sub fresh' l b x' := by
  by_cases hl : l < H.numLevels
  · have ih := fun b' => applyWith_indep sub H fresh fresh' (l + 1) b' (fresh (l + 1)) (fresh' (l + 1))
      (Or.inl (Nat.succ_pos l))
    rw [Hierarchy.applyWith, Hierarchy.applyWith]
    simp only [hl, h, ih, if_true, dif_pos]
  · rw [Hierarchy.applyWith, Hierarchy.applyWith]
    simp [hl]
termination_by H.numLevels - l

/-- **C82**: as a preconditioner the result does not depend on the previous content of any vector, to
the last bit, whatever the arithmetic. -/
theorem C82_guess_ignored (sub : ∀ l, V l → V l → V l) (H : Hierarchy V)
    (hp : H.isPreconditioner = true) (fresh fresh' : ∀ l, V l) (x x' b : V 0) :
    H.vmultWith sub fresh x b = H.vmultWith sub fresh' x' b := by
  simp only [Hierarchy.vmultWith, applyWith_indep sub H fresh fresh' 0 b x x' (Or.inr hp)]

end Exact

/-- **C82**: for every number of levels and of smoothing steps and every bound `K` of the exact maps
there is a constant, independent of the problem and of its size, such that a hierarchy whose components
have a relative error of at most `c` computes the textbook cycle up to that constant times `c`, relative
to right-hand side and initial guess. -/
theorem C82_cycle (K : ℝ) (hK : 0 ≤ K) (n L : ℕ) : ∃ Q, 0 ≤ Q ∧
    ∀ {V : ℕ → Type} [∀ l, AddCommGroup (V l)] [∀ l, Module ℝ (V l)]
      (N : ∀ l, AddGroupSeminorm (V l)) (D : Data ℝ V) (sub : ∀ l, V l → V l → V l)
      (H : Hierarchy V) (fresh : ∀ l, V l) (c : ℝ) (b x : V 0),
      0 ≤ c → c ≤ 1 → H.nSmoothingSteps = n → H.numLevels = L →
      (H.isPreconditioner = true ∨ 2 ≤ L) → Bounded N D L K → Computes N D c sub H →
      ∃ y, (H.vmultWith sub fresh x b).result = .ok y ∧
        N 0 (y - cycle D n (L - 1) 0 b (if H.isPreconditioner then 0 else x)) ≤
          Q * c * (N 0 b + N 0 (if H.isPreconditioner then 0 else x)) := by
  obtain ⟨κ, γ, hκ, hγ, h⟩ := Tracks.cycle K hK n (L - 1) 1 0 1 0 zero_le_one le_rfl zero_le_one le_rfl
  refine ⟨γ, hγ, ?_⟩
  intro V _ _ N D sub H fresh c b x hc hc1 hn hL h1 hbd hcmp
  have hpos := hcmp.pos
  have hif : (if (0 : ℕ) > 0 ∨ H.isPreconditioner = true then 0 else x)
      = (if H.isPreconditioner then (0 : V 0) else x) := by simp
  have hb : N 0 b ≤ 1 * (N 0 b + N 0 (if H.isPreconditioner then (0 : V 0) else x)) := by
    have := apply_nonneg (N 0) (if H.isPreconditioner then (0 : V 0) else x)
    linarith
  have hx : N 0 (if H.isPreconditioner then (0 : V 0) else x)
      ≤ 1 * (N 0 b + N 0 (if H.isPreconditioner then (0 : V 0) else x)) := by
    have := apply_nonneg (N 0) b
    linarith
  obtain ⟨y, hy, hy'⟩ := h N D sub H fresh 0 c
    (N 0 b + N 0 (if H.isPreconditioner then 0 else x)) b b x x ⟨hb, by simp⟩
    (by rw [hif]; exact ⟨hx, by simp⟩) hc hc1
    (add_nonneg (apply_nonneg _ _) (apply_nonneg _ _)) hn (by omega)
    (fun h0 => h1.elim Or.inr (fun h2 => by omega)) (hL ▸ hbd) hcmp
  refine ⟨y, ?_, ?_⟩
  · simp only [Hierarchy.vmultWith, timerEnter_bind_result]
    rw [Run.result_bind_ok hy]
    simp
  · rw [hif] at hy'
    calc _ ≤ c * γ * (N 0 b + N 0 (if H.isPreconditioner then 0 else x)) := hy'.2
      _ = _ := by ring

/-- **C82**: standalone cycles with rounding.  If one exact cycle reduces the error to `ρ` times its
size, then the computed iterates approach the solution with the rate `ρ + Q c` until the error is
`Q c (‖b‖ + ‖x*‖) / (1 - ρ - Q c)`; rounding does not destroy convergence. -/
theorem C82_attainable (K : ℝ) (hK : 0 ≤ K) (n L : ℕ) (hL : 2 ≤ L) : ∃ Q, 0 ≤ Q ∧
    ∀ {V : ℕ → Type} [∀ l, AddCommGroup (V l)] [∀ l, Module ℝ (V l)]
      (N : ∀ l, AddGroupSeminorm (V l)) (D : Data ℝ V) (sub : ∀ l, V l → V l → V l)
      (H : Hierarchy V) (c ρ : ℝ) (b xs : V 0) (fresh : ℕ → ∀ l, V l) (x : ℕ → V 0),
      0 ≤ c → c ≤ 1 → H.nSmoothingSteps = n → H.numLevels = L → H.isPreconditioner = false →
      Bounded N D L K → Computes N D c sub H →
      0 ≤ ρ → (∀ z, N 0 (cycle D n (L - 1) 0 b z - xs) ≤ ρ * N 0 (z - xs)) →
      ρ + Q * c < 1 → (∀ k, (H.vmultWith sub (fresh k) (x k) b).result = .ok (x (k + 1))) →
      ∀ k, N 0 (x k - xs) ≤ (ρ + Q * c) ^ k * N 0 (x 0 - xs) +
        Q * c * (N 0 b + N 0 xs) / (1 - (ρ + Q * c)) := by
  obtain ⟨Q, hQ, h⟩ := C82_cycle K hK n L
  refine ⟨Q, hQ, ?_⟩
  intro V _ _ N D sub H c ρ b xs fresh x hc hc1 hn hLH hp hbd hcmp hρ hcon hlt hx k
  set r := ρ + Q * c with hr
  have hQc : 0 ≤ Q * c := mul_nonneg hQ hc
  have hstep : ∀ k, N 0 (x (k + 1) - xs) ≤ r * N 0 (x k - xs) + Q * c * (N 0 b + N 0 xs) := by
    intro k
    obtain ⟨y, hy, hy'⟩ := h N D sub H (fresh k) c b (x k) hc hc1 hn hLH (Or.inr hL) hbd hcmp
    rw [hx k] at hy
    obtain rfl := Outcome.ok.inj hy
    simp only [hp, Bool.false_eq_true, if_false] at hy'
    have h1 := map_add_le_add (N 0) (x (k + 1) - cycle D n (L - 1) 0 b (x k))
      (cycle D n (L - 1) 0 b (x k) - xs)
    rw [sub_add_sub_cancel] at h1
    have h2 : N 0 (x k) ≤ N 0 (x k - xs) + N 0 xs := by
      have := map_add_le_add (N 0) (x k - xs) xs
      rwa [sub_add_cancel] at this
    have h3 : Q * c * (N 0 b + N 0 (x k)) ≤ Q * c * (N 0 b + (N 0 (x k - xs) + N 0 xs)) := by gcongr
    have h4 := hcon (x k)
    rw [hr]
    linarith
  have hr1 : 0 < 1 - r := by linarith
  have hr0 : 0 ≤ r := by positivity
  induction k with
  | zero =>
    have : 0 ≤ Q * c * (N 0 b + N 0 xs) / (1 - r) :=
      div_nonneg (mul_nonneg hQc (add_nonneg (apply_nonneg _ _) (apply_nonneg _ _))) hr1.le
    simpa using this
  | succ k ih =>
    have e : r * (Q * c * (N 0 b + N 0 xs) / (1 - r)) + Q * c * (N 0 b + N 0 xs)
        = Q * c * (N 0 b + N 0 xs) / (1 - r) := by
      field_simp
      ring
    calc N 0 (x (k + 1) - xs) ≤ r * N 0 (x k - xs) + Q * c * (N 0 b + N 0 xs) := hstep k
      _ ≤ r * (r ^ k * N 0 (x 0 - xs) + Q * c * (N 0 b + N 0 xs) / (1 - r))
          + Q * c * (N 0 b + N 0 xs) := by gcongr
      _ = r ^ (k + 1) * N 0 (x 0 - xs) + (r * (Q * c * (N 0 b + N 0 xs) / (1 - r))
          + Q * c * (N 0 b + N 0 xs)) := by ring
      _ = _ := by rw [e]

/-- **C82**: a preconditioner that is symmetric in exact arithmetic (C05) is symmetric up to rounding. -/
theorem C82_symmetry (K : ℝ) (hK : 0 ≤ K) (n L : ℕ) : ∃ Q, 0 ≤ Q ∧
    ∀ {V : ℕ → Type} [∀ l, AddCommGroup (V l)] [∀ l, Module ℝ (V l)]
      (N : ∀ l, AddGroupSeminorm (V l)) (D : Data ℝ V) (sub : ∀ l, V l → V l → V l)
      (H : Hierarchy V) (fresh : ∀ l, V l) (c κ : ℝ) (φ : Forms ℝ V) (b e x : V 0),
      0 ≤ κ → 0 ≤ c → c ≤ 1 → H.nSmoothingSteps = n → H.numLevels = L → H.isPreconditioner = true →
      Bounded N D L K → Computes N D c sub H → Spec.Symmetric D φ L →
      (∀ v w, |φ 0 v w| ≤ κ * (N 0 v * N 0 w)) →
      ∃ mb me, (H.vmultWith sub fresh x b).result = .ok mb ∧
        (H.vmultWith sub fresh x e).result = .ok me ∧
        |φ 0 mb e - φ 0 b me| ≤ Q * c * (κ * (N 0 b * N 0 e)) := by
  obtain ⟨Q, hQ, h⟩ := C82_cycle K hK n L
  refine ⟨2 * Q, by positivity, ?_⟩
  intro V _ _ N D sub H fresh c κ φ b e x hκ hc hc1 hn hLH hp hbd hcmp hs hφ
  have hpos := hcmp.pos
  obtain ⟨mb, hmb, hb⟩ := h N D sub H fresh c b x hc hc1 hn hLH (Or.inl hp) hbd hcmp
  obtain ⟨me, hme, he⟩ := h N D sub H fresh c e x hc hc1 hn hLH (Or.inl hp) hbd hcmp
  refine ⟨mb, me, hmb, hme, ?_⟩
  simp only [hp, if_true, cycle_zero, map_zero, add_zero] at hb he
  have hsym := M_selfAdjoint hs n (L - 1) 0 (by omega) b e
  have e1 : φ 0 mb e - φ 0 b me
      = φ 0 (mb - M D n (L - 1) 0 b) e - φ 0 b (me - M D n (L - 1) 0 e) := by
    rw [map_sub, LinearMap.sub_apply, map_sub, hsym]; ring
  have h1 := hφ (mb - M D n (L - 1) 0 b) e
  have h2 := hφ b (me - M D n (L - 1) 0 e)
  have h3 : κ * (N 0 (mb - M D n (L - 1) 0 b) * N 0 e) ≤ κ * (Q * c * N 0 b * N 0 e) :=
    mul_le_mul_of_nonneg_left (mul_le_mul_of_nonneg_right hb (apply_nonneg _ _)) hκ
  have h4 : κ * (N 0 b * N 0 (me - M D n (L - 1) 0 e)) ≤ κ * (N 0 b * (Q * c * N 0 e)) :=
    mul_le_mul_of_nonneg_left (mul_le_mul_of_nonneg_left he (apply_nonneg _ _)) hκ
  rw [e1]
  refine (abs_sub _ _).trans ?_
  linarith

/-! ### The matrix problem -/

/-- **C82**: the products with a sparse matrix and with its transpose, component by component.  The error
grows with the number of entries in the row or column, not with the size of the matrix. -/
theorem C82_products (ar : Arith) (u : ℝ) (h : ar.Standard u) {m n : ℕ} (rows : Fin m → Arith.Row n) :
    (∀ x i, |ar.sparseVec rows x i - ∑ j, Arith.rowsMatrix rows i j * x j| ≤
      ((1 + u) ^ ((rows i).length + 1) - 1) * ((rows i).map fun e => |e.2 * x e.1|).sum) ∧
    ∀ x j, |ar.sparseTVec (Arith.entries rows) x j - ∑ i, Arith.rowsMatrix rows i j * x i| ≤
      ((1 + u) ^ (((Arith.entries rows).filter fun e => e.2.1 = j).length + 1) - 1) *
        (((Arith.entries rows).filter fun e => e.2.1 = j).map fun e => |e.2.2 * x e.1|).sum := by
  constructor
  · intro x i
    have := Arith.dotRow_error h (rows i) x
    rw [← Arith.rowsMatrix_mulVec] at this
    exact this
  · intro x j
    have := Arith.dotRow_error h (Arith.transposeRow (Arith.entries rows) j) x
    rw [← Arith.rowsMatrix_mulVec (Arith.transposeRow (Arith.entries rows)),
      Arith.rowsMatrix_transpose] at this
    rw [Arith.sparseTVec_eq]
    simp only [Arith.transposeRow, List.length_map, List.map_map, Function.comp_def] at this
    exact this

/-- **C82**: the weights of a dof.  The cells around the dof contribute nonnegative diagonal elements, and
every cell belongs to one agglomerate.  Then the computed weights add up to one up to rounding. -/
theorem C82_weights (ar : Arith) (u : ℝ) (h : ar.Standard u) (hu1 : u < 1) (allCells : List ℝ)
    (aggs : List (List ℝ)) (hv : ∀ v ∈ allCells, 0 ≤ v) (hpos : 0 < allCells.sum)
    (hpart : aggs.flatten.Perm allCells) :
    (1 - u) ^ (allCells.length + 1) / (1 + u) ^ allCells.length ≤
      (aggs.map fun agg => ar.weight agg allCells).sum ∧
    (aggs.map fun agg => ar.weight agg allCells).sum ≤
      (1 + u) ^ (allCells.length + 1) / (1 - u) ^ allCells.length := by
  have hu := h.nonneg
  have h1u : 0 < 1 - u := by linarith
  set k := allCells.length with hk
  set S := allCells.sum with hS
  set S' := ar.sumUp allCells with hS'
  obtain ⟨hlo, hhi⟩ := Arith.sumUp_bounds h hu1.le allCells hv
  rw [← hk, ← hS, ← hS'] at hlo hhi
  have hS'0 : 0 < S' := lt_of_lt_of_le (by positivity) hlo
  have hsum : (aggs.map List.sum).sum = S := by
    rw [← List.sum_flatten]; exact hpart.sum_eq
  -- one agglomerate
  have hone : ∀ agg ∈ aggs, (1 - u) ^ (k + 1) / S' * agg.sum ≤ ar.weight agg allCells ∧
      ar.weight agg allCells ≤ (1 + u) ^ (k + 1) / S' * agg.sum := by
    intro agg hagg
    have hsub : agg.Sublist aggs.flatten := List.sublist_flatten_of_mem hagg
    have hva : ∀ v ∈ agg, 0 ≤ v := fun v hv' => hv v (hpart.subset (hsub.subset hv'))
    have hlen : agg.length ≤ k := hsub.length_le.trans_eq hpart.length_eq
    have hs0 : 0 ≤ agg.sum := List.sum_nonneg hva
    obtain ⟨ha, hb⟩ := Arith.sumUp_bounds h hu1.le agg hva
    have ha' : (1 - u) ^ k * agg.sum ≤ ar.sumUp agg := le_trans
      (mul_le_mul_of_nonneg_right (pow_le_pow_of_le_one h1u.le (by linarith) hlen) hs0) ha
    have hb' : ar.sumUp agg ≤ (1 + u) ^ k * agg.sum := hb.trans
      (mul_le_mul_of_nonneg_right (pow_le_pow_right₀ (by linarith) hlen) hs0)
    obtain ⟨δ, hδ, e⟩ := h.div (ar.sumUp agg) S'
    rw [abs_le] at hδ
    have hw : ar.weight agg allCells = ar.sumUp agg / S' * (1 + δ) := e
    have hq0 : 0 ≤ ar.sumUp agg / S' := div_nonneg (le_trans (by positivity) ha') hS'0.le
    rw [hw]
    constructor
    · calc (1 - u) ^ (k + 1) / S' * agg.sum = (1 - u) ^ k * agg.sum / S' * (1 - u) := by
            rw [pow_succ]; ring
        _ ≤ ar.sumUp agg / S' * (1 + δ) := by
            gcongr
            linarith
    · calc ar.sumUp agg / S' * (1 + δ) ≤ (1 + u) ^ k * agg.sum / S' * (1 + u) := by
            gcongr
            · linarith
            · linarith
        _ = (1 + u) ^ (k + 1) / S' * agg.sum := by rw [pow_succ]; ring
  have hall : (1 - u) ^ (k + 1) / S' * S ≤ (aggs.map fun agg => ar.weight agg allCells).sum ∧
      (aggs.map fun agg => ar.weight agg allCells).sum ≤ (1 + u) ^ (k + 1) / S' * S := by
    rw [← hsum, ← List.sum_map_mul_left, ← List.sum_map_mul_left]
    constructor
    · exact List.sum_le_sum fun agg hagg => (hone agg hagg).1
    · exact List.sum_le_sum fun agg hagg => (hone agg hagg).2
  refine ⟨le_trans ?_ hall.1, hall.2.trans ?_⟩
  · rw [div_mul_eq_mul_div, div_le_div_iff₀ (by positivity) hS'0]
    calc (1 - u) ^ (k + 1) * S' ≤ (1 - u) ^ (k + 1) * ((1 + u) ^ k * S) := by gcongr
      _ = (1 - u) ^ (k + 1) * S * (1 + u) ^ k := by ring
  · rw [div_mul_eq_mul_div, div_le_div_iff₀ hS'0 (by positivity)]
    calc (1 + u) ^ (k + 1) * S * (1 - u) ^ k = (1 + u) ^ (k + 1) * ((1 - u) ^ k * S) := by ring
      _ ≤ (1 + u) ^ (k + 1) * S' := by gcongr

/-- **C82**: rounding to the nearest with `p` digits after the leading one meets the standard model with
`u = 2 ^ -(p + 1)`, with and without fused operations. -/
theorem C82_nearest (p : ℕ) (fused : Bool) : (nearest p fused).Standard (1 / 2 ^ (p + 1)) := by
  refine ⟨by positivity, fun a b => roundTo_error p _, fun a b => roundTo_error p _,
    fun a b => roundTo_error p _, fun a b => roundTo_error p _, fun s a x => ?_⟩
  cases fused with
  | false =>
    obtain ⟨δ, hδ, e⟩ := roundTo_error p (a * x)
    obtain ⟨ε, hε, e'⟩ := roundTo_error p (s + roundTo p (a * x))
    refine ⟨δ, ε, hδ, hε, ?_⟩
    rw [← e, ← e']
    simp [nearest]
  | true =>
    obtain ⟨ε, hε, e'⟩ := roundTo_error p (s + a * x)
    refine ⟨0, ε, by simp, hε, ?_⟩
    rw [add_zero, mul_one, ← e']
    simp [nearest]

/-- **C82**: in no precision do the weights add up to one exactly in general: a dof shared by three
agglomerates with equal contributions. -/
theorem C82_weights_inexact (p : ℕ) (hp : 1 ≤ p) (fused : Bool) :
    ([[1], [1], [1]].map fun agg => (nearest p fused).weight agg [1, 1, 1]).sum ≠ 1 := by
  have r1 : roundTo p 1 = 1 := by simpa using roundTo_natCast p 1 (by simp)
  have r2 : roundTo p 2 = 2 := by simpa using roundTo_natCast p 2 (le_trans (by decide) hp)
  have r3 : roundTo p 3 = 3 := by
    simpa using roundTo_natCast p 3 (le_trans (by decide) hp)
  have hw : (nearest p fused).weight [1] [1, 1, 1] = roundTo p (1 / 3) := by
    have e : (1 : ℝ) + 1 = 2 := by norm_num
    have e' : (2 : ℝ) + 1 = 3 := by norm_num
    simp [Arith.weight, Arith.sumUp, nearest, r1, r2, r3, e, e']
  simp only [List.map_cons, List.map_nil, List.sum_cons, List.sum_nil, hw, add_zero]
  intro h
  set k : ℤ := (p : ℤ) - Int.log 2 |(1 / 3 : ℝ)| with hk
  have hlog : Int.log 2 |(1 / 3 : ℝ)| ≤ 0 := by
    rw [abs_of_pos (by norm_num), Int.log_of_right_le_one _ (by norm_num)]
    simp
  obtain ⟨d, hd⟩ := Int.eq_ofNat_of_zero_le (show 0 ≤ k by omega)
  have hr : roundTo p (1 / 3) = round ((1 / 3 : ℝ) * 2 ^ k) / 2 ^ k := rfl
  rw [hr] at h
  set z := round ((1 / 3 : ℝ) * 2 ^ k)
  have h2k : (2 : ℝ) ^ k ≠ 0 := zpow_ne_zero _ (by norm_num)
  have h3 : (3 * z : ℝ) = 2 ^ k := by
    field_simp at h
    linarith
  rw [hd, zpow_natCast] at h3
  have h4 : 3 * z = 2 ^ d := by exact_mod_cast h3
  have h5 : (3 : ℤ) ∣ 2 ^ d := ⟨z, h4.symm⟩
  have h6 := (Int.prime_three.dvd_of_dvd_pow h5)
  omega

section Double

variable {dims : ℕ → ℕ}

/-- One number bounding everything in `Arith.hierarchy`. -/
theorem exact_bounded (A : ∀ l, Fin (dims l) → Arith.Row (dims l))
    (R : ∀ l, Fin (dims (l + 1)) → Arith.Row (dims l)) (inv : ∀ l, Fin (dims l) → ℝ)
    (C : ∀ l, Matrix (Fin (dims l)) (Fin (dims l)) ℝ) (L : ℕ) : ∃ K, 1 ≤ K ∧
    (∀ l < L, Arith.size (A l) ≤ K) ∧ (∀ l < L, Arith.size (R l) ≤ K) ∧
    (∀ l < L, Arith.size (Arith.transposeRow (Arith.entries (R l))) ≤ K) ∧ (∀ l < L, ‖inv l‖ ≤ K) ∧
    ∀ l < L, (∑ i, ∑ j, |C l i j|) ≤ K := by
  set f : ℕ → ℝ := fun l => Arith.size (A l) + Arith.size (R l)
    + Arith.size (Arith.transposeRow (Arith.entries (R l))) + ‖inv l‖ + ∑ i, ∑ j, |C l i j| with hf
  have h1 := fun l => Arith.size_nonneg (A l)
  have h2 := fun l => Arith.size_nonneg (R l)
  have h3 := fun l => Arith.size_nonneg (Arith.transposeRow (Arith.entries (R l)))
  have h4 := fun l => norm_nonneg (inv l)
  have h5 : ∀ l, 0 ≤ ∑ i, ∑ j, |C l i j| := fun l =>
    Finset.sum_nonneg fun i _ => Finset.sum_nonneg fun j _ => abs_nonneg _
  have hf0 : ∀ l, 0 ≤ f l := fun l => by
    have := h1 l; have := h2 l; have := h3 l; have := h4 l; have := h5 l
    simp only [hf]; linarith
  have hle : ∀ l < L, f l ≤ 1 + ∑ l ∈ Finset.range L, f l := fun l hl => by
    have := Finset.single_le_sum (fun l _ => hf0 l) (Finset.mem_range.2 hl)
    linarith
  refine ⟨1 + ∑ l ∈ Finset.range L, f l, ?_, ?_, ?_, ?_, ?_, ?_⟩
  · have := Finset.sum_nonneg (s := Finset.range L) fun l _ => hf0 l
    linarith
  all_goals
    intro l hl
    refine le_trans ?_ (hle l hl)
    have := h1 l; have := h2 l; have := h3 l; have := h4 l; have := h5 l
    simp only [hf]; linarith

/-- The matrix problem in floating-point arithmetic meets the hypotheses of `C82_cycle`: the exact maps
are bounded, and all computed components have errors of the order of the unit roundoff. -/
theorem C82_components (A : ∀ l, Fin (dims l) → Arith.Row (dims l))
    (R : ∀ l, Fin (dims (l + 1)) → Arith.Row (dims l)) (inv : ∀ l, Fin (dims l) → ℝ)
    (C : ∀ l, Matrix (Fin (dims l)) (Fin (dims l)) ℝ) (σ : ℝ) (hσ : 0 ≤ σ) (L : ℕ) (hL : 0 < L) :
    ∃ K F, 0 ≤ K ∧ 1 ≤ F ∧ Bounded (maxNorm dims) (Arith.exactData A R inv C) L K ∧
    ∀ (ar : Arith) (u : ℝ) (solve : ∀ l, (Fin (dims l) → ℝ) → Fin (dims l) → ℝ) (n : ℕ) (pre : Bool),
      ar.Standard u → F * u ≤ 1 →
      (∀ b, ‖solve (L - 1) b - (C (L - 1)).mulVec b‖ ≤ σ * u * ‖b‖) →
      Computes (maxNorm dims) (Arith.exactData A R inv C) (F * u) (fun _ => ar.vsub)
        (ar.hierarchy A R inv solve L n pre) := by
  obtain ⟨K, hK1, hA, hR, hT, hinv, hC⟩ := exact_bounded A R inv C L
  have hK0 : (0 : ℝ) ≤ K := by linarith
  -- all components have the error `F u`
  set F := 23 * K ^ 3 + σ with hF
  have hK3 : 1 ≤ K ^ 3 := one_le_pow₀ hK1
  have hFK : K ≤ F := by nlinarith [sq_nonneg K]
  have hFσ : σ ≤ F := by linarith
  have hF1 : 1 ≤ F := hK1.trans hFK
  have hbd : Bounded (maxNorm dims) (Arith.exactData A R inv C) L K := by
    refine ⟨hK0, fun l hl x => ?_, fun l hl x => ?_, fun l hl x => ?_, fun l hl x => ?_,
      fun l hl x => ?_⟩
    · exact (Arith.mulVec_le (A l) x).trans (mul_le_mul_of_nonneg_right (hA l hl) (norm_nonneg x))
    · exact (Arith.diagonal_le (inv l) x).trans
        (mul_le_mul_of_nonneg_right (hinv l (by omega)) (norm_nonneg x))
    · exact (Arith.mulVec_le (R l) x).trans
        (mul_le_mul_of_nonneg_right (hR l (by omega)) (norm_nonneg x))
    · have := Arith.mulVec_le (Arith.transposeRow (Arith.entries (R l))) x
      rw [Arith.rowsMatrix_transpose] at this
      exact this.trans (mul_le_mul_of_nonneg_right (hT l (by omega)) (norm_nonneg x))
    · exact (Arith.matrix_le (C l) x).trans
        (mul_le_mul_of_nonneg_right (hC l (by omega)) (norm_nonneg x))
  refine ⟨K, F, hK0, hF1, hbd, ?_⟩
  intro ar u solve n pre hu hFu hsolve
  have hu0 := hu.nonneg
  have hKu : K * u ≤ 1 := (mul_le_mul_of_nonneg_right hFK hu0).trans hFu
  have hu1 : u ≤ 1 := by nlinarith
  have up : ∀ {a t v : ℝ}, 0 ≤ t → a ≤ F → v ≤ a * u * t → v ≤ F * u * t := fun ht ha hv =>
    hv.trans (mul_le_mul_of_nonneg_right (mul_le_mul_of_nonneg_right ha hu0) ht)
  refine ⟨hL, fun l x y => ?_, fun l hl => ⟨_, rfl, fun x => ?_⟩, fun l hl => ?_,
    fun l hl => ⟨_, rfl, fun x => ?_, fun y => ?_⟩, ?_⟩
  · exact up (a := 1) (add_nonneg (norm_nonneg x) (norm_nonneg y)) hF1
      (by rw [one_mul]; exact Arith.vsub_error hu x y)
  · exact up (norm_nonneg x) ((hA l hl).trans hFK) (Arith.sparseVec_error hu hu1 (A l) x)
  · have hl' : l + 1 < L := hl
    refine ⟨ar.smooth (ar.sparseVec (A l)) (ar.jacobiPrec (inv l)), ?_, fun b x => ?_⟩
    · simp [Arith.hierarchy, hl']
    · have := Arith.smooth_error hu K hK1 hKu (Arith.rowsMatrix (A l)) (Matrix.diagonal (inv l))
        (ar.sparseVec (A l)) (ar.jacobiPrec (inv l)) (fun x => hbd.A l (by omega) x)
        (fun x => hbd.B l hl x)
        (fun x => (Arith.sparseVec_error hu hu1 (A l) x).trans (mul_le_mul_of_nonneg_right
          (mul_le_mul_of_nonneg_right (hA l (by omega)) hu0) (norm_nonneg x)))
        (fun x => (Arith.jacobiPrec_error hu (inv l) x).trans (mul_le_mul_of_nonneg_right
          (mul_le_mul_of_nonneg_right (hinv l (by omega)) hu0) (norm_nonneg x))) b x
      rw [show K * u * (23 * K ^ 2) = 23 * K ^ 3 * u by ring] at this
      exact up (add_nonneg (norm_nonneg b) (norm_nonneg x)) (by linarith) this
  · exact up (norm_nonneg x) ((hR l (by have : l + 1 < L := hl; omega)).trans hFK)
      (Arith.sparseVec_error hu hu1 (R l) x)
  · exact up (norm_nonneg y) ((hT l (by have : l + 1 < L := hl; omega)).trans hFK)
      (Arith.sparseTVec_error hu hu1 (R l) y)
  · refine ⟨fun b _ => solve (L - 1) b, ?_, fun b => up (norm_nonneg b) hFσ (hsolve b)⟩
    have : L - 1 + 1 = L := by omega
    simp [Arith.hierarchy, this]

/-- **C82**: the matrix problem in floating-point arithmetic.  For every hierarchy of sparse matrices
with Jacobi smoothing there is a constant `Q` such that in every arithmetic with unit roundoff `u`,
`Q u ≤ 1`, a cycle returns the exact cycle up to `Q u` relative to right-hand side and initial guess,
component by component, if the coarse solver has an error of at most `σ u`. -/
theorem C82_double (A : ∀ l, Fin (dims l) → Arith.Row (dims l))
    (R : ∀ l, Fin (dims (l + 1)) → Arith.Row (dims l)) (inv : ∀ l, Fin (dims l) → ℝ)
    (C : ∀ l, Matrix (Fin (dims l)) (Fin (dims l)) ℝ) (σ : ℝ) (hσ : 0 ≤ σ) (L n : ℕ) (hL : 0 < L) :
    ∃ Q, 0 ≤ Q ∧ ∀ (ar : Arith) (u : ℝ) (solve : ∀ l, (Fin (dims l) → ℝ) → Fin (dims l) → ℝ)
      (pre : Bool) (fresh : ∀ l, Fin (dims l) → ℝ) (x b : Fin (dims 0) → ℝ),
      ar.Standard u → Q * u ≤ 1 → (pre = true ∨ 2 ≤ L) →
      (∀ b, ‖solve (L - 1) b - (C (L - 1)).mulVec b‖ ≤ σ * u * ‖b‖) →
      ∃ y, ((ar.hierarchy A R inv solve L n pre).vmultWith (fun _ => ar.vsub) fresh x b).result = .ok y ∧
        ∀ i, |y i - cycle (Arith.exactData A R inv C) n (L - 1) 0 b (if pre then 0 else x) i| ≤
          Q * u * (‖b‖ + ‖if pre then 0 else x‖) := by
  obtain ⟨K, F, hK0, hF1, hbd, hcmp⟩ := C82_components A R inv C σ hσ L hL
  obtain ⟨Q, hQ, h⟩ := C82_cycle K hK0 n L
  have hF0 : 0 ≤ F := by linarith
  refine ⟨F * (1 + Q), by positivity, ?_⟩
  intro ar u solve pre fresh x b hu hQu hpre hsolve
  have hu0 := hu.nonneg
  have hFu : F * u ≤ 1 := by
    have : 0 ≤ F * Q * u := by positivity
    nlinarith
  obtain ⟨y, hy, hy'⟩ := h (maxNorm dims) (Arith.exactData A R inv C) (fun _ => ar.vsub)
    (ar.hierarchy A R inv solve L n pre) fresh (F * u) b x (by positivity) hFu rfl rfl hpre hbd
    (hcmp ar u solve n pre hu hFu hsolve)
  refine ⟨y, hy, fun i => ?_⟩
  have h1 := norm_le_pi_norm (y - cycle (Arith.exactData A R inv C) n (L - 1) 0 b
    (if pre then 0 else x)) i
  rw [Pi.sub_apply, Real.norm_eq_abs] at h1
  refine h1.trans (le_trans hy' ?_)
  show Q * (F * u) * (‖b‖ + ‖if pre then 0 else x‖) ≤ _
  have : Q * (F * u) ≤ F * (1 + Q) * u := by
    have : 0 ≤ F * u := by positivity
    nlinarith
  exact mul_le_mul_of_nonneg_right this (by positivity)

end Double

/-! ### Concrete cases -/

/-- Two dofs on either level. -/
abbrev exRDims : ℕ → ℕ := fun _ => 2

/-- The matrix `2 -1 / -1 2`, and `2 0 / 0 2` on the coarse level. -/
noncomputable def exRA : ∀ l, Fin (exRDims l) → Arith.Row (exRDims l)
  | 0 => ![[(0, 2), (1, -1)], [(0, -1), (1, 2)]]
  | _ + 1 => ![[(0, 2)], [(1, 2)]]

/-- The restriction `1 1 / 0 0`: the second coarse dof has an empty row. -/
noncomputable def exRR : ∀ l, Fin (exRDims (l + 1)) → Arith.Row (exRDims l) := fun _ =>
  ![[(0, 1), (1, 1)], []]

/-- The inverse of the diagonal. -/
noncomputable def exRInv : ∀ l, Fin (exRDims l) → ℝ := fun _ _ => 1 / 2

/-- The inverse of the coarse matrix. -/
noncomputable def exRC : ∀ l, Matrix (Fin (exRDims l)) (Fin (exRDims l)) ℝ := fun _ =>
  Matrix.diagonal fun _ => 1 / 2

/-- The coarse solver multiplies with the inverse. -/
noncomputable def exRSolve (ar : Arith) : ∀ l, (Fin (exRDims l) → ℝ) → Fin (exRDims l) → ℝ :=
  fun _ b i => ar.mul (1 / 2) (b i)

theorem exRSolve_error (ar : Arith) (u : ℝ) (h : ar.Standard u) (l : ℕ) (b : Fin (exRDims l) → ℝ) :
    ‖exRSolve ar l b - (exRC l).mulVec b‖ ≤ 1 * u * ‖b‖ := by
  refine (Arith.jacobiPrec_error h (fun _ => 1 / 2) b).trans ?_
  have h1 : ‖fun _ : Fin (exRDims l) => (1 / 2 : ℝ)‖ ≤ 1 := by
    rw [pi_norm_le_iff_of_nonneg zero_le_one]
    intro i
    rw [Real.norm_eq_abs, abs_of_pos] <;> norm_num
  have := h.nonneg
  gcongr

/-- Enough digits make every multiple of the unit roundoff small. -/
theorem exists_precision (Q ε : ℝ) (hε : 0 < ε) : ∃ p : ℕ, Q * (1 / 2 ^ (p + 1)) ≤ ε := by
  obtain ⟨p, hp⟩ := exists_nat_gt (Q / ε)
  refine ⟨p, ?_⟩
  have h1 : (p : ℝ) ≤ 2 ^ (p + 1) := by
    have : p < 2 ^ (p + 1) := (Nat.lt_two_pow_self).trans (Nat.pow_lt_pow_right (by norm_num) (by omega))
    exact_mod_cast this.le
  have h2 : (0 : ℝ) < 2 ^ (p + 1) := by positivity
  rw [mul_one_div, div_le_iff₀ h2]
  rw [div_lt_iff₀ hε] at hp
  nlinarith

/-- For every tolerance there is a precision in which a cycle of the two-level problem is exact up to the
tolerance, as a preconditioner and standalone. -/
example (ε : ℝ) (hε : 0 < ε) (n : ℕ) : ∃ p : ℕ, ∀ (pre fused : Bool) (fresh : ∀ l, Fin (exRDims l) → ℝ)
    (x b : Fin 2 → ℝ), ∃ y, (((nearest p fused).hierarchy exRA exRR exRInv (exRSolve (nearest p fused)) 2
      n pre).vmultWith (fun _ => (nearest p fused).vsub) fresh x b).result = .ok y ∧
      ∀ i, |y i - cycle (Arith.exactData exRA exRR exRInv exRC) n 1 0 b (if pre then 0 else x) i| ≤
        ε * (‖b‖ + ‖if pre then 0 else x‖) := by
  obtain ⟨Q, hQ, h⟩ := C82_double exRA exRR exRInv exRC 1 zero_le_one 2 n (by norm_num)
  obtain ⟨p, hp⟩ := exists_precision Q (min 1 ε) (lt_min one_pos hε)
  refine ⟨p, fun pre fused fresh x b => ?_⟩
  obtain ⟨y, hy, hy'⟩ := h (nearest p fused) _ (exRSolve (nearest p fused)) pre fresh x b
    (C82_nearest p fused) (hp.trans (min_le_left _ _)) (Or.inr le_rfl)
    (exRSolve_error _ _ (C82_nearest p fused) 1)
  refine ⟨y, hy, fun i => (hy' i).trans ?_⟩
  exact mul_le_mul_of_nonneg_right (hp.trans (min_le_right _ _))
    (add_nonneg (norm_nonneg _) (norm_nonneg _))

/-- Three cells with two agglomerates in double precision. -/
example : (1 - 1 / 2 ^ 53) ^ 4 / (1 + 1 / 2 ^ 53) ^ 3 ≤
      ([[4, 1 / 3], [5]].map fun agg => (nearest 52 false).weight agg [4, 5, 1 / 3]).sum ∧
    ([[4, 1 / 3], [5]].map fun agg => (nearest 52 false).weight agg [4, 5, 1 / 3]).sum ≤
      (1 + 1 / 2 ^ 53) ^ 4 / (1 - 1 / 2 ^ 53 : ℝ) ^ 3 :=
  C82_weights (nearest 52 false) _ (C82_nearest 52 false) (by norm_num) [4, 5, 1 / 3] [[4, 1 / 3], [5]]
    (by norm_num) (by norm_num) (List.Perm.cons _ (List.Perm.swap _ _ _))

/-- A row with two entries in double precision. -/
example (x : Fin 2 → ℝ) : |(nearest 52 true).sparseVec (exRA 0) x 0 - ∑ j : Fin 2, Arith.rowsMatrix (exRA 0) 0 j * x j| ≤
    ((1 + 1 / 2 ^ 53) ^ 3 - 1) * (|2 * x 0| + (|-1 * x 1| + 0)) :=
  (C82_products (nearest 52 true) _ (C82_nearest 52 true) (exRA 0)).1 x (0 : Fin 2)

/-- A preconditioner whose vectors hold anything. -/
example (x x' b : Fin 2 → ℝ) :
    ((nearest 52 true).hierarchy exRA exRR exRInv (exRSolve (nearest 52 true)) 2 1 true).vmultWith
      (fun _ => (nearest 52 true).vsub) (fun _ _ => 0) x b =
    ((nearest 52 true).hierarchy exRA exRR exRInv (exRSolve (nearest 52 true)) 2 1 true).vmultWith
      (fun _ => (nearest 52 true).vsub) (fun _ _ => 7) x' b :=
  C82_guess_ignored (V := fun l => Fin (exRDims l) → ℝ) _ _ rfl _ _ x x' b

/-- The exact maps of the example. -/
theorem exR_maps (v : Fin 2 → ℝ) :
    (Arith.exactData exRA exRR exRInv exRC).A 0 v = ![2 * v 0 - v 1, 2 * v 1 - v 0] ∧
    (Arith.exactData exRA exRR exRInv exRC).B 0 v = ![v 0 / 2, v 1 / 2] ∧
    (Arith.exactData exRA exRR exRInv exRC).R 0 v = ![v 0 + v 1, 0] ∧
    (Arith.exactData exRA exRR exRInv exRC).P 0 v = ![v 0, v 0] ∧
    (Arith.exactData exRA exRR exRInv exRC).C 1 v = ![v 0 / 2, v 1 / 2] := by
  refine ⟨?_, ?_, ?_, ?_, ?_⟩ <;> funext i <;> fin_cases i <;>
  simp [Arith.exactData, Arith.rowsMatrix, exRA, exRR, exRInv, exRC, Matrix.mulVec, dotProduct,
    Matrix.vecMul, Matrix.diagonal] <;> ring

/-- The exact cycle of the example reduces the error of the solution `xs` to a quarter. -/
theorem exR_contracts (b xs z : Fin 2 → ℝ) (hb : b = (Arith.rowsMatrix (exRA 0)).mulVec xs) :
    ‖cycle (Arith.exactData exRA exRR exRInv exRC) 1 1 0 b z - xs‖ ≤ 1 / 4 * ‖z - xs‖ := by
  have h0 : |z 0 - xs 0| ≤ ‖z - xs‖ := by
    have := norm_le_pi_norm (z - xs) 0; rwa [Real.norm_eq_abs] at this
  have h1 : |z 1 - xs 1| ≤ ‖z - xs‖ := by
    have := norm_le_pi_norm (z - xs) 1; rwa [Real.norm_eq_abs] at this
  have key : ∀ i : Fin 2, cycle (Arith.exactData exRA exRR exRInv exRC) 1 1 0 b z i - xs i
      = (if i = 0 then 1 else -1) * ((z 0 - xs 0) - (z 1 - xs 1)) / 8 := by
    have hb' : b = ![2 * xs 0 - xs 1, 2 * xs 1 - xs 0] := hb.trans (exR_maps xs).1
    subst hb'
    intro i
    simp only [cycle, richardson, Function.iterate_one, (exR_maps _).1, (exR_maps _).2.1,
      (exR_maps _).2.2.1, (exR_maps _).2.2.2.1, (exR_maps _).2.2.2.2]
    fin_cases i <;> simp [Matrix.vecHead, Matrix.vecTail] <;> ring
  rw [pi_norm_le_iff_of_nonneg (by positivity)]
  intro i
  rw [Pi.sub_apply, key, Real.norm_eq_abs]
  have h2 : |(z 0 - xs 0) - (z 1 - xs 1)| ≤ 2 * ‖z - xs‖ := (abs_sub _ _).trans (by linarith)
  rw [abs_div, abs_mul]
  have h3 : |(if i = 0 then 1 else -1 : ℝ)| = 1 := by split_ifs <;> simp
  rw [h3, abs_of_pos (show (0 : ℝ) < 8 by norm_num)]
  linarith

/-- Standalone cycles of the example in sufficient precision: whatever the temporaries hold, the computed
iterates approach the solution at the rate 1/2 up to a multiple of the unit roundoff. -/
example : ∃ Q p₀, 0 ≤ Q ∧ ∀ (p : ℕ) (fused : Bool) (b xs : Fin 2 → ℝ)
    (fresh : ℕ → ∀ l, Fin (exRDims l) → ℝ) (x : ℕ → Fin 2 → ℝ), p₀ ≤ p →
    b = (Arith.rowsMatrix (exRA 0)).mulVec xs →
    (∀ k, (((nearest p fused).hierarchy exRA exRR exRInv (exRSolve (nearest p fused)) 2 1 false).vmultWith
      (fun _ => (nearest p fused).vsub) (fresh k) (x k) b).result = .ok (x (k + 1))) →
    ∀ k, ‖x k - xs‖ ≤ (1 / 2) ^ k * ‖x 0 - xs‖ + Q * (1 / 2 ^ (p + 1)) * (‖b‖ + ‖xs‖) := by
  obtain ⟨K, F, hK, hF, hbd, hcmp⟩ := C82_components exRA exRR exRInv exRC 1 zero_le_one 2 (by norm_num)
  obtain ⟨Q, hQ, h⟩ := C82_attainable K hK 1 2 le_rfl
  have hF0 : 0 ≤ F := by linarith
  obtain ⟨p₀, hp₀⟩ := exists_precision (F * (1 + Q)) (1 / 4) (by norm_num)
  refine ⟨2 * (Q * F), p₀, by positivity, ?_⟩
  intro p fused b xs fresh x hp hb hx k
  have hu : (1 : ℝ) / 2 ^ (p + 1) ≤ 1 / 2 ^ (p₀ + 1) := by
    apply one_div_le_one_div_of_le (by positivity)
    exact pow_le_pow_right₀ (by norm_num) (by omega)
  have hu0 : (0 : ℝ) ≤ 1 / 2 ^ (p + 1) := by positivity
  set u : ℝ := 1 / 2 ^ (p + 1) with hudef
  have h1 : F * (1 + Q) * u ≤ 1 / 4 := le_trans (by gcongr) hp₀
  have hQFu : 0 ≤ Q * (F * u) := by positivity
  have h2 : F * u + Q * (F * u) ≤ 1 / 4 := by linarith
  have hFu : 0 ≤ F * u := by positivity
  have := h (maxNorm exRDims) (Arith.exactData exRA exRR exRInv exRC) (fun _ => (nearest p fused).vsub)
    ((nearest p fused).hierarchy exRA exRR exRInv (exRSolve (nearest p fused)) 2 1 false) (F * u) (1 / 4)
    b xs fresh x hFu (by linarith) rfl rfl rfl hbd
    (hcmp _ u _ 1 false (C82_nearest p fused) (by linarith) (exRSolve_error _ _ (C82_nearest p fused) 1))
    (by norm_num) (fun z => exR_contracts b xs z hb) (by linarith) hx k
  refine le_trans this ?_
  have hN : ∀ v : Fin 2 → ℝ, maxNorm exRDims 0 v = ‖v‖ := fun _ => rfl
  rw [hN, hN, hN]
  have h3 : Q * (F * u) * (‖b‖ + ‖xs‖) / (1 - (1 / 4 + Q * (F * u))) ≤
      2 * (Q * F) * u * (‖b‖ + ‖xs‖) := by
    rw [div_le_iff₀ (by linarith)]
    have h4 : 0 ≤ Q * (F * u) * (‖b‖ + ‖xs‖) := by positivity
    nlinarith
  gcongr
  linarith

/-- The Euclidean inner products. -/
noncomputable def exRForms : Forms ℝ (fun l => Fin (exRDims l) → ℝ) := fun _ =>
  LinearMap.mk₂ ℝ (fun v w => v 0 * w 0 + v 1 * w 1) (by intros; simp; ring) (by intros; simp; ring)
    (by intros; simp; ring) (by intros; simp; ring)

theorem exR_symmetric : Spec.Symmetric (Arith.exactData exRA exRR exRInv exRC) exRForms 2 := by
  refine ⟨fun l x y => ?_, fun l hl x y => ?_, fun l hl x y => ?_, fun l hl x y => ?_,
    fun l hl x y => ?_⟩
  · simp [exRForms]; ring
  · have : l = 0 ∨ l = 1 := by omega
    rcases this with rfl | rfl <;>
    simp [exRForms, Arith.exactData, Arith.rowsMatrix, exRA, Matrix.mulVec, dotProduct] <;> ring
  · simp [exRForms, Arith.exactData, exRInv, Matrix.mulVec_diagonal]; ring
  · simp [exRForms, Arith.exactData, Arith.rowsMatrix, exRR, Matrix.mulVec, dotProduct, Matrix.vecMul]
    ring
  · simp [exRForms, Arith.exactData, exRC]

/-- The computed preconditioner of the example is symmetric up to rounding. -/
example : ∃ Q p₀, 0 ≤ Q ∧ ∀ (p : ℕ) (fused : Bool) (b e x : Fin 2 → ℝ), p₀ ≤ p → ∃ mb me : Fin 2 → ℝ,
    (((nearest p fused).hierarchy exRA exRR exRInv (exRSolve (nearest p fused)) 2 1 true).vmultWith
      (fun _ => (nearest p fused).vsub) (fun _ _ => 0) x b).result = .ok mb ∧
    (((nearest p fused).hierarchy exRA exRR exRInv (exRSolve (nearest p fused)) 2 1 true).vmultWith
      (fun _ => (nearest p fused).vsub) (fun _ _ => 0) x e).result = .ok me ∧
    |(mb 0 * e 0 + mb 1 * e 1) - (b 0 * me 0 + b 1 * me 1)| ≤ Q * (1 / 2 ^ (p + 1)) * (‖b‖ * ‖e‖) := by
  obtain ⟨K, F, hK, hF, hbd, hcmp⟩ := C82_components exRA exRR exRInv exRC 1 zero_le_one 2 (by norm_num)
  obtain ⟨Q, hQ, h⟩ := C82_symmetry K hK 1 2
  have hF0 : 0 ≤ F := by linarith
  obtain ⟨p₀, hp₀⟩ := exists_precision F 1 (by norm_num)
  refine ⟨Q * F * 2, p₀, by positivity, ?_⟩
  intro p fused b e x hp
  have hu : (1 : ℝ) / 2 ^ (p + 1) ≤ 1 / 2 ^ (p₀ + 1) := by
    apply one_div_le_one_div_of_le (by positivity)
    exact pow_le_pow_right₀ (by norm_num) (by omega)
  have hu0 : (0 : ℝ) ≤ 1 / 2 ^ (p + 1) := by positivity
  set u : ℝ := 1 / 2 ^ (p + 1) with hudef
  have h1 : F * u ≤ 1 := le_trans (by gcongr) hp₀
  obtain ⟨mb, me, h2, h3, h4⟩ := h (maxNorm exRDims) (Arith.exactData exRA exRR exRInv exRC)
    (fun _ => (nearest p fused).vsub)
    ((nearest p fused).hierarchy exRA exRR exRInv (exRSolve (nearest p fused)) 2 1 true)
    (fun _ _ => 0) (F * u) 2 exRForms b e x (by norm_num) (by positivity) h1 rfl rfl rfl hbd
    (hcmp _ u _ 1 true (C82_nearest p fused) h1 (exRSolve_error _ _ (C82_nearest p fused) 1))
    exR_symmetric (by
      intro v w
      have hv : ∀ i, |v i| ≤ ‖v‖ := fun i => by
        rw [← Real.norm_eq_abs]; exact norm_le_pi_norm v i
      have hw : ∀ i, |w i| ≤ ‖w‖ := fun i => by
        rw [← Real.norm_eq_abs]; exact norm_le_pi_norm w i
      show |v 0 * w 0 + v 1 * w 1| ≤ 2 * (‖v‖ * ‖w‖)
      refine (abs_add_le _ _).trans ?_
      rw [abs_mul, abs_mul]
      have := mul_le_mul (hv 0) (hw 0) (abs_nonneg _) (norm_nonneg _)
      have := mul_le_mul (hv 1) (hw 1) (abs_nonneg _) (norm_nonneg _)
      linarith)
  refine ⟨mb, me, h2, h3, le_trans h4 (le_of_eq ?_)⟩
  show Q * (F * u) * (2 * (‖b‖ * ‖e‖)) = _
  ring

end Mfmg
