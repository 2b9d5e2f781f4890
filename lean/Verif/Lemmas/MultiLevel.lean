import Verif.Spec.MultiLevel
import Verif.Props.TwoLevel

/-!
# Convergence with any number of levels
-/

set_option autoImplicit false

namespace Mfmg

open Spec

section

variable {K : Type} [Field K] [LinearOrder K] [IsStrictOrderedRing K] {V : ℕ → Type}
  [∀ l, AddCommGroup (V l)] [∀ l, Module K (V l)]

/-! ### Smoothing that sees the part of the error orthogonal to the coarse vectors -/

/-- If one smoothing step takes a share `δ` of the energy that no coarse vector represents, the cycle
multiplies the energy of the error at most by `1 - δ`, whatever the number of levels. -/
theorem cycle_rate {D : Data K V} {φ : Forms K V} {L : ℕ} (h : GalerkinChain D φ L)
    (hB : ∀ l, l + 1 < L → ∀ e, energy D φ l (e - D.B l (D.A l e)) ≤ energy D φ l e) {δ : K}
    (h1 : δ ≤ 1)
    (hG : ∀ l, l + 1 < L → ∀ e z, D.A (l + 1) z = D.R l (D.A l e) →
      energy D φ l (e - D.B l (D.A l e)) ≤ energy D φ l e - δ * energy D φ l (e - D.P l z)) (n : ℕ)
    (hn : 0 < n) (d l : ℕ) (hd : l + d + 1 = L) (b x xs : V l) (hxs : D.A l xs = b) :
    energy D φ l (xs - cycle D n d l b x) ≤ (1 - δ) * energy D φ l (xs - x) := by
  induction d generalizing l with
  | zero =>
    have h0 : energy D φ l (xs - D.C l b) = 0 := by
      unfold energy
      rw [map_sub (D.A l), ← hxs, h.exact l (by omega), sub_self]
      simp
    change energy D φ l (xs - D.C l b) ≤ _
    rw [h0]
    exact mul_nonneg (sub_nonneg.2 h1) (h.psd l (by omega) _)
  | succ d ih =>
    have hl : l + 1 < L := by omega
    obtain ⟨m, rfl⟩ : ∃ m, n = m + 1 := ⟨n - 1, by omega⟩
    simp only [cycle]
    have hpre := smooth_energy (hB l hl) b xs hxs (m + 1) x
    set x₁ := (richardson D l b)^[m + 1] x
    rw [Function.iterate_succ_apply]
    refine (smooth_energy (hB l hl) b xs hxs m _).trans ?_
    obtain ⟨z, hz⟩ := h.solvable l hl (xs - x₁)
    have hr : b - D.A l x₁ = D.A l (xs - x₁) := by rw [map_sub, hxs]
    rw [hr]
    have hc := ih (l + 1) (by omega) (D.R l (D.A l (xs - x₁))) 0 z hz
    rw [sub_zero] at hc
    set c := cycle D (m + 1) d (l + 1) (D.R l (D.A l (xs - x₁))) 0
    have hrich : xs - richardson D l b (x₁ + D.P l c)
        = (xs - x₁ - D.P l c) - D.B l (D.A l (xs - x₁ - D.P l c)) := by
      rw [richardson, sub_sub xs x₁, map_sub (D.A l) xs, hxs, sub_sub]
    have hzc : D.A (l + 1) (z - c) = D.R l (D.A l (xs - x₁ - D.P l c)) := by
      rw [map_sub, hz, h.galerkin l hl c, map_sub (D.A l) _ (D.P l c), map_sub (D.R l)]
    have hstep := hG l hl (xs - x₁ - D.P l c) (z - c) hzc
    have hT : xs - x₁ - D.P l c - D.P l (z - c) = xs - x₁ - D.P l z := by
      rw [map_sub]; abel
    rw [hT] at hstep
    have e1 := correction_energy h l hl (xs - x₁) z c hz
    have e2 := correction_energy h l hl (xs - x₁) z z hz
    have e0 : energy D φ (l + 1) (z - z) = 0 := by
      rw [sub_self]; unfold energy; simp
    rw [e0] at e2
    rw [hrich]
    rw [e1, e2] at hstep
    have := mul_le_mul_of_nonneg_left hpre (sub_nonneg.2 h1)
    nlinarith

/-! ### Cauchy-Schwarz in the energy -/

theorem energy_cauchy {D : Data K V} {φ : Forms K V} {L : ℕ} (h : GalerkinChain D φ L) (l : ℕ) (hl : l < L)
    (u v : V l) : φ l (D.A l u) v * φ l (D.A l u) v ≤ energy D φ l u * energy D φ l v := by
  have hs : φ l (D.A l v) u = φ l (D.A l u) v := by rw [h.A l hl, h.form]
  have key : ∀ s t : K, 0 ≤ s * s * energy D φ l u - 2 * (s * t) * φ l (D.A l u) v
      + t * t * energy D φ l v := by
    intro s t
    have := h.psd l hl (s • u - t • v)
    have e : energy D φ l (s • u - t • v) = s * s * energy D φ l u - 2 * (s * t) * φ l (D.A l u) v
        + t * t * energy D φ l v := by
      unfold energy
      simp only [map_sub, map_smul, LinearMap.sub_apply, LinearMap.smul_apply, smul_eq_mul, hs]
      ring
    rw [e] at this
    exact this
  have hu := h.psd l hl u
  have hv := h.psd l hl v
  set a := energy D φ l u
  set c := energy D φ l v
  set b := φ l (D.A l u) v
  rcases hv.lt_or_eq with hc | hc
  · have := key c b
    have h2 : 0 ≤ c * (a * c - b * b) := by nlinarith
    have := (mul_nonneg_iff_of_pos_left hc).1 h2
    linarith
  · have hc' : c = 0 := hc.symm
    by_contra hne
    rw [not_le, hc', mul_zero] at hne
    have hb : b ≠ 0 := by
      rintro hb
      rw [hb, mul_zero] at hne
      exact lt_irrefl _ hne
    have := key 1 ((a + 1) / (2 * b))
    rw [hc', mul_zero, add_zero] at this
    have h3 : 2 * (1 * ((a + 1) / (2 * b))) * b = a + 1 := by field_simp
    rw [h3] at this
    linarith

/-! ### Smoothing on the errors orthogonal to the coarse vectors only -/

/-- The lower bound of the preconditioner. -/
theorem M_lower {D : Data K V} {φ : Forms K V} {L : ℕ} (h : GalerkinChain D φ L) (hs : Symmetric D φ L)
    (hc : ∀ l, l + 1 < L → SmootherConvergent D φ l) {δ : K} (h0 : 0 ≤ δ) (h1 : δ ≤ 1) (n : ℕ)
    (hG : ∀ l, l + 1 < L → ∀ w, D.R l (D.A l w) = 0 →
      energy D φ l ((S D l ^ n) w) ≤ (1 - δ) * energy D φ l w) (d l : ℕ) (hd : l + d + 1 = L) (x : V l) :
    δ ^ d * energy D φ l x ≤ φ l (M D n d l (D.A l x)) (D.A l x) := by
  induction d generalizing l with
  | zero =>
    rw [pow_zero, one_mul]
    apply le_of_eq
    change _ = φ l (D.C l (D.A l x)) (D.A l x)
    rw [energy, ← hs.A l (by omega), h.exact l (by omega)]
  | succ d ih =>
    have hl : l + 1 < L := by omega
    have hsm : D.A l x - D.A l (G D l n (D.A l x)) = D.A l ((S D l ^ n) x) := by
      rw [S_pow_apply, map_sub]
    rw [correction_form hs n d l hl, hsm]
    obtain ⟨z, hz⟩ := h.solvable l hl ((S D l ^ n) x)
    have hcoarse := ih (l + 1) (by omega) z
    rw [hz] at hcoarse
    have hGn : 0 ≤ φ l (G D l (n + n) (D.A l x)) (D.A l x) := G_nonneg hs l n hl (hc l hl) _
    have hGe : φ l (G D l (n + n) (D.A l x)) (D.A l x)
        = energy D φ l x - energy D φ l ((S D l ^ n) x) := by
      have e1 := S_pow_energy hs l n hl x ((S D l ^ n) x)
      have e2 : (S D l ^ n) ((S D l ^ n) x) = x - G D l (n + n) (D.A l x) := by
        rw [← S_pow_apply, pow_add, Module.End.mul_apply]
      rw [energy, energy, e1, e2, map_sub, hs.form l (D.A l x) (G D l (n + n) (D.A l x))]
      ring
    have hw : D.R l (D.A l ((S D l ^ n) x - D.P l z)) = 0 := by
      rw [map_sub, map_sub, ← hz, h.galerkin l hl, sub_self]
    have hwe := correction_energy h l hl ((S D l ^ n) x) z z hz
    have e0 : energy D φ (l + 1) (z - z) = 0 := by
      rw [sub_self]; unfold energy; simp
    rw [e0, add_zero] at hwe
    set w := (S D l ^ n) x - D.P l z with hwdef
    have hself : energy D φ l w = φ l (D.A l ((S D l ^ n) w)) x := by
      rw [S_pow_energy hs l n hl]
      have : φ l (D.A l w) (D.P l z) = 0 := by
        rw [← hs.RP l hl, hw]; simp
      rw [energy]
      conv_lhs => rw [show φ l (D.A l w) w = φ l (D.A l w) ((S D l ^ n) x) - φ l (D.A l w) (D.P l z) by
        rw [← map_sub]]
      rw [this, sub_zero]
    have hcs := energy_cauchy h l (by omega) ((S D l ^ n) w) x
    rw [← hself] at hcs
    have hsw := hG l hl w hw
    have hw0 := h.psd l (by omega) w
    have hx0 := h.psd l (by omega) x
    have hz0 := h.psd (l + 1) hl z
    have hwx : energy D φ l w ≤ (1 - δ) * energy D φ l x := by
      have h3 : energy D φ l w * energy D φ l w ≤ (1 - δ) * energy D φ l w * energy D φ l x :=
        hcs.trans (mul_le_mul_of_nonneg_right hsw hx0)
      rcases hw0.lt_or_eq with hp | hp
      · apply le_of_mul_le_mul_right _ hp
        linarith
      · rw [← hp]
        exact mul_nonneg (sub_nonneg.2 h1) hx0
    have hp0 : 0 ≤ δ ^ d := pow_nonneg h0 d
    have hp1 : δ ^ d ≤ 1 := pow_le_one₀ h0 h1
    rw [hGe] at hGn ⊢
    have h4 : δ ^ d * (energy D φ l x - energy D φ l ((S D l ^ n) x))
        ≤ energy D φ l x - energy D φ l ((S D l ^ n) x) := by
      have := mul_le_mul_of_nonneg_right hp1 hGn
      rwa [one_mul] at this
    have h5 : δ ^ (d + 1) * energy D φ l x ≤ δ ^ d * (energy D φ l x - energy D φ l w) := by
      rw [pow_succ, mul_assoc]
      apply mul_le_mul_of_nonneg_left _ hp0
      linarith
    rw [hwe] at h5
    linarith

end

end Mfmg
