import Verif.Spec.Energy
import Verif.Props.Cycle
import Mathlib.Tactic.LinearCombination
import Mathlib.Tactic.Linarith

/-!
# The V-cycle does not increase the energy of the error if the smoothers do not

No symmetry of the smoothers is needed.
-/

set_option autoImplicit false

namespace Mfmg

open Spec

variable {K : Type} [Field K] [LinearOrder K] [IsStrictOrderedRing K] {V : ℕ → Type}
  [∀ l, AddCommGroup (V l)] [∀ l, Module K (V l)]

/-- Energy-symmetric Galerkin hierarchy with an exact coarse solver. -/
structure GalerkinChain (D : Data K V) (φ : Forms K V) (L : ℕ) : Prop where
  form : ∀ l x y, φ l x y = φ l y x
  A : ∀ l < L, ∀ x y, φ l (D.A l x) y = φ l x (D.A l y)
  RP : ∀ l, l + 1 < L → ∀ x y, φ (l + 1) (D.R l x) y = φ l x (D.P l y)
  galerkin : ∀ l, l + 1 < L → ∀ x, D.A (l + 1) x = D.R l (D.A l (D.P l x))
  psd : ∀ l < L, ∀ x, 0 ≤ energy D φ l x
  solvable : ∀ l, l + 1 < L → ∀ y, ∃ z, D.A (l + 1) z = D.R l (D.A l y)
  exact : ∀ l, l + 1 = L → ∀ z, D.A l (D.C l (D.A l z)) = D.A l z

omit [IsStrictOrderedRing K] in
theorem smooth_energy {D : Data K V} {φ : Forms K V} {l : ℕ}
    (hB : ∀ e, energy D φ l (e - D.B l (D.A l e)) ≤ energy D φ l e) (b xs : V l)
    (hxs : D.A l xs = b) (n : ℕ) (x : V l) :
    energy D φ l (xs - (richardson D l b)^[n] x) ≤ energy D φ l (xs - x) := by
  induction n generalizing x with
  | zero => exact le_refl _
  | succ n ih =>
    rw [Function.iterate_succ_apply]
    refine (ih _).trans ?_
    have : xs - richardson D l b x = (xs - x) - D.B l (D.A l (xs - x)) := by
      rw [richardson, map_sub (D.A l), hxs, sub_sub]
    rw [this]
    exact hB _

omit [IsStrictOrderedRing K] in
theorem smooth_energy_lt {D : Data K V} {φ : Forms K V} {l : ℕ}
    (hB : ∀ e, energy D φ l (e - D.B l (D.A l e)) ≤ energy D φ l e)
    (hS : ∀ e, D.A l e ≠ 0 → energy D φ l (e - D.B l (D.A l e)) < energy D φ l e) (b xs : V l)
    (hxs : D.A l xs = b) (n : ℕ) (hn : 0 < n) (x : V l) (hx : D.A l x ≠ b) :
    energy D φ l (xs - (richardson D l b)^[n] x) < energy D φ l (xs - x) := by
  obtain ⟨m, rfl⟩ : ∃ m, n = m + 1 := ⟨n - 1, by omega⟩
  rw [Function.iterate_succ_apply]
  refine (smooth_energy hB b xs hxs m _).trans_lt ?_
  have : xs - richardson D l b x = (xs - x) - D.B l (D.A l (xs - x)) := by
    rw [richardson, map_sub (D.A l), hxs, sub_sub]
  rw [this]
  apply hS
  rw [map_sub, hxs]
  exact sub_ne_zero.2 (Ne.symm hx)

omit [IsStrictOrderedRing K] in
theorem correction_energy {D : Data K V} {φ : Forms K V} {L : ℕ} (h : GalerkinChain D φ L) (l : ℕ)
    (hl : l + 1 < L) (e : V l) (z c : V (l + 1)) (hz : D.A (l + 1) z = D.R l (D.A l e)) :
    energy D φ l (e - D.P l c)
      = energy D φ l e + energy D φ (l + 1) (z - c) - energy D φ (l + 1) z := by
  have h1 : φ l (D.A l e) (D.P l c) = φ (l + 1) (D.A (l + 1) z) c := by rw [hz, h.RP l hl]
  have h2 : φ l (D.A l (D.P l c)) e = φ (l + 1) (D.A (l + 1) z) c := by
    rw [h.A l (by omega), h.form, h1]
  have h3 : φ l (D.A l (D.P l c)) (D.P l c) = φ (l + 1) (D.A (l + 1) c) c := by
    rw [h.galerkin l hl, h.RP l hl]
  have h4 : φ (l + 1) (D.A (l + 1) c) z = φ (l + 1) (D.A (l + 1) z) c := by
    rw [h.A (l + 1) hl, h.form]
  unfold energy
  simp only [map_sub, LinearMap.sub_apply]
  rw [h1, h2, h3, h4]
  ring

theorem cycle_energy {D : Data K V} {φ : Forms K V} {L : ℕ} (h : GalerkinChain D φ L)
    (hB : ∀ l, l + 1 < L → ∀ e, energy D φ l (e - D.B l (D.A l e)) ≤ energy D φ l e) (n : ℕ)
    (d l : ℕ) (hd : l + d + 1 = L) (b x xs : V l) (hxs : D.A l xs = b) :
    energy D φ l (xs - cycle D n d l b x) ≤ energy D φ l (xs - x) := by
  induction d generalizing l with
  | zero =>
    have h0 : energy D φ l (xs - D.C l b) = 0 := by
      unfold energy
      rw [map_sub (D.A l), ← hxs, h.exact l (by omega), sub_self]
      simp
    change energy D φ l (xs - D.C l b) ≤ _
    rw [h0]
    exact h.psd l (by omega) _
  | succ d ih =>
    have hl : l + 1 < L := by omega
    simp only [cycle]
    refine (smooth_energy (hB l hl) b xs hxs n _).trans ?_
    refine le_trans ?_ (smooth_energy (hB l hl) b xs hxs n x)
    set x₁ := (richardson D l b)^[n] x
    obtain ⟨z, hz⟩ := h.solvable l hl (xs - x₁)
    have hr : b - D.A l x₁ = D.A l (xs - x₁) := by rw [map_sub, hxs]
    have hc := ih (l + 1) (by omega) (D.R l (D.A l (xs - x₁))) 0 z hz
    rw [sub_zero] at hc
    rw [hr, ← sub_sub, correction_energy h l hl _ z _ hz]
    linarith

theorem cycle_energy_lt {D : Data K V} {φ : Forms K V} {L : ℕ} (h : GalerkinChain D φ L)
    (hB : ∀ l, l + 1 < L → ∀ e, energy D φ l (e - D.B l (D.A l e)) ≤ energy D φ l e) (n : ℕ)
    (hn : 0 < n) (d l : ℕ) (hd : l + d + 1 = L) (hd0 : 0 < d)
    (hS : ∀ e, D.A l e ≠ 0 → energy D φ l (e - D.B l (D.A l e)) < energy D φ l e)
    (b x xs : V l) (hxs : D.A l xs = b) (hx : D.A l x ≠ b) :
    energy D φ l (xs - cycle D n d l b x) < energy D φ l (xs - x) := by
  obtain ⟨d, rfl⟩ : ∃ k, d = k + 1 := ⟨d - 1, by omega⟩
  have hl : l + 1 < L := by omega
  simp only [cycle]
  refine (smooth_energy (hB l hl) b xs hxs n _).trans_lt ?_
  refine lt_of_le_of_lt ?_ (smooth_energy_lt (hB l hl) hS b xs hxs n hn x hx)
  set x₁ := (richardson D l b)^[n] x
  obtain ⟨z, hz⟩ := h.solvable l hl (xs - x₁)
  have hr : b - D.A l x₁ = D.A l (xs - x₁) := by rw [map_sub, hxs]
  have hc := cycle_energy h hB n d (l + 1) (by omega) (D.R l (D.A l (xs - x₁))) 0 z hz
  rw [sub_zero] at hc
  rw [hr, ← sub_sub, correction_energy h l hl _ z _ hz]
  linarith

end Mfmg
