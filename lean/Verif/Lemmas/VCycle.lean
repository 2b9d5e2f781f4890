import Verif.Lemmas.Hierarchy
import Verif.Spec.Energy
import Mathlib.Tactic.Linarith
import Mathlib.Tactic.Ring

set_option autoImplicit false
set_option linter.unusedSectionVars false

namespace Mfmg.Spec

variable {K : Type} [Field K] {V : ℕ → Type} [∀ l, AddCommGroup (V l)] [∀ l, Module K (V l)]
variable (D : Data K V)

theorem G_comm (l n : ℕ) (x : V l) :
    G D l n (D.A l (D.B l x)) = D.B l (D.A l (G D l n x)) := by
  induction n with
  | zero => simp [G]
  | succ n ih =>
    simp only [G, S, LinearMap.add_apply, LinearMap.comp_apply, LinearMap.sub_apply,
      Module.End.one_apply, map_add, map_sub, ih]

theorem G_succ' (l n : ℕ) (x : V l) :
    G D l (n + 1) x = G D l n (x - D.A l (D.B l x)) + D.B l x := by
  simp only [G, S, LinearMap.add_apply, LinearMap.comp_apply, LinearMap.sub_apply,
      Module.End.one_apply, map_sub, G_comm]

theorem G_add (l m n : ℕ) (x : V l) :
    G D l (m + n) x = (S D l ^ m) (G D l n x) + G D l m x := by
  induction m with
  | zero => simp [G]
  | succ m ih =>
    rw [Nat.succ_add, pow_succ']
    simp only [G, LinearMap.add_apply, LinearMap.comp_apply, ih, Module.End.mul_apply, map_add]
    abel

theorem M_succ (n d l : ℕ) (b : V l) :
    M D n (d + 1) l b = G D l (n + n) b +
      (S D l ^ n) (D.P l (M D n d (l + 1) (D.R l (b - D.A l (G D l n b))))) := by
  simp only [M, G_add, LinearMap.add_apply, LinearMap.comp_apply, LinearMap.sub_apply,
      Module.End.one_apply, map_add]
  abel

/-- `A E = A (I - M A)` in factored form. -/
theorem error_succ (n d l : ℕ) (x : V l) :
    x - M D n (d + 1) l (D.A l x) =
      (S D l ^ n) ((S D l ^ n) x - D.P l (M D n d (l + 1) (D.R l (D.A l ((S D l ^ n) x))))) := by
  rw [M_succ, G_add, S_pow_apply D l n x]
  simp only [map_sub]
  rw [S_pow_apply D l n x, S_pow_apply D l n (G D l n (D.A l x))]
  abel

variable {D} {φ : Forms K V} {L : ℕ} (hs : Symmetric D φ L)
include hs

theorem G_selfAdjoint (l n : ℕ) (hl : l + 1 < L) (x y : V l) :
    φ l (G D l n x) y = φ l x (G D l n y) := by
  induction n generalizing x y with
  | zero => simp [G]
  | succ n ih =>
    rw [G_succ' D l n y]
    simp only [G, S, LinearMap.add_apply, LinearMap.comp_apply, LinearMap.sub_apply,
      Module.End.one_apply, map_add, map_sub, hs.B l hl, hs.A l (by omega), ih]

theorem S_pow_adjoint (l n : ℕ) (hl : l + 1 < L) (x y : V l) :
    φ l ((S D l ^ n) x) y = φ l x (y - D.A l (G D l n y)) := by
  rw [S_pow_apply]
  simp only [map_sub, LinearMap.sub_apply, G_selfAdjoint hs l n hl, hs.A l (by omega)]

theorem M_selfAdjoint (n d l : ℕ) (hd : l + d + 1 = L) (x y : V l) :
    φ l (M D n d l x) y = φ l x (M D n d l y) := by
  induction d generalizing l with
  | zero => exact hs.C l (by omega) x y
  | succ d ih =>
    have hl : l + 1 < L := by omega
    have hswap := S_pow_adjoint hs l n hl
      (D.P l (M D n d (l + 1) (D.R l (y - D.A l (G D l n y))))) x
    rw [hs.form] at hswap
    rw [M_succ, M_succ, map_add, map_add, LinearMap.add_apply, G_selfAdjoint hs l _ hl,
      S_pow_adjoint hs l n hl, hswap, hs.form l (D.P l _) _, ← hs.RP l hl,
      hs.form l (D.P l _) _, ← hs.RP l hl, hs.form (l + 1) _ (M D n d (l + 1) _),
      ih (l + 1) (by omega)]

/-- Smoothing is self-adjoint in the energy product. -/
theorem S_pow_energy (l n : ℕ) (hl : l + 1 < L) (x y : V l) :
    φ l (D.A l ((S D l ^ n) x)) y = φ l (D.A l x) ((S D l ^ n) y) := by
  rw [S_pow_apply, S_pow_apply]
  simp only [map_sub, LinearMap.sub_apply, G_selfAdjoint hs l n hl, hs.A l (by omega)]

variable [LinearOrder K] [IsStrictOrderedRing K]

omit hs in
theorem G_two (l n : ℕ) (x : V l) :
    G D l (n + 1 + (n + 1)) x =
      S D l (G D l (n + n) (x - D.A l (D.B l x))) +
        (2 • D.B l x - D.B l (D.A l (D.B l x))) := by
  rw [show n + 1 + (n + 1) = (n + n + 1) + 1 by ring]
  rw [show G D l (n + n + 1 + 1) x = S D l (G D l (n + n + 1) x) + D.B l x from rfl, G_succ']
  simp only [S, LinearMap.sub_apply, map_add, map_sub, Module.End.one_apply,
    LinearMap.comp_apply, two_smul]
  abel

theorem S_adjoint (l : ℕ) (hl : l + 1 < L) (x y : V l) :
    φ l (S D l x) y = φ l x (y - D.A l (D.B l y)) := by
  have := S_pow_adjoint hs l 1 hl x y
  rw [pow_one] at this
  simpa [G] using this

theorem G_nonneg (l n : ℕ) (hl : l + 1 < L) (hc : SmootherConvergent D φ l) (x : V l) :
    0 ≤ φ l (G D l (n + n) x) x := by
  induction n generalizing x with
  | zero => simp [G]
  | succ n ih =>
    rw [G_two, map_add, LinearMap.add_apply, S_adjoint hs l hl]
    exact add_nonneg (ih _) (hc x)

theorem G_pos (l n : ℕ) (hl : l + 1 < L) (hn : 0 < n)
    (hc : SmootherStrictlyConvergent D φ l) (x : V l) (hx : x ≠ 0) :
    0 < φ l (G D l (n + n) x) x := by
  have hc' : SmootherConvergent D φ l := by
    intro y
    by_cases hy : y = 0
    · simp [hy]
    · exact (hc y hy).le
  obtain ⟨m, rfl⟩ : ∃ m, n = m + 1 := ⟨n - 1, by omega⟩
  rw [G_two, map_add, LinearMap.add_apply, S_adjoint hs l hl]
  exact add_pos_of_nonneg_of_pos (G_nonneg hs l m hl hc' _) (hc x hx)

theorem correction_form (n d l : ℕ) (hl : l + 1 < L) (b : V l) :
    φ l (M D n (d + 1) l b) b = φ l (G D l (n + n) b) b +
      φ (l + 1) (M D n d (l + 1) (D.R l (b - D.A l (G D l n b))))
        (D.R l (b - D.A l (G D l n b))) := by
  rw [M_succ, map_add, LinearMap.add_apply, S_pow_adjoint hs l n hl, hs.form l (D.P l _) _,
    ← hs.RP l hl, hs.form (l + 1) _ (M D n d (l + 1) _)]

theorem M_nonneg (n d l : ℕ) (hd : l + d + 1 = L)
    (hc : ∀ l, l + 1 < L → SmootherConvergent D φ l)
    (hC : ∀ l, l + 1 = L → ∀ x, 0 ≤ φ l (D.C l x) x) (x : V l) :
    0 ≤ φ l (M D n d l x) x := by
  induction d generalizing l with
  | zero => exact hC l (by omega) x
  | succ d ih =>
    rw [correction_form hs n d l (by omega)]
    exact add_nonneg (G_nonneg hs l n (by omega) (hc l (by omega)) x) (ih (l + 1) (by omega) _)

theorem M_pos (n d l : ℕ) (hd : l + d + 1 = L) (hn : 0 < n)
    (hc : ∀ l, l + 1 < L → SmootherStrictlyConvergent D φ l)
    (hC : ∀ l, l + 1 = L → ∀ x, x ≠ 0 → 0 < φ l (D.C l x) x) (x : V l) (hx : x ≠ 0) :
    0 < φ l (M D n d l x) x := by
  cases d with
  | zero => exact hC l (by omega) x hx
  | succ d =>
    rw [correction_form hs n d l (by omega)]
    refine add_pos_of_pos_of_nonneg (G_pos hs l n (by omega) hn (hc l (by omega)) x hx) ?_
    refine M_nonneg hs n d (l + 1) (by omega) (fun l hl y => ?_) (fun l hl y => ?_) _
    · by_cases hy : y = 0
      · simp [hy]
      · exact (hc l hl y hy).le
    · by_cases hy : y = 0
      · simp [hy]
      · exact (hC l hl y hy).le

variable (hv : Variational D φ L)
include hv

theorem energy_coarse (l : ℕ) (hl : l + 1 < L) (z : V (l + 1)) :
    energy D φ (l + 1) z = energy D φ l (D.P l z) := by
  rw [energy, energy, hv.galerkin l hl, hs.RP l hl]

theorem energy_nonneg (l : ℕ) (hl : l < L) (x : V l) : 0 ≤ energy D φ l x := by
  induction l with
  | zero => exact hv.psd x
  | succ l ih => rw [energy_coarse hs hv l hl]; exact ih (by omega) _

/-- The coarse energy of the coarse solution is at most the fine energy. -/
theorem coarse_energy_le (l : ℕ) (hl : l + 1 < L) (y : V l) (z : V (l + 1))
    (hz : D.A (l + 1) z = D.R l (D.A l y)) : energy D φ (l + 1) z ≤ energy D φ l y := by
  have h1 : energy D φ (l + 1) z = φ l (D.A l y) (D.P l z) := by
    rw [energy, hz, hs.RP l hl]
  have h2 := energy_coarse hs hv l hl z
  have h3 := energy_nonneg hs hv l (by omega) (y - D.P l z)
  have h4 : energy D φ l (y - D.P l z) =
      energy D φ l y - φ l (D.A l y) (D.P l z) - φ l (D.A l (D.P l z)) y
        + energy D φ l (D.P l z) := by
    simp only [energy, map_sub, LinearMap.sub_apply]; ring
  have h5 : φ l (D.A l (D.P l z)) y = φ l (D.A l y) (D.P l z) := by
    rw [hs.form, hs.A l (by omega)]
  rw [h4, h5, ← h2, h1] at h3
  rw [h1]
  linarith

theorem M_upper (n d l : ℕ) (hd : l + d + 1 = L) (x : V l) :
    φ l (M D n d l (D.A l x)) (D.A l x) ≤ energy D φ l x := by
  induction d generalizing l with
  | zero => exact hv.coarse l (by omega) x
  | succ d ih =>
    have hl : l + 1 < L := by omega
    obtain ⟨z, hz⟩ := hv.solvable l hl ((S D l ^ n) x)
    have h1 := ih (l + 1) (by omega) z
    have h2 := coarse_energy_le hs hv l hl _ z hz
    have h3 : φ l (M D n (d + 1) l (D.A l x)) (D.A l x) =
        energy D φ l x - φ l (D.A l (x - M D n (d + 1) l (D.A l x))) x := by
      simp only [energy, map_sub, LinearMap.sub_apply, hs.A l (show l < L by omega)]; ring
    have h4 : φ l (D.A l (x - M D n (d + 1) l (D.A l x))) x =
        energy D φ l ((S D l ^ n) x) -
          φ (l + 1) (M D n d (l + 1) (D.A (l + 1) z)) (D.A (l + 1) z) := by
      rw [error_succ, S_pow_energy hs l n hl, hz]
      simp only [energy, map_sub, LinearMap.sub_apply]
      rw [hs.A l (by omega) (D.P l _), hs.form l (D.P l _) _, ← hs.RP l hl,
        hs.form (l + 1) _ (M D n d (l + 1) _)]
    rw [h3, h4]
    linarith

/-- Energy of the error after a cycle, without strictness. -/
theorem energy_error_le_aux (n d l : ℕ) (hd : l + d + 1 = L) (x : V l)
    (hM : ∀ r, 0 ≤ φ l (M D n d l r) r) :
    energy D φ l (x - M D n d l (D.A l x)) ≤
      energy D φ l x - φ l (M D n d l (D.A l x)) (D.A l x) := by
  -- with E = I - M A and a = A-form: a(Ex,Ex) = a(Ex,x) - a(Ex, MAx)
  set e := x - M D n d l (D.A l x) with he
  set m := M D n d l (D.A l x) with hm
  have hl : l < L := by omega
  have hx : x = e + m := by rw [he]; abel
  -- a(E (I-E) x, x) >= 0 split into the two squares
  have key1 : 0 ≤ φ l (D.A l (M D n d l (D.A l e))) e := by
    rw [hs.A l hl]; exact hM _
  have up := M_upper hs hv n d l hd m
  have hMe : M D n d l (D.A l e) + M D n d l (D.A l m) = m := by
    rw [← map_add, ← map_add, ← hx]
  have hsa : φ l (D.A l m) e = φ l (D.A l e) m := by rw [hs.form, hs.A l hl]
  -- a(m, e) = a(MA e, e) + a(MA m, e)
  have e1 : φ l (D.A l m) e = φ l (D.A l (M D n d l (D.A l e))) e
      + φ l (D.A l (M D n d l (D.A l m))) e := by
    rw [← LinearMap.add_apply, ← map_add, ← map_add, hMe]
  have e2 : φ l (D.A l (M D n d l (D.A l m))) e = φ l (D.A l m) (M D n d l (D.A l e)) := by
    rw [hs.A l hl, M_selfAdjoint hs n d l hd]
  have e3 : φ l (D.A l m) (M D n d l (D.A l e)) =
      energy D φ l m - φ l (M D n d l (D.A l m)) (D.A l m) := by
    have : M D n d l (D.A l e) = m - M D n d l (D.A l m) := eq_sub_of_add_eq hMe
    rw [this, map_sub, energy, hs.form l (M D n d l _) _]
  have key : 0 ≤ φ l (D.A l m) e := by rw [e1, e2, e3]; linarith
  have q1 : energy D φ l e = energy D φ l x - φ l (D.A l m) x - φ l (D.A l m) e := by
    conv_rhs => rw [hx]
    simp only [energy, map_add, LinearMap.add_apply, hsa]; ring
  have q2 : φ l (D.A l m) x = φ l m (D.A l x) := hs.A l hl _ _
  rw [q1, q2]
  linarith

end Mfmg.Spec
