import Verif.Lemmas.MultiLevel
import Verif.Examples.Pairs

/-!
# The rate of convergence with any number of levels (C84)
-/

set_option autoImplicit false

namespace Mfmg

open Spec

section

variable {K : Type} [Field K] [LinearOrder K] [IsStrictOrderedRing K]

theorem relax_smoothing {n : ℕ} {kind : Relaxation} (hk : IsSweep kind) {A : Matrix (Fin n) (Fin n) K}
    (hA : IsSpd A) {own : List (Fin n)} (hown : ListsAll own) {s : ℕ} (hs : AtMostPerRow A s)
    (e : Fin n → K) :
    ∑ i, A.mulVec e i * A.mulVec e i / A i i
      ≤ (s : K) * s * (energyOf A e - energyOf A ((sweepRows kind own).foldl (errRow A) e)) := by
  have h1 := sweep_smoothing hA hown hs e
  cases kind
  · refine h1.trans (mul_le_mul_of_nonneg_left ?_ (mul_nonneg (Nat.cast_nonneg _) (Nat.cast_nonneg _)))
    apply sub_le_sub_left
    rw [sweepRows, List.foldl_append]
    exact (energy_sweep hA own.reverse _).1
  · exact h1
  · exact absurd rfl hk

variable {dims : ℕ → ℕ} {own : ∀ l, List (Fin (dims l))} (hown : ∀ l, ListsAll (own l))
  {A : Matrix (Fin (dims 0)) (Fin (dims 0)) K} (hA : IsSpd A)
  {R : ∀ l, Matrix (Fin (dims (l + 1))) (Fin (dims l)) K} (hR : ∀ l, IndependentRows (R l))

include hown hA hR

theorem strong_cycle_rate {kind : Relaxation} (hsw : IsSweep kind) {L s : ℕ} {kappa : K} (hk : 0 < kappa)
    (hone : 1 ≤ (s : K) * s * kappa)
    (hs : ∀ l, l + 1 < L → AtMostPerRow (coarseMatrix dims A R l) s)
    (happrox : ∀ l, l + 1 < L → StronglyApproximates (R l) (coarseMatrix dims A R l) kappa)
    (n : ℕ) (hn : 0 < n) (hL : 0 < L) (b x xs : Fin (dims 0) → K) (hxs : A.mulVec xs = b) :
    energyOf A (xs - cycle (matrixData kind dims (fun l => [own l]) A R) n (L - 1) 0 b x)
      ≤ (1 - 1 / ((s : K) * s * kappa)) * energyOf A (xs - x) := by
  set D := matrixData kind dims (fun l => [own l]) A R with hD
  have hen : ∀ l (e : Fin (dims l) → K), energy D (fun l => dotForm (dims l)) l e
      = energyOf (coarseMatrix dims A R l) e := fun l e =>
    dotProduct_comm ((coarseMatrix dims A R l).mulVec e) e
  have hchain := matrixData_chain kind dims (fun l => [own l]) A hA R hR L
  have hspd := coarseMatrix_spd dims A hA R hR
  have herr : ∀ l (e : Fin (dims l) → K), e - D.B l (D.A l e)
      = (sweepRows kind (own l)).foldl (errRow (coarseMatrix dims A R l)) e :=
    fun l e => err_relax hsw (coarseMatrix dims A R l) (hown l) e
  have hpos : 0 < (s : K) * s * kappa := by linarith
  have hmain := cycle_rate (δ := 1 / ((s : K) * s * kappa)) hchain (by
      intro l _ e
      rw [← hD, herr, hen, hen]
      exact (energy_sweep (hspd l) _ e).1) (by rw [div_le_one hpos]; exact hone) (by
      intro l hl e z hz
      rw [← hD] at hz ⊢
      obtain ⟨y, hy⟩ := happrox l hl e
      have e1 := correction_energy hchain l hl e z z hz
      have e2 := correction_energy hchain l hl e z y hz
      have h0 : energy D (fun l => dotForm (dims l)) (l + 1) (z - z) = 0 := by
        rw [sub_self]; unfold energy; simp
      have h3 : 0 ≤ energy D (fun l => dotForm (dims l)) (l + 1) (z - y) := hchain.psd (l + 1) hl (z - y)
      rw [← hD] at e1 e2
      rw [h0] at e1
      have h4 : energy D (fun l => dotForm (dims l)) l (e - D.P l z)
          ≤ energy D (fun l => dotForm (dims l)) l (e - D.P l y) := by linarith
      rw [hen l (e - D.P l y)] at h4
      have h5 := h4.trans hy
      have h6 := relax_smoothing hsw (hspd l) (hown l) (hs l hl) e
      have h7 := h5.trans (mul_le_mul_of_nonneg_left h6 hk.le)
      rw [herr, hen, hen l e]
      set a := energyOf (coarseMatrix dims A R l) e
      set c := energyOf (coarseMatrix dims A R l)
        ((sweepRows kind (own l)).foldl (errRow (coarseMatrix dims A R l)) e)
      have h8 : 1 / ((s : K) * s * kappa) * energy D (fun l => dotForm (dims l)) l (e - D.P l z) ≤ a - c := by
        rw [one_div, inv_mul_le_iff₀ hpos]
        refine h7.trans (le_of_eq ?_)
        ring
      linarith) n hn (L - 1) 0 (by omega) b x xs hxs
  rw [← hD, hen, hen] at hmain
  exact hmain

omit hown in
theorem strong_lower {kind : Relaxation} {procs : ∀ l, List (List (Fin (dims l)))} {L : ℕ} {δ : K} (h1 : δ ≤ 1) (n : ℕ) (hL : 0 < L)
    (u : Fin (dims 0) → K)
    (hrate : energyOf A (u - cycle (matrixData kind dims procs A R) n (L - 1) 0 (A.mulVec u) 0)
      ≤ (1 - δ) * energyOf A u) :
    δ / 2 * energyOf A u
      ≤ A.mulVec u ⬝ᵥ cycle (matrixData kind dims procs A R) n (L - 1) 0 (A.mulVec u) 0 := by
  set D := matrixData kind dims procs A R with hD
  have hen : ∀ l (e : Fin (dims l) → K), energy D (fun l => dotForm (dims l)) l e
      = energyOf (coarseMatrix dims A R l) e := fun l e =>
    dotProduct_comm ((coarseMatrix dims A R l).mulVec e) e
  have hchain := matrixData_chain kind dims procs A hA R hR L
  set y := cycle D n (L - 1) 0 (A.mulVec u) 0 with hy
  have hcs := energy_cauchy hchain 0 hL (u - y) u
  rw [← hD, hen, hen] at hcs
  have hu0 : 0 ≤ energyOf A u := by
    have := hchain.psd 0 hL u
    rw [← hD, hen] at this
    exact this
  have hcs' : (A.mulVec (u - y) ⬝ᵥ u) * (A.mulVec (u - y) ⬝ᵥ u) ≤ energyOf A (u - y) * energyOf A u := hcs
  have hb : A.mulVec (u - y) ⬝ᵥ u = energyOf A u - A.mulVec u ⬝ᵥ y := by
    have : A.mulVec (u - y) ⬝ᵥ u = (u - y) ⬝ᵥ A.mulVec u := by
      rw [dotProduct_comm, form_symm hA.1]
    rw [this, sub_dotProduct, dotProduct_comm y]
    rfl
  rw [hb] at hcs'
  set a := energyOf A u
  set c := A.mulVec u ⬝ᵥ y
  have hle : (a - c) * (a - c) ≤ (1 - δ) * a * a :=
    hcs'.trans (mul_le_mul_of_nonneg_right hrate hu0)
  by_contra hne
  rw [not_le] at hne
  have hpos : 0 < a := by
    rcases hu0.lt_or_eq with h | h
    · exact h
    · exfalso
      rw [← h] at hle hne
      have : c * c ≤ 0 := by linarith
      have : c = 0 := by
        have := le_antisymm this (mul_self_nonneg c)
        exact mul_self_eq_zero.1 this
      rw [this, mul_zero] at hne
      exact lt_irrefl _ hne
  have h3 : (1 - δ / 2) * a < a - c := by linarith
  have h4 : 0 ≤ (1 - δ / 2) * a := mul_nonneg (by linarith) hu0
  have h5 : ((1 - δ / 2) * a) * ((1 - δ / 2) * a) < (a - c) * (a - c) := mul_self_lt_mul_self h4 h3
  have h6 : (1 - δ) * a * a ≤ ((1 - δ / 2) * a) * ((1 - δ / 2) * a) := by
    nlinarith [mul_self_nonneg (δ * a)]
  linarith

omit [IsStrictOrderedRing K] in
theorem matrixData_symmetric (L : ℕ) : Symmetric
    (matrixData .symmetricGaussSeidel dims (fun l => [own l]) A R) (fun l => dotForm (dims l)) L := by
  have hchain := matrixData_chain .symmetricGaussSeidel dims (fun l => [own l]) A hA R hR L
  have hspd := coarseMatrix_spd dims A hA R hR
  refine ⟨hchain.form, hchain.A, ?_, hchain.RP, ?_⟩
  · intro l _ x y
    exact C75_symmetric (own l) (hown l) _ (hspd l) x y
  · intro l _ x y
    have hi : ((coarseMatrix dims A R l)⁻¹).transpose = (coarseMatrix dims A R l)⁻¹ := by
      rw [Matrix.transpose_nonsing_inv, (hspd l).1]
    change (coarseMatrix dims A R l)⁻¹.mulVec x ⬝ᵥ y = x ⬝ᵥ (coarseMatrix dims A R l)⁻¹.mulVec y
    rw [dotProduct_comm, form_symm hi]

omit hown [IsStrictOrderedRing K] in
theorem matrixData_variational (kind : Relaxation) (procs : ∀ l, List (List (Fin (dims l)))) (L : ℕ) (hL : 0 < L) : Variational
    (matrixData kind dims procs A R) (fun l => dotForm (dims l)) L := by
  have hchain := matrixData_chain kind dims procs A hA R hR L
  refine ⟨hchain.galerkin, hchain.psd 0 hL, hchain.solvable, ?_⟩
  intro l hl x
  apply le_of_eq
  rw [energy, ← hchain.A l (by omega), hchain.exact l hl]

theorem matrixData_convergent (L l : ℕ) (hl : l + 1 < L) : SmootherConvergent
    (matrixData .symmetricGaussSeidel dims (fun l => [own l]) A R) (fun l => dotForm (dims l)) l := by
  have hspd := coarseMatrix_spd dims A hA R hR
  have hsym := matrixData_symmetric hown hA hR L
  set D := matrixData .symmetricGaussSeidel dims (fun l => [own l]) A R with hD
  intro x
  set w := D.B l x with hw
  have h1 : dotForm (dims l) (2 • w - D.B l (D.A l w)) x
      = 2 * (w ⬝ᵥ x) - w ⬝ᵥ (coarseMatrix dims A R l).mulVec w := by
    have := hsym.B l hl (D.A l w) x
    rw [map_sub, LinearMap.sub_apply, this, ← hw, map_nsmul, LinearMap.smul_apply]
    change 2 • (w ⬝ᵥ x) - (coarseMatrix dims A R l).mulVec w ⬝ᵥ w = _
    rw [dotProduct_comm w ((coarseMatrix dims A R l).mulVec w), two_nsmul, two_mul]
  change 0 ≤ dotForm (dims l) (2 • w - D.B l (D.A l w)) x
  rw [h1]
  set u := (coarseMatrix dims A R l)⁻¹.mulVec x with hu
  have hux : (coarseMatrix dims A R l).mulVec u = x := mulVec_inv (spd_det (hspd l)) x
  have h2 := energy_gain (hspd l).1 u w
  have h3 : u - w = (sweepRows .symmetricGaussSeidel (own l)).foldl
      (errRow (coarseMatrix dims A R l)) u := by
    rw [← err_relax (by simp [IsSweep]) _ (hown l), hux]
    rfl
  have h4 := (energy_sweep (hspd l) (sweepRows .symmetricGaussSeidel (own l)) u).1
  rw [← h3, h2, hux] at h4
  linarith

theorem weak_lower {L s : ℕ} {kappa : K} (hk : 0 < kappa) (hone : 1 ≤ (s : K) * s * kappa)
    (hs : ∀ l, l + 1 < L → AtMostPerRow (coarseMatrix dims A R l) s)
    (happrox : ∀ l, l + 1 < L → Approximates (R l) (coarseMatrix dims A R l) kappa)
    (n : ℕ) (hn : 0 < n) (hL : 0 < L) (u : Fin (dims 0) → K) :
    (1 / ((s : K) * s * kappa)) ^ (L - 1) * energyOf A u ≤ A.mulVec u ⬝ᵥ
      M (matrixData .symmetricGaussSeidel dims (fun l => [own l]) A R) n (L - 1) 0 (A.mulVec u) := by
  have hsw : IsSweep .symmetricGaussSeidel := by simp [IsSweep]
  have hspd := coarseMatrix_spd dims A hA R hR
  have hchain := matrixData_chain .symmetricGaussSeidel dims (fun l => [own l]) A hA R hR L
  set D := matrixData .symmetricGaussSeidel dims (fun l => [own l]) A R with hD
  have hen : ∀ l (e : Fin (dims l) → K), energy D (fun l => dotForm (dims l)) l e
      = energyOf (coarseMatrix dims A R l) e := fun l e =>
    dotProduct_comm ((coarseMatrix dims A R l).mulVec e) e
  have herr : ∀ l (e : Fin (dims l) → K), e - D.B l (D.A l e)
      = (sweepRows .symmetricGaussSeidel (own l)).foldl (errRow (coarseMatrix dims A R l)) e :=
    fun l e => err_relax hsw (coarseMatrix dims A R l) (hown l) e
  have hpos : 0 < (s : K) * s * kappa := by linarith
  have hmain := M_lower (δ := 1 / ((s : K) * s * kappa)) hchain (matrixData_symmetric hown hA hR L)
    (fun l hl => matrixData_convergent hown hA hR L l hl) (by positivity)
    (by rw [div_le_one hpos]; exact hone) n (by
      intro l hl w hw
      obtain ⟨m, rfl⟩ : ∃ m, n = m + 1 := ⟨n - 1, by omega⟩
      have hmono : ∀ (k : ℕ) (v : Fin (dims l) → K), energy D (fun l => dotForm (dims l)) l ((S D l ^ k) v)
          ≤ energy D (fun l => dotForm (dims l)) l v := by
        intro k v
        induction k with
        | zero => simp
        | succ k ih =>
          rw [pow_succ', Module.End.mul_apply]
          refine le_trans ?_ ih
          change energy D _ l ((S D l ^ k) v - D.B l (D.A l ((S D l ^ k) v))) ≤ _
          rw [herr, hen, hen]
          exact (energy_sweep (hspd l) _ _).1
      rw [pow_succ, Module.End.mul_apply]
      refine (hmono m _).trans ?_
      change energy D _ l (w - D.B l (D.A l w)) ≤ _
      have hr := relax_rate hsw (hspd l) (hown l) (hs l hl) hk (happrox l hl) w hw
      rw [hen, hen]
      have h3 : (1 - 1 / ((s : K) * s * kappa)) * energyOf (coarseMatrix dims A R l) w
          = ((s : K) * s * kappa - 1) * energyOf (coarseMatrix dims A R l) w / ((s : K) * s * kappa) := by
        rw [one_sub_div hpos.ne', div_mul_eq_mul_div]
      rw [h3, le_div_iff₀ hpos, mul_comm]
      exact hr) (L - 1) 0 (by omega) u
  rw [hen] at hmain
  rw [dotProduct_comm]
  exact hmain

end

section

variable {K : Type} [Field K] [LinearOrder K] [IsStrictOrderedRing K]

/-- **C84**, standalone: on one process, with symmetric Gauss-Seidel (also by default) or Gauss-Seidel
smoothing, at least one smoothing step, two or more levels and restriction matrices of full rank, if every
restriction matrix approximates errors strongly with the constant `kappa` and no row of an operator has more
than `s` entries, every cycle multiplies the energy of the error at most by `1 - 1 / (s² kappa)`: the bound
depends neither on the number of levels nor on the number of unknowns. -/
theorem C84_rate (debug timer : Bool) (p : Params) (type : Option (List Char))
    (htype : dealiiSmoother debug true type = .ok .symmetricGaussSeidel ∨
      dealiiSmoother debug true type = .ok .gaussSeidel) (dims : ℕ → ℕ)
    (own : ∀ l, List (Fin (dims l))) (hown : ∀ l, ListsAll (own l))
    (A : Matrix (Fin (dims 0)) (Fin (dims 0)) K) (hA : IsSpd A)
    (R : ∀ l, Matrix (Fin (dims (l + 1))) (Fin (dims l)) K) (hR : ∀ l, IndependentRows (R l))
    (s : ℕ) (hs : ∀ l, l + 1 < (p.maxLevels.getD 2).toNat → AtMostPerRow (coarseMatrix dims A R l) s)
    (kappa : K) (hk : 0 < kappa) (hone : 1 ≤ (s : K) * s * kappa)
    (happrox : ∀ l, l + 1 < (p.maxLevels.getD 2).toNat →
      StronglyApproximates (R l) (coarseMatrix dims A R l) kappa)
    (solve : ∀ l, Matrix (Fin (dims l)) (Fin (dims l)) K → (Fin (dims l) → K) → Fin (dims l) → K)
    (hsolve : ∀ l, SolvesExactly (solve l)) (hlev : 2 ≤ p.maxLevels.getD 2)
    (hfast : p.fastAp.getD false = false) (hpre : p.isPreconditioner = some false)
    (hsteps : 0 < toUnsigned (p.nSmoothingSteps.getD 1)) :
    ∃ H, (buildHierarchy debug timer (some p)
        (.ok (matrixHelpers debug type dims (fun l => [own l]) A R solve))).result = .ok H ∧
      ∀ b xs : Fin (dims 0) → K, A.mulVec xs = b →
        (∀ fresh x, ∃ y, (H.vmult fresh x b).result = .ok y ∧
          energyOf A (xs - y) ≤ (1 - 1 / ((s : K) * s * kappa)) * energyOf A (xs - x)) ∧
        ∀ x : ℕ → Fin (dims 0) → K,
          (∀ m, ∃ fresh, (H.vmult fresh (x m) b).result = .ok (x (m + 1))) →
          ∀ m, energyOf A (xs - x m) ≤ (1 - 1 / ((s : K) * s * kappa)) ^ m * energyOf A (xs - x 0) := by
  obtain ⟨k, kind, hk', hk'', hsw⟩ : ∃ k kind, dealiiSmoother debug true type = .ok k ∧
      k.relaxation = some kind ∧ IsSweep kind := by
    rcases htype with h | h
    · exact ⟨_, _, h, rfl, by simp [IsSweep]⟩
    · exact ⟨_, _, h, rfl, by simp [IsSweep]⟩
  obtain ⟨H, hH, hlin, hL, hp, hn⟩ := matrixHelpers_build debug timer p type k kind hk' hk''
    dims (fun l => [own l]) A hA R hR solve hsolve (by omega) hfast
  refine ⟨H, hH, ?_⟩
  intro b xs hxs
  have hp' : H.isPreconditioner = false := by rw [hp, hpre]; rfl
  have hL2 : 2 ≤ H.numLevels := by omega
  have hone' : ∀ fresh x, ∃ y, (H.vmult fresh x b).result = .ok y ∧
      energyOf A (xs - y) ≤ (1 - 1 / ((s : K) * s * kappa)) * energyOf A (xs - x) := by
    intro fresh x
    refine ⟨_, C04_cycle_is_textbook H _ hlin fresh x b (Or.inr hL2), ?_⟩
    rw [hp']
    exact strong_cycle_rate hown hA hR hsw hk hone (fun l hl => hs l (by omega))
      (fun l hl => happrox l (by omega)) H.nSmoothingSteps (by omega) (by omega) b x xs hxs
  refine ⟨hone', ?_⟩
  intro x hx m
  have hq : 0 ≤ 1 - 1 / ((s : K) * s * kappa) := by
    rw [sub_nonneg, div_le_one (by linarith)]
    exact hone
  induction m with
  | zero => simp
  | succ m ih =>
    obtain ⟨fresh, hf⟩ := hx m
    obtain ⟨y, hy, hle⟩ := hone' fresh (x m)
    obtain rfl := Outcome.ok.inj (hf.symm.trans hy)
    refine le_trans hle ?_
    have := mul_le_mul_of_nonneg_left ih hq
    rwa [← mul_assoc, ← pow_succ'] at this

/-- **C84**, as a preconditioner: under the same conditions with symmetric Gauss-Seidel smoothing, the cycle
is spectrally equivalent to the inverse of the matrix: the ratio of the two bounds, `2 s² kappa`, depends
neither on the number of levels nor on the number of unknowns. -/
theorem C84_preconditioner (debug timer : Bool) (p : Params) (type : Option (List Char))
    (htype : dealiiSmoother debug true type = .ok .symmetricGaussSeidel) (dims : ℕ → ℕ)
    (own : ∀ l, List (Fin (dims l))) (hown : ∀ l, ListsAll (own l))
    (A : Matrix (Fin (dims 0)) (Fin (dims 0)) K) (hA : IsSpd A)
    (R : ∀ l, Matrix (Fin (dims (l + 1))) (Fin (dims l)) K) (hR : ∀ l, IndependentRows (R l))
    (s : ℕ) (hs : ∀ l, l + 1 < (p.maxLevels.getD 2).toNat → AtMostPerRow (coarseMatrix dims A R l) s)
    (kappa : K) (hk : 0 < kappa) (hone : 1 ≤ (s : K) * s * kappa)
    (happrox : ∀ l, l + 1 < (p.maxLevels.getD 2).toNat →
      StronglyApproximates (R l) (coarseMatrix dims A R l) kappa)
    (solve : ∀ l, Matrix (Fin (dims l)) (Fin (dims l)) K → (Fin (dims l) → K) → Fin (dims l) → K)
    (hsolve : ∀ l, SolvesExactly (solve l)) (hlev : 0 < p.maxLevels.getD 2)
    (hfast : p.fastAp.getD false = false) (hpre : p.isPreconditioner.getD true = true)
    (hsteps : 0 < toUnsigned (p.nSmoothingSteps.getD 1)) :
    ∃ H, (buildHierarchy debug timer (some p)
        (.ok (matrixHelpers debug type dims (fun l => [own l]) A R solve))).result = .ok H ∧
      ∀ fresh (x b u : Fin (dims 0) → K), A.mulVec u = b →
        ∃ y, (H.vmult fresh x b).result = .ok y ∧
          energyOf A u ≤ 2 * ((s : K) * s * kappa) * (b ⬝ᵥ y) ∧ b ⬝ᵥ y ≤ energyOf A u := by
  obtain ⟨H, hH, hlin, hL, hp, hn⟩ := matrixHelpers_build debug timer p type _ _ htype rfl
    dims (fun l => [own l]) A hA R hR solve hsolve hlev hfast
  refine ⟨H, hH, ?_⟩
  intro fresh x b u hu
  have hp' : H.isPreconditioner = true := by rw [hp, hpre]
  have hpos : 0 < (s : K) * s * kappa := by linarith
  refine ⟨_, vmult_pre H _ hlin hp' fresh x b, ?_, ?_⟩
  · have hrate := strong_cycle_rate hown hA hR (kind := .symmetricGaussSeidel) (by simp [IsSweep]) hk hone
      (fun l hl => hs l (by omega)) (fun l hl => happrox l (by omega)) H.nSmoothingSteps (by omega)
      (L := H.numLevels) (by omega) b 0 u hu
    rw [sub_zero, ← hu] at hrate
    have hlow := strong_lower hA hR (by rw [div_le_one hpos]; exact hone)
      H.nSmoothingSteps (L := H.numLevels) (by omega) u hrate
    rw [cycle_zero, hu, div_div, div_mul_eq_mul_div, one_mul, div_le_iff₀ (by positivity)] at hlow
    refine hlow.trans (le_of_eq ?_)
    ring
  · have hup := M_upper (matrixData_symmetric hown hA hR H.numLevels)
      (matrixData_variational hA hR .symmetricGaussSeidel _ H.numLevels (by omega))
      H.nSmoothingSteps (H.numLevels - 1) 0 (by omega) u
    have hen : energy (matrixData .symmetricGaussSeidel dims (fun l => [own l]) A R)
        (fun l => dotForm (dims l)) 0 u = energyOf A u := dotProduct_comm (A.mulVec u) u
    rw [hen] at hup
    rw [← hu, dotProduct_comm]
    exact hup

/-- **C84**, under the weaker approximation of C77 on every level: with symmetric Gauss-Seidel smoothing the
cycle of `L` levels is spectrally equivalent to the inverse with the ratio `(s² kappa) ^ (L - 1)` (it depends
on the number of levels, but not on the number of unknowns), and in standalone mode it multiplies the energy of
the error at most by `1 - 1 / (s² kappa) ^ (L - 1)`. -/
theorem C84_weak (debug timer : Bool) (p : Params) (type : Option (List Char))
    (htype : dealiiSmoother debug true type = .ok .symmetricGaussSeidel) (dims : ℕ → ℕ)
    (own : ∀ l, List (Fin (dims l))) (hown : ∀ l, ListsAll (own l))
    (A : Matrix (Fin (dims 0)) (Fin (dims 0)) K) (hA : IsSpd A)
    (R : ∀ l, Matrix (Fin (dims (l + 1))) (Fin (dims l)) K) (hR : ∀ l, IndependentRows (R l))
    (s : ℕ) (hs : ∀ l, l + 1 < (p.maxLevels.getD 2).toNat → AtMostPerRow (coarseMatrix dims A R l) s)
    (kappa : K) (hk : 0 < kappa) (hone : 1 ≤ (s : K) * s * kappa)
    (happrox : ∀ l, l + 1 < (p.maxLevels.getD 2).toNat →
      Approximates (R l) (coarseMatrix dims A R l) kappa)
    (solve : ∀ l, Matrix (Fin (dims l)) (Fin (dims l)) K → (Fin (dims l) → K) → Fin (dims l) → K)
    (hsolve : ∀ l, SolvesExactly (solve l)) (hlev : 2 ≤ p.maxLevels.getD 2)
    (hfast : p.fastAp.getD false = false)
    (hsteps : 0 < toUnsigned (p.nSmoothingSteps.getD 1)) :
    ∃ H, (buildHierarchy debug timer (some p)
        (.ok (matrixHelpers debug type dims (fun l => [own l]) A R solve))).result = .ok H ∧
      ∀ fresh (x b u : Fin (dims 0) → K), A.mulVec u = b →
        ∃ y, (H.vmult fresh x b).result = .ok y ∧
          (p.isPreconditioner.getD true = true →
            energyOf A u ≤ ((s : K) * s * kappa) ^ ((p.maxLevels.getD 2).toNat - 1) * (b ⬝ᵥ y) ∧
            b ⬝ᵥ y ≤ energyOf A u) ∧
          (p.isPreconditioner.getD true = false →
            energyOf A (u - y) ≤ (1 - 1 / ((s : K) * s * kappa) ^ ((p.maxLevels.getD 2).toNat - 1))
              * energyOf A (u - x)) := by
  obtain ⟨H, hH, hlin, hL, hp, hn⟩ := matrixHelpers_build debug timer p type _ _ htype rfl
    dims (fun l => [own l]) A hA R hR solve hsolve (by omega) hfast
  refine ⟨H, hH, ?_⟩
  intro fresh x b u hu
  have hpos : 0 < (s : K) * s * kappa := by linarith
  have hsym := matrixData_symmetric hown hA hR H.numLevels
  have hvar := matrixData_variational hA hR .symmetricGaussSeidel (fun l => [own l]) H.numLevels (by omega)
  have hlower := weak_lower hown hA hR hk hone (L := H.numLevels) (fun l hl => hs l (by omega))
      (fun l hl => happrox l (by omega)) H.nSmoothingSteps (by omega) (by omega)
  have hup := M_upper hsym hvar H.nSmoothingSteps (H.numLevels - 1) 0 (by omega)
  have hen : ∀ v, energy (matrixData .symmetricGaussSeidel dims (fun l => [own l]) A R)
      (fun l => dotForm (dims l)) 0 v = energyOf A v := fun v => dotProduct_comm (A.mulVec v) v
  by_cases hpre : H.isPreconditioner = true
  · refine ⟨_, vmult_pre H _ hlin hpre fresh x b, ?_, ?_⟩
    · intro _
      constructor
      · have h1 := hlower u
        rw [hu, one_div, inv_pow, inv_mul_le_iff₀ (by positivity), hL] at h1
        rw [hL]
        exact h1
      · have h2 := hup u
        rw [hen] at h2
        rw [← hu, dotProduct_comm]
        exact h2
    · intro h
      rw [← hp, hpre] at h
      cases h
  · have hpre' : H.isPreconditioner = false := by simpa using hpre
    refine ⟨_, vmult_sa H _ hlin hpre' (by omega) fresh x b, ?_, ?_⟩
    · intro h
      rw [← hp, hpre'] at h
      cases h
    · intro _
      have hM := M_nonneg hsym H.nSmoothingSteps (H.numLevels - 1) 0 (by omega)
        (fun l hl => matrixData_convergent hown hA hR H.numLevels l hl) (by
          intro l _ v
          have hspd := coarseMatrix_spd dims A hA R hR l
          set w := (coarseMatrix dims A R l)⁻¹.mulVec v with hw
          have hwv : (coarseMatrix dims A R l).mulVec w = v := mulVec_inv (spd_det hspd) v
          change 0 ≤ w ⬝ᵥ v
          rw [← hwv]
          by_cases h0 : w = 0
          · rw [h0, zero_dotProduct]
          · exact (hspd.2 w h0).le)
      have h1 := energy_error_le_aux hsym hvar H.nSmoothingSteps (H.numLevels - 1) 0 (by omega) (u - x) hM
      have h2 := hlower (u - x)
      rw [hen, hen] at h1
      have h3 : b - (matrixData .symmetricGaussSeidel dims (fun l => [own l]) A R).A 0 x
          = (matrixData .symmetricGaussSeidel dims (fun l => [own l]) A R).A 0 (u - x) := by
        rw [map_sub]
        exact congrArg (· - _) hu.symm
      rw [h3, ← sub_sub]
      refine h1.trans ?_
      rw [dotProduct_comm] at h2
      have h4 : dotForm (dims 0) (M (matrixData .symmetricGaussSeidel dims (fun l => [own l]) A R)
          H.nSmoothingSteps (H.numLevels - 1) 0
          ((matrixData .symmetricGaussSeidel dims (fun l => [own l]) A R).A 0 (u - x)))
          ((matrixData .symmetricGaussSeidel dims (fun l => [own l]) A R).A 0 (u - x))
          = M (matrixData .symmetricGaussSeidel dims (fun l => [own l]) A R)
          H.nSmoothingSteps (H.numLevels - 1) 0 (A.mulVec (u - x)) ⬝ᵥ A.mulVec (u - x) := rfl
      rw [h4]
      rw [hL] at h2 ⊢
      rw [one_div, inv_pow] at h2
      rw [one_div]
      linarith

/-- **C84**, a family of problems: the chain `I + tridiag(-1, 2, -1)` of any length that allows it, coarsened by
pairs to any number `L` of levels; one standalone cycle with the default smoother multiplies the energy of the
error at most by `26 / 27`. -/
theorem C84_pairs (m L : ℕ) (hL : 2 ≤ L) (debug timer : Bool) (own : ∀ l, List (Fin (pairDims m L l)))
    (hown : ∀ l, ListsAll (own l))
    (solve : ∀ l, Matrix (Fin (pairDims m L l)) (Fin (pairDims m L l)) K → (Fin (pairDims m L l) → K) →
      Fin (pairDims m L l) → K)
    (hsolve : ∀ l, SolvesExactly (solve l)) :
    ∃ H, (buildHierarchy debug timer (some { maxLevels := some L, isPreconditioner := some false })
        (.ok (matrixHelpers debug none (pairDims m L) (fun l => [own l]) (pairMatrix (pairDims m L 0) 1)
          (pairR m L) solve))).result = .ok H ∧
      ∀ b xs : Fin (pairDims m L 0) → K, (pairMatrix (pairDims m L 0) 1).mulVec xs = b →
        ∀ fresh x, ∃ y, (H.vmult fresh x b).result = .ok y ∧
          energyOf (pairMatrix (pairDims m L 0) 1) (xs - y)
            ≤ 26 / 27 * energyOf (pairMatrix (pairDims m L 0) 1) (xs - x) := by
  obtain ⟨H, hH, h⟩ := C84_rate (K := K) debug timer { maxLevels := some L, isPreconditioner := some false }
    none (Or.inl (by cases debug <;> rfl)) (pairDims m L) own hown (pairMatrix (pairDims m L 0) 1)
    (pair_spd _ 1 one_pos) (pairR m L) (pairR_independent m L) 3 (by
      intro l hl
      have hl' : l + 1 < L := by simpa using hl
      rw [pair_coarse m L 1 l (by omega)]
      exact pair_perRow _ _) 3 (by norm_num) (by norm_num) (by
      intro l hl
      have hl' : l + 1 < L := by simpa using hl
      rw [pair_coarse m L 1 l (by omega)]
      exact pair_strong m L l) solve hsolve (by simpa using hL) rfl rfl (by simp [toUnsigned])
  refine ⟨H, hH, ?_⟩
  intro b xs hxs fresh x
  obtain ⟨y, hy, hle⟩ := (h b xs hxs).1 fresh x
  refine ⟨y, hy, ?_⟩
  norm_num at hle ⊢
  exact hle

end

/-! ### Concrete cases -/

/-- Three unknowns on the coarsest of five levels, rows in order, coarse problem solved with the inverse. -/
example := C84_pairs (K := ℚ) 3 5 (by norm_num) true false (fun _ => List.finRange _)
  (fun _ => ⟨List.nodup_finRange _, List.mem_finRange⟩) (fun l => exInvSolve l _)
  (fun l => exInvSolve_exact _ l)

/-- The same problem as a preconditioner. -/
example := C84_preconditioner (K := ℚ) true false { maxLevels := some 5 } none rfl (pairDims 3 5)
  (fun _ => List.finRange _) (fun _ => ⟨List.nodup_finRange _, List.mem_finRange⟩)
  (pairMatrix (pairDims 3 5 0) 1) (pair_spd _ 1 one_pos) (pairR 3 5) (pairR_independent 3 5) 3 (by
    intro l hl
    have hl' : l + 1 < 5 := hl
    rw [pair_coarse 3 5 1 l (by omega)]
    exact pair_perRow _ _) 3 (by norm_num) (by norm_num) (by
    intro l hl
    have hl' : l + 1 < 5 := hl
    rw [pair_coarse 3 5 1 l (by omega)]
    exact pair_strong 3 5 l) (fun l => exInvSolve l _) (fun l => exInvSolve_exact _ l) (by decide) rfl rfl
  (by decide)

/-- The same problem meets the weaker condition too. -/
example := C84_weak (K := ℚ) true false { maxLevels := some 5 } none rfl (pairDims 3 5)
  (fun _ => List.finRange _) (fun _ => ⟨List.nodup_finRange _, List.mem_finRange⟩)
  (pairMatrix (pairDims 3 5 0) 1) (pair_spd _ 1 one_pos) (pairR 3 5) (pairR_independent 3 5) 3 (by
    intro l hl
    have hl' : l + 1 < 5 := hl
    rw [pair_coarse 3 5 1 l (by omega)]
    exact pair_perRow _ _) 3 (by norm_num) (by norm_num) (by
    intro l hl e
    have hl' : l + 1 < 5 := hl
    rw [pair_coarse 3 5 1 l (by omega)]
    refine ⟨0, ?_⟩
    rw [Matrix.mulVec_zero, sub_zero]
    exact pair_diagonal _ l e) (fun l => exInvSolve l _) (fun l => exInvSolve_exact _ l) (by decide) rfl
  (by decide)

end Mfmg
