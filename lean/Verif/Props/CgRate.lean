import Verif.Lemmas.CgRate
import Verif.Props.ConjugateGradient
import Verif.Props.MultiLevel
import Verif.Examples.Laplace

/-!
# C93: the number of steps of the preconditioned conjugate gradient method

The claim: with symmetric Gauss-Seidel smoothing on one process, the number of steps the conjugate gradient method
preconditioned with the hierarchy makes depends on how well the coarse vectors approximate the errors (and on the
number of nonzero entries per row), not on the number of unknowns or levels; and it grows only with the square
root of that measure.
-/

set_option autoImplicit false

namespace Mfmg

open Spec

section

variable {K : Type} [Field K] [LinearOrder K] [IsStrictOrderedRing K] {n : ℕ}

/-- The entries of a symmetric positive definite matrix are at most as large as the largest on the diagonal. -/
theorem spd_entry_le {A : Matrix (Fin n) (Fin n) K} (hA : IsSpd A) {d : K} (hd : ∀ i, A i i ≤ d) (i j : Fin n) :
    |A i j| ≤ d := by
  by_cases hij : i = j
  · subst hij
    rw [abs_of_pos (diag_pos hA i)]
    exact hd i
  have hsym : A j i = A i j := congrFun (congrFun hA.1 i) j
  have key : ∀ t : K, t * t = 1 → 0 ≤ A i i + A j j + 2 * t * A i j := by
    intro t ht
    have h0 : 0 ≤ (Pi.single i 1 + Pi.single j t : Fin n → K) ⬝ᵥ A.mulVec (Pi.single i 1 + Pi.single j t) := by
      by_cases hz : (Pi.single i 1 + Pi.single j t : Fin n → K) = 0
      · rw [hz, zero_dotProduct]
      · exact (hA.2 _ hz).le
    rw [Matrix.mulVec_add, add_dotProduct, dotProduct_add, dotProduct_add] at h0
    simp only [single_dotProduct, Matrix.mulVec_single, Pi.smul_apply, MulOpposite.smul_eq_mul_unop,
      MulOpposite.unop_op, Matrix.col_apply, hsym] at h0
    have : A i i + A j j + 2 * t * A i j
        = 1 * (A i i * 1) + 1 * (A i j * t) + (t * (A i j * 1) + t * (A j j * t)) := by
      linear_combination -(A j j) * ht
    rw [this]
    exact h0
  have h1 := key 1 (by norm_num)
  have h2 := key (-1) (by norm_num)
  have := hd i
  have := hd j
  rw [abs_le]
  constructor <;> linarith

/-- The energy in terms of the length. -/
theorem energy_le_length {A : Matrix (Fin n) (Fin n) K} (hA : IsSpd A) {s : ℕ} (hs : AtMostPerRow A s) {d : K}
    (hd : ∀ i, A i i ≤ d) (e : Fin n → K) : energyOf A e ≤ s * d * (e ⬝ᵥ e) := by
  by_cases hn : n = 0
  · subst hn
    simp [energyOf, dotProduct]
  have hd0 : 0 ≤ d := (diag_pos hA ⟨0, by omega⟩).le.trans (hd _)
  have hcard : ∀ i, (∑ j, if A i j ≠ 0 then d / 2 * (e i * e i) else 0) ≤ s * (d / 2 * (e i * e i)) := by
    intro i
    rw [← Finset.sum_filter, Finset.sum_const, nsmul_eq_mul]
    exact mul_le_mul_of_nonneg_right (Nat.cast_le.2 (hs i)) (mul_nonneg (by linarith) (mul_self_nonneg _))
  have hterm : ∀ i j, e i * (A i j * e j)
      ≤ (if A i j ≠ 0 then d / 2 * (e i * e i) else 0) + (if A j i ≠ 0 then d / 2 * (e j * e j) else 0) := by
    intro i j
    have hsym : A j i = A i j := congrFun (congrFun hA.1 i) j
    rw [hsym]
    by_cases h0 : A i j = 0
    · simp [h0]
    · rw [if_pos h0, if_pos h0]
      obtain ⟨h1, h2⟩ := abs_le.1 (spd_entry_le hA hd i j)
      nlinarith [mul_nonneg (sub_nonneg.2 h2) (mul_self_nonneg (e i + e j)),
        mul_nonneg (show 0 ≤ d + A i j by linarith) (mul_self_nonneg (e i - e j))]
  calc energyOf A e = ∑ i, ∑ j, e i * (A i j * e j) := by
        simp only [energyOf, dotProduct, Matrix.mulVec, Finset.mul_sum]
    _ ≤ ∑ i, ∑ j, ((if A i j ≠ 0 then d / 2 * (e i * e i) else 0)
          + (if A j i ≠ 0 then d / 2 * (e j * e j) else 0)) :=
        Finset.sum_le_sum fun i _ => Finset.sum_le_sum fun j _ => hterm i j
    _ = (∑ i, ∑ j, if A i j ≠ 0 then d / 2 * (e i * e i) else 0)
          + ∑ j, ∑ i, if A j i ≠ 0 then d / 2 * (e j * e j) else 0 := by
        simp only [Finset.sum_add_distrib]
        congr 1
        exact Finset.sum_comm
    _ ≤ (∑ i, s * (d / 2 * (e i * e i))) + ∑ j, s * (d / 2 * (e j * e j)) :=
        add_le_add (Finset.sum_le_sum fun i _ => hcard i) (Finset.sum_le_sum fun i _ => hcard i)
    _ = s * d * (e ⬝ᵥ e) := by
        rw [← Finset.sum_add_distrib, dotProduct, Finset.mul_sum]
        apply Finset.sum_congr rfl
        intro i _
        ring

/-- The residual in terms of the energy of the error. -/
theorem residual_le_energy {A : Matrix (Fin n) (Fin n) K} (hA : IsSpd A) {s : ℕ} (hs : AtMostPerRow A s) {d : K}
    (hd : ∀ i, A i i ≤ d) (e : Fin n → K) : A.mulVec e ⬝ᵥ A.mulVec e ≤ s * d * energyOf A e := by
  set r := A.mulVec e with hr
  have h1 : energyOf A r ≤ s * d * (r ⬝ᵥ r) := energy_le_length hA hs hd r
  have hrr : 0 ≤ r ⬝ᵥ r := Finset.sum_nonneg fun i _ => mul_self_nonneg _
  have hpos : ∀ u : Fin n → K, 0 ≤ energyOf A u := by
    intro u
    by_cases hz : u = 0
    · simp [hz, energyOf]
    · exact (hA.2 _ hz).le
  rcases hrr.eq_or_lt with h0 | h0
  · have hr0 : r = 0 := dot_self_eq_zero h0.ge
    rw [hr0, zero_dotProduct]
    by_cases hn : n = 0
    · subst hn
      simp [energyOf, dotProduct]
    · have hd0 : 0 ≤ d := (diag_pos hA ⟨0, by omega⟩).le.trans (hd _)
      exact mul_nonneg (mul_nonneg (Nat.cast_nonneg _) hd0) (hpos e)
  · have hrpos : 0 < energyOf A r := hA.2 r (by
      intro h
      rw [h, zero_dotProduct] at h0
      exact lt_irrefl _ h0)
    have hsd : 0 < (s : K) * d := by
      by_contra hle
      have := mul_nonpos_of_nonpos_of_nonneg (not_lt.1 hle) hrr
      linarith
    have h2 := hpos (e - ((s : K) * d)⁻¹ • r)
    have hform : energyOf A (e - ((s : K) * d)⁻¹ • r)
        = energyOf A e - 2 * ((s : K) * d)⁻¹ * (r ⬝ᵥ r) + ((s : K) * d)⁻¹ * ((s : K) * d)⁻¹ * energyOf A r := by
      unfold energyOf
      have e1 : e ⬝ᵥ A.mulVec r = r ⬝ᵥ r := by rw [dot_mulVec_symm hA.1]
      rw [Matrix.mulVec_sub, Matrix.mulVec_smul, sub_dotProduct, dotProduct_sub, dotProduct_sub, smul_dotProduct,
        smul_dotProduct, dotProduct_smul, dotProduct_smul, e1, ← hr]
      simp only [smul_eq_mul]
      ring
    rw [hform] at h2
    have hi : 0 < ((s : K) * d)⁻¹ := inv_pos.2 hsd
    have h3 : ((s : K) * d)⁻¹ * ((s : K) * d)⁻¹ * energyOf A r ≤ ((s : K) * d)⁻¹ * (r ⬝ᵥ r) := by
      have := mul_le_mul_of_nonneg_left h1 (mul_pos hi hi).le
      refine this.trans (le_of_eq ?_)
      field_simp
    have h4 : ((s : K) * d)⁻¹ * (r ⬝ᵥ r) ≤ energyOf A e := by linarith
    rwa [inv_mul_le_iff₀ hsd] at h4

end

/-- **C93**, from the quality of the preconditioner to the solver: if one cycle is a symmetric positive definite
linear map, at most the inverse of the matrix and at least the inverse divided by `w²`, each step reduces the energy
of the error by `((w - 1) / (w + 1))²`, up to one factor of 4 altogether. -/
theorem C93_equivalent (debug : Bool) {dims : ℕ → ℕ} (A : Matrix (Fin (dims 0)) (Fin (dims 0)) ℝ)
    (hA : IsSpd A) (H : Hierarchy fun l => Fin (dims l) → ℝ) (M : Matrix (Fin (dims 0)) (Fin (dims 0)) ℝ)
    (hM : IsSpd M) (hH : ∀ fresh x b, (H.vmult fresh x b).result = .ok (M.mulVec b)) (w : ℝ) (hw : 1 < w)
    (hequiv : ∀ fresh x b u, A.mulVec u = b → ∃ y, (H.vmult fresh x b).result = .ok y ∧
      energyOf A u ≤ w ^ 2 * (b ⬝ᵥ y) ∧ b ⬝ᵥ y ≤ energyOf A u)
    (fresh : ℕ → ∀ l, Fin (dims l) → ℝ) (h : Fin (dims 0) → ℝ) :
    ReducesEnergy A (fun tol2 b x => driverSolve debug A H fresh tol2 b x h) 4 (((w - 1) / (w + 1)) ^ 2) ∧
      ∀ scale, (∀ e, A.mulVec e ⬝ᵥ A.mulVec e ≤ scale * energyOf A e) → 0 ≤ scale →
        FewSteps A (fun tol2 b x => driverSolve debug A H fresh tol2 b x h) scale 4 (((w - 1) / (w + 1)) ^ 2) := by
  have hsq : Real.sqrt (w ^ 2) = w := Real.sqrt_sq (by linarith)
  have heq : ∀ u, energyOf A u ≤ w ^ 2 * (A.mulVec u ⬝ᵥ M.mulVec (A.mulVec u)) ∧
      A.mulVec u ⬝ᵥ M.mulVec (A.mulVec u) ≤ energyOf A u := by
    intro u
    obtain ⟨y, hy, h1, h2⟩ := hequiv 0 0 _ u rfl
    rw [hH] at hy
    rw [Outcome.ok.inj hy]
    exact ⟨h1, h2⟩
  have hbest := best_steps hA hM (c := w ^ 2) (by nlinarith) (fun u => (heq u).1) (fun u => (heq u).2)
  rw [hsq] at hbest
  have hrun : ∀ (ω : ℕ → ℝ) (tol2 : ℝ) (b x₀ x : Fin (dims 0) → ℝ) (steps : ℕ), 0 ≤ tol2 →
      driverSolve debug A H fresh tol2 b x₀ h = .ok (x, steps) → ∃ y : ℕ → Fin (dims 0) → ℝ, y 0 = x₀ ∧
        (∀ j, y (j + 1) = y j + ω j • M.mulVec (b - A.mulVec (y j))) ∧
        (∀ xs, A.mulVec xs = b → energyOf A (xs - x) ≤ energyOf A (xs - y steps)) ∧
        (0 < steps → ∃ x', tol2 < (A.mulVec x' - b) ⬝ᵥ (A.mulVec x' - b) ∧
          ∀ xs, A.mulVec xs = b → energyOf A (xs - x') ≤ energyOf A (xs - y (steps - 1))) := by
    intro ω tol2 b x₀ x steps ht hx
    let y : ℕ → Fin (dims 0) → ℝ := fun m =>
      Nat.rec x₀ (fun j z => z + ω j • M.mulVec (b - A.mulVec z)) m
    obtain ⟨x', steps', h1, h2, h3, h4, h5⟩ := cgSolve_ok debug hA hM
      (prec := fun i h g => (H.vmult (fresh i) h g).result) (fun i h g => hH _ h g) (le_refl (dims 0)) ht b x₀ h
      (y := y) (ω := ω) rfl (fun _ => rfl)
    have e := Outcome.ok.inj (h1.symm.trans hx)
    rw [Prod.mk.injEq] at e
    obtain ⟨rfl, rfl⟩ := e
    exact ⟨y, rfl, fun _ => rfl, h4, h5⟩
  constructor
  · intro tol2 b x₀ x steps ht hx xs hxs
    obtain ⟨ω, hω⟩ := hbest steps
    obtain ⟨y, hy0, hy, h4, -⟩ := hrun ω tol2 b x₀ x steps ht hx
    have := hω b xs hxs y hy
    rw [hy0] at this
    exact (h4 xs hxs).trans this
  · intro scale hscale hs0 tol2 b x₀ x steps ht hx xs hxs
    obtain ⟨ω, hω⟩ := hbest steps
    obtain ⟨y, hy0, hy, -, h5⟩ := hrun ω tol2 b x₀ x (steps + 1) ht hx
    obtain ⟨x', hx1, hx2⟩ := h5 (Nat.succ_pos _)
    have h6 := hω b xs hxs y hy
    rw [hy0] at h6
    have h7 := hscale (xs - x')
    have e : A.mulVec (xs - x') = -(A.mulVec x' - b) := by
      rw [Matrix.mulVec_sub, hxs]
      abel
    rw [e, neg_dotProduct_neg] at h7
    refine lt_of_lt_of_le hx1 (h7.trans (mul_le_mul_of_nonneg_left ?_ hs0))
    exact (hx2 xs hxs).trans h6

/-- One cycle of a hierarchy with symmetric Gauss-Seidel smoothing on one process. -/
theorem sgs_preconditioner (debug timer : Bool) (p : Params) (type : Option (List Char))
    (htype : dealiiSmoother debug true type = .ok .symmetricGaussSeidel) (dims : ℕ → ℕ)
    (own : ∀ l, List (Fin (dims l))) (hown : ∀ l, ListsAll (own l))
    (A : Matrix (Fin (dims 0)) (Fin (dims 0)) ℝ) (hA : IsSpd A)
    (R : ∀ l, Matrix (Fin (dims (l + 1))) (Fin (dims l)) ℝ) (hR : ∀ l, IndependentRows (R l))
    (solve : ∀ l, Matrix (Fin (dims l)) (Fin (dims l)) ℝ → (Fin (dims l) → ℝ) → Fin (dims l) → ℝ)
    (hsolve : ∀ l, SolvesExactly (solve l)) (hlev : 0 < p.maxLevels.getD 2)
    (hfast : p.fastAp.getD false = false) (hpre : p.isPreconditioner.getD true = true)
    (hsteps : 0 < toUnsigned (p.nSmoothingSteps.getD 1)) :
    ∃ H, (buildHierarchy debug timer (some p)
        (.ok (matrixHelpers debug type dims (fun l => [own l]) A R solve))).result = .ok H ∧
      ∃ M : Matrix (Fin (dims 0)) (Fin (dims 0)) ℝ, IsSpd M ∧
        ∀ fresh x b, (H.vmult fresh x b).result = .ok (M.mulVec b) := by
  have hall : ∀ l, ListsAll [own l].flatten := fun l => by simpa using hown l
  obtain ⟨H, hH, -, -, -, -, hM⟩ := preconditioner_of_decreasing debug timer p type _ _ htype rfl dims
    (fun l => [own l]) A hA R hR solve hsolve hlev hfast hpre hsteps
    (fun l => C75_processes_symmetric [own l] (hall l) _ (coarseMatrix_spd dims A hA R hR l))
    fun l _ e he => sgs_decreases (coarseMatrix_spd dims A hA R hR l) (hall l)
      (weaklyCoupled_two (coarseMatrix_spd dims A hA R hR l) (hall l) (by simp)) e he
  exact ⟨H, hH, hM⟩

/-- **C93**, any number of levels: with at most `s` nonzero entries per row, entries of the diagonal of at most
`d` and coarse vectors that approximate every error with constant `kappa`, level by level, the program reduces the
energy of the error by `((w - 1) / (w + 1))²` per step for every `w` with `2 s² kappa ≤ w²`.  Neither the number
of unknowns nor the number of levels occurs. -/
theorem C93_levels (debug timer : Bool) (p : Params) (type : Option (List Char))
    (htype : dealiiSmoother debug true type = .ok .symmetricGaussSeidel) (dims : ℕ → ℕ)
    (own : ∀ l, List (Fin (dims l))) (hown : ∀ l, ListsAll (own l))
    (A : Matrix (Fin (dims 0)) (Fin (dims 0)) ℝ) (hA : IsSpd A)
    (R : ∀ l, Matrix (Fin (dims (l + 1))) (Fin (dims l)) ℝ) (hR : ∀ l, IndependentRows (R l))
    (s : ℕ) (hs : ∀ l, l + 1 < (p.maxLevels.getD 2).toNat → AtMostPerRow (coarseMatrix dims A R l) s)
    (kappa : ℝ) (hk : 0 < kappa) (hone : 1 ≤ (s : ℝ) * s * kappa)
    (happrox : ∀ l, l + 1 < (p.maxLevels.getD 2).toNat →
      StronglyApproximates (R l) (coarseMatrix dims A R l) kappa)
    (solve : ∀ l, Matrix (Fin (dims l)) (Fin (dims l)) ℝ → (Fin (dims l) → ℝ) → Fin (dims l) → ℝ)
    (hsolve : ∀ l, SolvesExactly (solve l)) (hlev : 2 ≤ p.maxLevels.getD 2)
    (hfast : p.fastAp.getD false = false) (hpre : p.isPreconditioner.getD true = true)
    (hsteps : 0 < toUnsigned (p.nSmoothingSteps.getD 1))
    (w : ℝ) (hw : 1 < w) (hkw : 2 * ((s : ℝ) * s * kappa) ≤ w ^ 2) (d : ℝ) (hd : ∀ i, A i i ≤ d) (hd0 : 0 ≤ d) :
    ∃ H, (buildHierarchy debug timer (some p)
        (.ok (matrixHelpers debug type dims (fun l => [own l]) A R solve))).result = .ok H ∧
      ∀ fresh h, SolvesEverySystem A (fun tol2 b x => driverSolve debug A H fresh tol2 b x h) ∧
        ReducesEnergy A (fun tol2 b x => driverSolve debug A H fresh tol2 b x h) 4 (((w - 1) / (w + 1)) ^ 2) ∧
        FewSteps A (fun tol2 b x => driverSolve debug A H fresh tol2 b x h) (s * d) 4
          (((w - 1) / (w + 1)) ^ 2) := by
  obtain ⟨H, hH, M, hM, hv⟩ := sgs_preconditioner debug timer p type htype dims own hown A hA R hR solve hsolve
    (by omega) hfast hpre hsteps
  obtain ⟨H', hH', hequiv⟩ := C84_preconditioner debug timer p type htype dims own hown A hA R hR s hs kappa hk hone
    happrox solve hsolve (by omega) hfast hpre hsteps
  obtain rfl := Outcome.ok.inj (hH.symm.trans hH')
  refine ⟨H, hH, fun fresh h => ?_⟩
  obtain ⟨h1, h2⟩ := C93_equivalent debug A hA H M hM hv w hw (fun f x b u hu => by
    obtain ⟨y, hy, hy1, hy2⟩ := hequiv f x b u hu
    refine ⟨y, hy, hy1.trans ?_, hy2⟩
    refine mul_le_mul_of_nonneg_right hkw ?_
    rw [hv] at hy
    rw [← Outcome.ok.inj hy]
    by_cases hb : b = 0
    · simp [hb]
    · exact (hM.2 b hb).le) fresh h
  refine ⟨C92_solves_partial debug A hA H M hM hv fresh h, h1, h2 _ (residual_le_energy hA (hs 0 (by omega)) hd) ?_⟩
  exact mul_nonneg (Nat.cast_nonneg _) hd0

/-- **C93**, under the weaker approximation of C77 on every level: the same with `(s² kappa) ^ (L - 1) ≤ w²` for
`L` levels. -/
theorem C93_weak (debug timer : Bool) (p : Params) (type : Option (List Char))
    (htype : dealiiSmoother debug true type = .ok .symmetricGaussSeidel) (dims : ℕ → ℕ)
    (own : ∀ l, List (Fin (dims l))) (hown : ∀ l, ListsAll (own l))
    (A : Matrix (Fin (dims 0)) (Fin (dims 0)) ℝ) (hA : IsSpd A)
    (R : ∀ l, Matrix (Fin (dims (l + 1))) (Fin (dims l)) ℝ) (hR : ∀ l, IndependentRows (R l))
    (s : ℕ) (hs : ∀ l, l + 1 < (p.maxLevels.getD 2).toNat → AtMostPerRow (coarseMatrix dims A R l) s)
    (kappa : ℝ) (hk : 0 < kappa) (hone : 1 ≤ (s : ℝ) * s * kappa)
    (happrox : ∀ l, l + 1 < (p.maxLevels.getD 2).toNat → Approximates (R l) (coarseMatrix dims A R l) kappa)
    (solve : ∀ l, Matrix (Fin (dims l)) (Fin (dims l)) ℝ → (Fin (dims l) → ℝ) → Fin (dims l) → ℝ)
    (hsolve : ∀ l, SolvesExactly (solve l)) (hlev : 2 ≤ p.maxLevels.getD 2)
    (hfast : p.fastAp.getD false = false) (hpre : p.isPreconditioner.getD true = true)
    (hsteps : 0 < toUnsigned (p.nSmoothingSteps.getD 1))
    (w : ℝ) (hw : 1 < w) (hkw : ((s : ℝ) * s * kappa) ^ ((p.maxLevels.getD 2).toNat - 1) ≤ w ^ 2)
    (d : ℝ) (hd : ∀ i, A i i ≤ d) (hd0 : 0 ≤ d) :
    ∃ H, (buildHierarchy debug timer (some p)
        (.ok (matrixHelpers debug type dims (fun l => [own l]) A R solve))).result = .ok H ∧
      ∀ fresh h, SolvesEverySystem A (fun tol2 b x => driverSolve debug A H fresh tol2 b x h) ∧
        ReducesEnergy A (fun tol2 b x => driverSolve debug A H fresh tol2 b x h) 4 (((w - 1) / (w + 1)) ^ 2) ∧
        FewSteps A (fun tol2 b x => driverSolve debug A H fresh tol2 b x h) (s * d) 4
          (((w - 1) / (w + 1)) ^ 2) := by
  obtain ⟨H, hH, M, hM, hv⟩ := sgs_preconditioner debug timer p type htype dims own hown A hA R hR solve hsolve
    (by omega) hfast hpre hsteps
  obtain ⟨H', hH', hequiv⟩ := C84_weak debug timer p type htype dims own hown A hA R hR s hs kappa hk hone
    happrox solve hsolve hlev hfast hsteps
  obtain rfl := Outcome.ok.inj (hH.symm.trans hH')
  refine ⟨H, hH, fun fresh h => ?_⟩
  obtain ⟨h1, h2⟩ := C93_equivalent debug A hA H M hM hv w hw (fun f x b u hu => by
    obtain ⟨y, hy, hy', -⟩ := hequiv f x b u hu
    obtain ⟨hy1, hy2⟩ := hy' hpre
    refine ⟨y, hy, hy1.trans ?_, hy2⟩
    refine mul_le_mul_of_nonneg_right hkw ?_
    rw [hv] at hy
    rw [← Outcome.ok.inj hy]
    by_cases hb : b = 0
    · simp [hb]
    · exact (hM.2 b hb).le) fresh h
  refine ⟨C92_solves_partial debug A hA H M hM hv fresh h, h1, h2 _ (residual_le_energy hA (hs 0 (by omega)) hd) ?_⟩
  exact mul_nonneg (Nat.cast_nonneg _) hd0

/-- **C93**, from the agglomerates to the solver: two levels, the restriction matrix is the one the set-up makes
from eigenvectors of the agglomerates that were computed correctly, and the eigenvalues left out are at least the
share `1 / kappa` of the diagonal of the agglomerate. -/
theorem C93_pipeline (debug dynAdds timer : Bool) (p : Params) (type : Option (List Char))
    (htype : dealiiSmoother debug true type = .ok .symmetricGaussSeidel)
    (gdiag : ℕ → ℝ) (css : List (List (CopyData ℝ))) (hcs : ∀ cs ∈ css, ∀ c ∈ cs, c.WellFormed) (n : ℕ)
    (hn : ∀ c ∈ css.flatten, ∀ x ∈ c.dofMap, x < n) (hown : OwnIndependent css.flatten)
    (aggs : List (AggData n ℝ)) (haggs : css.flatten = aggs.map AggData.copy)
    (hsolved : ∀ a ∈ aggs, a.Solved)
    (hpos : ∀ a ∈ aggs, ∀ i : Fin n, i.val ∈ a.copy.dofMap → a.matrix i i ≠ 0)
    (A : Matrix (Fin n) (Fin n) ℝ) (hA : IsSpd A) (hsum : A = (aggs.map AggData.matrix).sum)
    (hdiag : ∀ i : Fin n, gdiag i.val = A i i) (s : ℕ) (hs : AtMostPerRow A s) (kappa : ℝ) (hk : 0 < kappa)
    (hone : 1 ≤ (s : ℝ) * s * kappa)
    (hkappa : ∀ a ∈ aggs, ∀ i : Fin n, i.val ∈ a.copy.dofMap → a.matrix i i ≤ kappa * a.omitted)
    (rows : ∀ l, List (Fin (twoLevels n (rowsOf css.flatten).length l))) (hrows : ∀ l, ListsAll (rows l))
    (solve : ∀ l, Matrix (Fin (twoLevels n (rowsOf css.flatten).length l))
      (Fin (twoLevels n (rowsOf css.flatten).length l)) ℝ →
      (Fin (twoLevels n (rowsOf css.flatten).length l) → ℝ) →
      Fin (twoLevels n (rowsOf css.flatten).length l) → ℝ)
    (hsolve : ∀ l, SolvesExactly (solve l)) (hlev : p.maxLevels.getD 2 = 2)
    (hfast : p.fastAp.getD false = false) (hpre : p.isPreconditioner.getD true = true)
    (hsteps : 0 < toUnsigned (p.nSmoothingSteps.getD 1))
    (w : ℝ) (hw : 1 < w) (hkw : (s : ℝ) * s * kappa ≤ w ^ 2) (d : ℝ) (hd : ∀ i, A i i ≤ d) (hd0 : 0 ≤ d) :
    ∃ a, assembleAll debug dynAdds gdiag (css.map collect) = .ok a ∧
      ∃ H, (buildHierarchy debug timer (some p) (.ok (matrixHelpers debug type
          (twoLevels n (rowsOf css.flatten).length) (fun l => [rows l]) A
          (twoLevelRestriction (a.R.block (rowsOf css.flatten).length n)) solve))).result = .ok H ∧
        ∀ fresh h, SolvesEverySystem A (fun tol2 b x => driverSolve (dims := twoLevels n _) debug A H fresh tol2 b x h) ∧
          ReducesEnergy A (fun tol2 b x => driverSolve (dims := twoLevels n _) debug A H fresh tol2 b x h) 4
            (((w - 1) / (w + 1)) ^ 2) ∧
          FewSteps A (fun tol2 b x => driverSolve (dims := twoLevels n _) debug A H fresh tol2 b x h) (s * d) 4
            (((w - 1) / (w + 1)) ^ 2) := by
  obtain ⟨a, ha, happrox⟩ := C77_approximation debug dynAdds gdiag css hcs n aggs haggs hsolved A hA hsum
    hdiag kappa hk hkappa
  obtain ⟨a', ha', hspd, _⟩ := C74_spd_partial debug dynAdds gdiag css hcs n hn (by
    intro c hc x hx
    have hxn := hn c hc x hx
    rw [haggs] at hc
    obtain ⟨b, hb, rfl⟩ := List.mem_map.1 hc
    have h1 := solved_diag b (hsolved b hb) ⟨x, hxn⟩
    have h2 := hdiag ⟨x, hxn⟩
    dsimp only at h1 h2
    rw [h1, h2]
    exact ⟨hpos b hb ⟨x, hxn⟩ hx, (diag_pos hA _).ne'⟩) hown A hA
  obtain rfl := Outcome.ok.inj (ha.symm.trans ha')
  refine ⟨a, ha, ?_⟩
  have hind : IndependentRows (a.R.block (rowsOf css.flatten).length n) := (C74_iff _ A hA).1 hspd
  have hL : (p.maxLevels.getD 2).toNat = 2 := by omega
  exact C93_weak debug timer p type htype (twoLevels n (rowsOf css.flatten).length) rows
    hrows A hA (twoLevelRestriction (a.R.block (rowsOf css.flatten).length n)) (by
      intro l
      cases l with
      | zero => exact hind
      | succ l =>
        have h1 : IndependentRows (1 : Matrix (Fin (rowsOf css.flatten).length)
            (Fin (rowsOf css.flatten).length) ℝ) := by
          intro y hy
          rwa [Matrix.transpose_one, Matrix.one_mulVec] at hy
        exact h1) s (by
      intro l hl
      obtain rfl : l = 0 := by omega
      exact hs) kappa hk hone (by
      intro l hl
      obtain rfl : l = 0 := by omega
      exact happrox) solve hsolve (by omega) hfast hpre hsteps w hw (by
      rw [hL]
      simpa using hkw) d hd hd0

/-- **C93**, the difference matrix `tridiag(-1, 2, -1)` of any size, whose condition number is not bounded, with
pairs of neighbours as coarse unknowns: every step reduces the energy of the error by `1 / 4`, up to one factor of
4 altogether. -/
theorem C93_laplace (m : ℕ) (debug timer : Bool) (own : ∀ l, List (Fin (pairDims m 2 l)))
    (hown : ∀ l, ListsAll (own l))
    (solve : ∀ l, Matrix (Fin (pairDims m 2 l)) (Fin (pairDims m 2 l)) ℝ → (Fin (pairDims m 2 l) → ℝ) →
      Fin (pairDims m 2 l) → ℝ)
    (hsolve : ∀ l, SolvesExactly (solve l)) :
    ∃ H, (buildHierarchy debug timer (some {}) (.ok (matrixHelpers debug none (pairDims m 2) (fun l => [own l])
          (pairMatrix (pairDims m 2 0) 0) (pairR m 2) solve))).result = .ok H ∧
      ∀ fresh h, SolvesEverySystem (pairMatrix (pairDims m 2 0) 0)
          (fun tol2 b x => driverSolve debug (pairMatrix (pairDims m 2 0) 0) H fresh tol2 b x h) ∧
        ReducesEnergy (pairMatrix (pairDims m 2 0) 0)
          (fun tol2 b x => driverSolve debug (pairMatrix (pairDims m 2 0) 0) H fresh tol2 b x h) 4 (1 / 4) ∧
        FewSteps (pairMatrix (pairDims m 2 0) 0)
          (fun tol2 b x => driverSolve debug (pairMatrix (pairDims m 2 0) 0) H fresh tol2 b x h) 6 4 (1 / 4) := by
  obtain ⟨H, hH, h⟩ := C93_weak debug timer {} none (by cases debug <;> rfl) (pairDims m 2) own hown
    (pairMatrix (pairDims m 2 0) 0) (laplace_spd _) (pairR m 2) (pairR_independent m 2) 3 (by
      intro l hl
      obtain rfl : l = 0 := by
        have : l + 1 < 2 := hl
        omega
      exact pair_perRow _ _) 1 one_pos (by norm_num) (by
      intro l hl
      obtain rfl : l = 0 := by
        have : l + 1 < 2 := hl
        omega
      exact laplace_approximates m) solve hsolve (by decide) rfl rfl (by decide) 3 (by norm_num) (by
      change (((3 : ℕ) : ℝ) * ((3 : ℕ) : ℝ) * 1) ^ 1 ≤ 3 ^ 2
      norm_num) 2 (by
      intro i
      simp [pairMatrix]) (by norm_num)
  refine ⟨H, hH, fun fresh h' => ?_⟩
  have e1 : (((3 : ℝ) - 1) / (3 + 1)) ^ 2 = 1 / 4 := by norm_num
  have e2 : ((3 : ℕ) : ℝ) * 2 = 6 := by norm_num
  have := h fresh h'
  rwa [e1, e2] at this

/-! ### Concrete cases -/

/-- The difference matrix with any number of unknowns, rows in order, coarse problem solved with the inverse. -/
example (m : ℕ) := C93_laplace m true false (fun _ => List.finRange _)
  (fun _ => ⟨List.nodup_finRange _, List.mem_finRange⟩) (fun l => exInvSolve l _)
  (fun l => exInvSolve_exact _ l)

/-- Five levels, 48 unknowns; `2 s² kappa = 54` and `w = 8`: a factor of `49 / 81` per step. -/
example := C93_levels true false { maxLevels := some 5 } none rfl (pairDims 3 5)
  (fun _ => List.finRange _) (fun _ => ⟨List.nodup_finRange _, List.mem_finRange⟩)
  (pairMatrix (pairDims 3 5 0) 1) (pair_spd _ 1 one_pos) (pairR 3 5) (pairR_independent 3 5) 3 (by
    intro l hl
    have hl' : l + 1 < 5 := hl
    rw [pair_coarse 3 5 1 l (by omega)]
    exact pair_perRow _ _) 3 (by norm_num) (by norm_num) (by
    intro l hl
    have hl' : l + 1 < 5 := hl
    rw [pair_coarse 3 5 1 l (by omega)]
    exact pair_strong 3 5 l) (fun l => exInvSolve l _) (fun l => exInvSolve_exact _ l) (by decide) rfl rfl
  (by decide) 8 (by norm_num) (by norm_num) 3 (by
    intro i
    simp only [pairMatrix, Matrix.of_apply, if_true]
    norm_num) (by norm_num)

theorem sum_at_most_once {N : ℕ} (P : Fin N → Prop) [DecidablePred P] (hP : ∀ j k, P j → P k → j = k) (c : ℝ)
    (hc : 0 ≤ c) : (∑ k, if P k then c else 0) ≤ c := by
  by_cases h : ∃ k, P k
  · obtain ⟨k, hk⟩ := h
    rw [Finset.sum_eq_single k (fun j _ hj => if_neg fun h' => hj (hP j k h' hk))
      (fun h' => absurd (Finset.mem_univ k) h'), if_pos hk]
  · rw [Finset.sum_eq_zero fun k _ => if_neg fun h' => h ⟨k, h'⟩]
    exact hc

theorem chain_diag_seven (N : ℕ) (i : Fin (2 * N + 1)) : chainSum (K := ℝ) N i i ≤ 7 := by
  have h1 : chainSum (K := ℝ) N i i = ∑ k : Fin N, (chainAgg (K := ℝ) N k).matrix i i := by
    rw [chainSum, chainAggs, List.map_map, ← List.ofFn_eq_map, List.sum_ofFn, Matrix.sum_apply]
    rfl
  have h2 : ∀ k : Fin N, (chainAgg (K := ℝ) N k).matrix i i = (if i.val = 2 * k.val then 2 else 0)
      + (if i.val = 2 * k.val + 1 then 3 else 0) + (if i.val = 2 * k.val + 2 then 2 else 0) := by
    intro k
    simp only [chainAgg, chainMatrix, Matrix.of_apply, Fin.ext_iff]
    split_ifs <;> first | (exfalso; omega) | norm_num
  rw [h1, Finset.sum_congr rfl fun k _ => h2 k, Finset.sum_add_distrib, Finset.sum_add_distrib]
  have a := sum_at_most_once (fun k : Fin N => i.val = 2 * k.val) (fun j k _ _ => Fin.ext (by omega)) 2 (by norm_num)
  have b := sum_at_most_once (fun k : Fin N => i.val = 2 * k.val + 1) (fun j k _ _ => Fin.ext (by omega)) 3
    (by norm_num)
  have c := sum_at_most_once (fun k : Fin N => i.val = 2 * k.val + 2) (fun j k _ _ => Fin.ext (by omega)) 2
    (by norm_num)
  linarith

/-- The chain of C77 with any number of agglomerates: `s² kappa = 27 / 2`, `w = 4`, a factor of `9 / 25` per step. -/
example (N : ℕ) (hN : 0 < N) := C93_pipeline true false false {} none rfl
    (fun i => if h : i < 2 * N + 1 then chainSum (K := ℝ) N ⟨i, h⟩ ⟨i, h⟩ else 0)
    (chainCopies ℝ N) (by
      intro cs hcs c hc
      rw [List.mem_singleton] at hcs
      subst hcs
      obtain ⟨b, hb, rfl⟩ := List.mem_map.1 hc
      obtain ⟨k, _, rfl⟩ := List.mem_map.1 hb
      exact chainCopy_wf k.val) (2 * N + 1) (by
      intro c hc x hx
      have hc' : c ∈ (chainAggs (K := ℝ) N).map AggData.copy := by simpa using hc
      obtain ⟨b, hb, rfl⟩ := List.mem_map.1 hc'
      obtain ⟨k, _, rfl⟩ := List.mem_map.1 hb
      have := k.isLt
      simp only [chainAgg, chainCopy, List.mem_cons, List.not_mem_nil, or_false] at hx
      omega) (by
      rw [show (chainCopies ℝ N).flatten = (chainAggs (K := ℝ) N).map AggData.copy by simp]
      exact chain_own N) (chainAggs N) (by simp) (by
      intro b hb
      obtain ⟨k, _, rfl⟩ := List.mem_map.1 hb
      exact chain_solved N k) (by
      intro b hb i hi
      obtain ⟨k, _, rfl⟩ := List.mem_map.1 hb
      exact chain_diag_ne N k i hi) (chainSum N) (chain_spd N hN) rfl (by
      intro i
      exact dif_pos i.isLt) 3 (chain_perRow N) (3 / 2) (by norm_num) (by norm_num) (by
      intro b hb i _
      obtain ⟨k, _, rfl⟩ := List.mem_map.1 hb
      exact chain_diag_le N k i) (fun _ => List.finRange _)
    (fun _ => ⟨List.nodup_finRange _, List.mem_finRange⟩) (fun l => exInvSolve l _) (fun l => exInvSolve_exact _ l)
    rfl rfl rfl (by decide) 4 (by norm_num) (by norm_num) 7 (chain_diag_seven N) (by norm_num)

end Mfmg
