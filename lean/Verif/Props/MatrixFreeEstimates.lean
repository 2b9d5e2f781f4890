import Verif.Props.Chebyshev
import Verif.Props.Estimates
import Verif.Props.OneSided
import Verif.Props.Tolerance

/-!
# C123, C125 and C127 for matrix-free hierarchies with Chebyshev smoothing
-/

set_option autoImplicit false

namespace Mfmg

open Spec

/-- The error propagation of a two-level cycle with Chebyshev smoothing. -/
theorem matrixFree_propagation (debug timer : Bool) (p : Params) (type : Option (List Char))
    (htype : EqNoCase (type.getD (chars! "Chebyshev")) (chars! "chebyshev")) (degree : Option ℤ)
    (range maxEigenvalue : Option ℝ) (auto : ℕ) (dims : ℕ → ℕ) (dinv : ∀ l, Fin (dims l) → ℝ)
    (hd : ∀ l i, 0 < dinv l i)
    (estimate : ∀ l, ((Fin (dims l) → ℝ) → Fin (dims l) → ℝ) → (Fin (dims l) → ℝ) → List ℝ)
    (A : Matrix (Fin (dims 0)) (Fin (dims 0)) ℝ) (hA : IsSpd A) (start : Fin (dims 0) → ℝ)
    (hest : RitzContract start A (dinv 0) (estimate 0 A.mulVec (dinv 0)))
    (R : ∀ l, Matrix (Fin (dims (l + 1))) (Fin (dims l)) ℝ) (hR : ∀ l, IndependentRows (R l))
    (solve : ∀ l, Matrix (Fin (dims l)) (Fin (dims l)) ℝ → (Fin (dims l) → ℝ) → Fin (dims l) → ℝ)
    (hsolve : ∀ l, SolvesExactly (solve l)) (hlev : p.maxLevels.getD 2 = 2)
    (hfast : p.fastAp.getD false = false) (hpre : p.isPreconditioner = some false) :
    ∃ H, (buildHierarchy debug timer (some p) (.ok (matrixFreeHelpers debug type degree range maxEigenvalue
        auto dims dinv estimate A R solve))).result = .ok H ∧
      ∃ E : (Fin (dims 0) → ℝ) →ₗ[ℝ] (Fin (dims 0) → ℝ),
        (∀ b xs, A.mulVec xs = b → ∀ fresh x y, (H.vmult fresh x b).result = .ok y → xs - y = E (xs - x)) ∧
        (∀ u v, E u ⬝ᵥ A.mulVec v = u ⬝ᵥ A.mulVec (E v)) ∧ (∀ u, 0 ≤ E u ⬝ᵥ A.mulVec u) ∧
        ((∀ lam, ScaledEigenvalue A (dinv 0) lam →
          lam < upperEnd (estimate 0 A.mulVec (dinv 0)) + lowerEnd range (estimate 0 A.mulVec (dinv 0))) →
          ∀ u, E u ⬝ᵥ A.mulVec u ≤ energyOf A u ∧ energyOf A (E u) ≤ E u ⬝ᵥ A.mulVec u) := by
  obtain ⟨H, hH, hlin, hL, hp, hn⟩ := matrixFreeHelpers_build debug timer p type htype degree range maxEigenvalue
    auto dims dinv estimate A hA R hR solve hsolve hlev hfast
  refine ⟨H, hH, ?_⟩
  have hp' : H.isPreconditioner = false := by rw [hp, hpre]; rfl
  set ritz := estimate 0 A.mulVec (dinv 0) with hritz
  have hpos := ritz_pos hA (hd 0) hest
  set d : ChebyshevData ℝ := ⟨degree, range, maxEigenvalue⟩ with hdat
  set D := matrixFreeData d.settings auto dims ritz dinv A R with hD
  set φ : Forms ℝ (fun l => Fin (dims l) → ℝ) := fun l => dotForm (dims l) with hφ
  have hchain := matrixFreeData_chain d.settings auto dims ritz dinv A hA R hR H.numLevels
  have hspd := coarseMatrix_spd dims A hA R hR
  have hsym : Symmetric D φ H.numLevels := by
    refine ⟨hchain.form, hchain.A, ?_, hchain.RP, ?_⟩
    · intro l hl x y
      obtain rfl : l = 0 := by omega
      exact C78_symmetric d auto ritz hpos _ hA _ (hd 0) x y
    · intro l _ x y
      have hi : ((coarseMatrix dims A R l)⁻¹).transpose = (coarseMatrix dims A R l)⁻¹ := by
        rw [Matrix.transpose_nonsing_inv, (hspd l).1]
      change (coarseMatrix dims A R l)⁻¹.mulVec x ⬝ᵥ y = x ⬝ᵥ (coarseMatrix dims A R l)⁻¹.mulVec y
      rw [dotProduct_comm, form_symm hi]
  obtain ⟨T, hT⟩ : ∃ T, T = M D H.nSmoothingSteps (H.numLevels - 1) 0 := ⟨_, rfl⟩
  have hself : ∀ x y, T x ⬝ᵥ y = x ⬝ᵥ T y := by
    intro x y
    rw [hT]
    exact M_selfAdjoint hsym _ _ 0 (by omega) x y
  have hvar : Variational D φ H.numLevels := by
    refine ⟨hchain.galerkin, hchain.psd 0 (by omega), hchain.solvable, ?_⟩
    intro l hl x
    refine le_of_eq ?_
    rw [← hchain.A l (by omega), hchain.exact l hl]
    rfl
  refine ⟨LinearMap.id - T.comp (D.A 0), ?_, ?_, ?_, ?_⟩
  · intro b xs hxs fresh x y hy
    rw [vmult_sa H D hlin hp' (by omega), ← hT] at hy
    rw [← Outcome.ok.inj hy, ← hxs]
    change xs - (x + T (D.A 0 xs - D.A 0 x)) = (xs - x) - T (D.A 0 (xs - x))
    rw [map_sub (D.A 0), sub_sub]
  · intro u v
    change (u - T (A.mulVec u)) ⬝ᵥ A.mulVec v = u ⬝ᵥ A.mulVec (v - T (A.mulVec v))
    rw [sub_dotProduct, Matrix.mulVec_sub, dotProduct_sub, hself, form_symm hA.1 u (T (A.mulVec v)),
      dotProduct_comm (T (A.mulVec v))]
  · intro u
    change 0 ≤ (u - T (A.mulVec u)) ⬝ᵥ A.mulVec u
    rw [sub_dotProduct, sub_nonneg, hT, dotProduct_comm u]
    exact M_upper hsym hvar H.nSmoothingSteps (H.numLevels - 1) 0 (by omega) u
  · intro hlam u
    have hB : ∀ l, l + 1 < H.numLevels → SmootherConvergent D φ l := by
      intro l hl x
      obtain rfl : l = 0 := by omega
      by_cases hx : x = 0
      · simp [hx]
      set w := D.B 0 x with hw
      have h1 : φ 0 (2 • w - D.B 0 (D.A 0 w)) x = 2 * (w ⬝ᵥ x) - w ⬝ᵥ A.mulVec w := by
        rw [map_sub, LinearMap.sub_apply, hsym.B 0 hl, ← hw, map_nsmul, LinearMap.smul_apply]
        change 2 • (w ⬝ᵥ x) - A.mulVec w ⬝ᵥ w = _
        rw [dotProduct_comm w (A.mulVec w), two_nsmul, two_mul]
      rw [h1]
      set u := A⁻¹.mulVec x with hu
      have hux : A.mulVec u = x := mulVec_inv (spd_det hA) x
      have hu0 : u ≠ 0 := by
        intro h
        rw [h, Matrix.mulVec_zero] at hux
        exact hx hux.symm
      have h2 := energy_gain hA.1 u w
      have h4 := chebLin_energy_lt d auto hpos hA (hd 0) hlam u hu0
      rw [hux, show chebLin d.settings auto ritz A (dinv 0) x = w from rfl, h2, hux] at h4
      linarith
    have hC : ∀ l, l + 1 = H.numLevels → ∀ x, 0 ≤ φ l (D.C l x) x := by
      intro l _ x
      set w := (coarseMatrix dims A R l)⁻¹.mulVec x with hw
      have hwx : (coarseMatrix dims A R l).mulVec w = x := mulVec_inv (spd_det (hspd l)) x
      change 0 ≤ w ⬝ᵥ x
      rw [← hwx]
      by_cases h0 : w = 0
      · simp [h0]
      · exact ((hspd l).2 w h0).le
    have hM : ∀ r, 0 ≤ T r ⬝ᵥ r := by
      intro r
      rw [hT]
      exact M_nonneg hsym _ _ 0 (by omega) hB hC r
    have hle : energyOf A (u - T (A.mulVec u)) ≤ energyOf A u - T (A.mulVec u) ⬝ᵥ A.mulVec u := by
      have h := energy_error_le_aux hsym hvar H.nSmoothingSteps (H.numLevels - 1) 0 (by omega) u (by
        intro r
        have := hM r
        rw [hT] at this
        exact this)
      rw [← hT] at h
      rw [energyOf, energyOf, dotProduct_comm (u - T (A.mulVec u)), dotProduct_comm u]
      exact h
    change (u - T (A.mulVec u)) ⬝ᵥ A.mulVec u ≤ energyOf A u ∧
      energyOf A (u - T (A.mulVec u)) ≤ (u - T (A.mulVec u)) ⬝ᵥ A.mulVec u
    rw [sub_dotProduct]
    exact ⟨sub_le_self _ (hM _), hle⟩

/-- **C125**, matrix-free with Chebyshev smoothing and two levels, for every degree, smoothing range and number of steps:
two corrections bound the error from below.  No condition on the eigenvalues is needed: it holds for the problems too for
which the cycles diverge (`C78_diverges`).  (Partial: two levels; on a third level this
smoother cannot be built, `matrixFreeSmoother`.) -/
theorem C125_matrix_free_partial (debug timer : Bool) (p : Params) (type : Option (List Char))
    (htype : EqNoCase (type.getD (chars! "Chebyshev")) (chars! "chebyshev")) (degree : Option ℤ)
    (range maxEigenvalue : Option ℝ) (auto : ℕ) (dims : ℕ → ℕ) (dinv : ∀ l, Fin (dims l) → ℝ)
    (hd : ∀ l i, 0 < dinv l i)
    (estimate : ∀ l, ((Fin (dims l) → ℝ) → Fin (dims l) → ℝ) → (Fin (dims l) → ℝ) → List ℝ)
    (A : Matrix (Fin (dims 0)) (Fin (dims 0)) ℝ) (hA : IsSpd A) (start : Fin (dims 0) → ℝ)
    (hest : RitzContract start A (dinv 0) (estimate 0 A.mulVec (dinv 0)))
    (R : ∀ l, Matrix (Fin (dims (l + 1))) (Fin (dims l)) ℝ) (hR : ∀ l, IndependentRows (R l))
    (solve : ∀ l, Matrix (Fin (dims l)) (Fin (dims l)) ℝ → (Fin (dims l) → ℝ) → Fin (dims l) → ℝ)
    (hsolve : ∀ l, SolvesExactly (solve l)) (hlev : p.maxLevels.getD 2 = 2)
    (hfast : p.fastAp.getD false = false) (hpre : p.isPreconditioner = some false) :
    ∃ H, (buildHierarchy debug timer (some p) (.ok (matrixFreeHelpers debug type degree range maxEigenvalue
        auto dims dinv estimate A R solve))).result = .ok H ∧
      ∀ b xs, A.mulVec xs = b → ∀ x : ℕ → Fin (dims 0) → ℝ,
        (∀ m, ∃ fresh, (H.vmult fresh (x m) b).result = .ok (x (m + 1))) → CorrectionsBound A xs x := by
  obtain ⟨H, hH, E, hE, hsym, -⟩ := matrixFree_propagation debug timer p type htype degree range maxEigenvalue auto
    dims dinv hd estimate A hA start hest R hR solve hsolve hlev hfast hpre
  refine ⟨H, hH, ?_⟩
  intro b xs hxs x hx
  refine corrections_of_propagation hA E hsym xs x fun m => ?_
  obtain ⟨fresh, hf⟩ := hx m
  exact hE b xs hxs fresh _ _ hf

/-- **C123**, matrix-free with Chebyshev smoothing and two levels, for every degree, smoothing range and number of steps,
also if the cycles diverge (`C78_diverges`): what `C123_cycles_partial` says.  (Partial: two levels; on a third level this
smoother cannot be built, `matrixFreeSmoother`.) -/
theorem C123_matrix_free_partial (debug timer : Bool) (p : Params) (type : Option (List Char))
    (htype : EqNoCase (type.getD (chars! "Chebyshev")) (chars! "chebyshev")) (degree : Option ℤ)
    (range maxEigenvalue : Option ℝ) (auto : ℕ) (dims : ℕ → ℕ) (dinv : ∀ l, Fin (dims l) → ℝ)
    (hd : ∀ l i, 0 < dinv l i)
    (estimate : ∀ l, ((Fin (dims l) → ℝ) → Fin (dims l) → ℝ) → (Fin (dims l) → ℝ) → List ℝ)
    (A : Matrix (Fin (dims 0)) (Fin (dims 0)) ℝ) (hA : IsSpd A) (start : Fin (dims 0) → ℝ)
    (hest : RitzContract start A (dinv 0) (estimate 0 A.mulVec (dinv 0)))
    (R : ∀ l, Matrix (Fin (dims (l + 1))) (Fin (dims l)) ℝ) (hR : ∀ l, IndependentRows (R l))
    (solve : ∀ l, Matrix (Fin (dims l)) (Fin (dims l)) ℝ → (Fin (dims l) → ℝ) → Fin (dims l) → ℝ)
    (hsolve : ∀ l, SolvesExactly (solve l)) (hlev : p.maxLevels.getD 2 = 2)
    (hfast : p.fastAp.getD false = false) (hpre : p.isPreconditioner = some false) :
    ∃ H, (buildHierarchy debug timer (some p) (.ok (matrixFreeHelpers debug type degree range maxEigenvalue
        auto dims dinv estimate A R solve))).result = .ok H ∧
      ∀ b xs, A.mulVec xs = b → ∀ x : ℕ → Fin (dims 0) → ℝ,
        (∀ m, ∃ fresh, (H.vmult fresh (x m) b).result = .ok (x (m + 1))) →
        RatesNeverImprove A (fun m => xs - x m) ∧ NeverOvershoots A (fun m => xs - x m) ∧
        RatesNeverImprove A (fun m => x (m + 1) - x m) ∧ NeverOvershoots A (fun m => x (m + 1) - x m) ∧
        (x 0 = 0 → ∀ m, energyOf A (x m) ≤ energyOf A (x (m + 1))) := by
  obtain ⟨H, hH, E, hE, hsym, hnn, -⟩ := matrixFree_propagation debug timer p type htype degree range maxEigenvalue auto
    dims dinv hd estimate A hA start hest R hR solve hsolve hlev hfast hpre
  refine ⟨H, hH, ?_⟩
  intro b xs hxs x hx
  have he : ∀ m, xs - x (m + 1) = E (xs - x m) := by
    intro m
    obtain ⟨fresh, hf⟩ := hx m
    exact hE b xs hxs fresh _ _ hf
  have hd : ∀ m, x (m + 1 + 1) - x (m + 1) = E (x (m + 1) - x m) := by
    intro m
    have h1 : x (m + 1) - x m = (xs - x m) - (xs - x (m + 1)) := by abel
    have h2 : x (m + 1 + 1) - x (m + 1) = (xs - x (m + 1)) - (xs - x (m + 1 + 1)) := by abel
    rw [h1, map_sub, ← he, ← he, h2]
  have h4 := moment_nonneg hA hsym hnn (e := fun m => x (m + 1) - x m) hd
  exact ⟨rates_sorted hA hsym he, moment_nonneg hA hsym hnn he,
    rates_sorted hA hsym (e := fun m => x (m + 1) - x m) hd, h4, fun h0 m => energies_grow hA h0 h4 m⟩

/-- **C123**, matrix-free with Chebyshev smoothing and two levels, under the condition of `C78_cycle_partial` on the
eigenvalues: the bounds of `C123_bounds_partial`.  (Partial: as above, and problems with larger eigenvalues.) -/
theorem C123_matrix_free_bounds_partial (debug timer : Bool) (p : Params) (type : Option (List Char))
    (htype : EqNoCase (type.getD (chars! "Chebyshev")) (chars! "chebyshev")) (degree : Option ℤ)
    (range maxEigenvalue : Option ℝ) (auto : ℕ) (dims : ℕ → ℕ) (dinv : ∀ l, Fin (dims l) → ℝ)
    (hd : ∀ l i, 0 < dinv l i)
    (estimate : ∀ l, ((Fin (dims l) → ℝ) → Fin (dims l) → ℝ) → (Fin (dims l) → ℝ) → List ℝ)
    (A : Matrix (Fin (dims 0)) (Fin (dims 0)) ℝ) (hA : IsSpd A) (start : Fin (dims 0) → ℝ)
    (hest : RitzContract start A (dinv 0) (estimate 0 A.mulVec (dinv 0)))
    (R : ∀ l, Matrix (Fin (dims (l + 1))) (Fin (dims l)) ℝ) (hR : ∀ l, IndependentRows (R l))
    (solve : ∀ l, Matrix (Fin (dims l)) (Fin (dims l)) ℝ → (Fin (dims l) → ℝ) → Fin (dims l) → ℝ)
    (hsolve : ∀ l, SolvesExactly (solve l)) (hlev : p.maxLevels.getD 2 = 2)
    (hfast : p.fastAp.getD false = false) (hpre : p.isPreconditioner = some false)
    (hlam : ∀ lam, ScaledEigenvalue A (dinv 0) lam →
      lam < upperEnd (estimate 0 A.mulVec (dinv 0)) + lowerEnd range (estimate 0 A.mulVec (dinv 0))) :
    ∃ H, (buildHierarchy debug timer (some p) (.ok (matrixFreeHelpers debug type degree range maxEigenvalue
        auto dims dinv estimate A R solve))).result = .ok H ∧
      ∀ b xs, A.mulVec xs = b → ∀ x : ℕ → Fin (dims 0) → ℝ,
        (∀ m, ∃ fresh, (H.vmult fresh (x m) b).result = .ok (x (m + 1))) →
        (∀ m, energyOf A (x (m + 1) - x m) ≤ energyOf A (xs - x m)) ∧
        (x 0 = 0 → ∀ m, energyOf A (x m) ≤ energyOf A (x (m + 1)) ∧ energyOf A (x m) ≤ energyOf A xs ∧
          b ⬝ᵥ x m ≤ b ⬝ᵥ x (m + 1) ∧ b ⬝ᵥ x m ≤ b ⬝ᵥ xs) := by
  obtain ⟨H, hH, E, hE, hsym, hnn, hle⟩ := matrixFree_propagation debug timer p type htype degree range maxEigenvalue
    auto dims dinv hd estimate A hA start hest R hR solve hsolve hlev hfast hpre
  obtain ⟨H', hH', hall⟩ := C123_matrix_free_partial debug timer p type htype degree range maxEigenvalue auto dims dinv
    hd estimate A hA start hest R hR solve hsolve hlev hfast hpre
  obtain rfl := Outcome.ok.inj (hH'.symm.trans hH)
  refine ⟨H', hH, ?_⟩
  intro b xs hxs x hx
  obtain ⟨-, h2, -, -, h5⟩ := hall b xs hxs x hx
  refine bounds_of_propagation E hsym (hle hlam) hxs ?_ h2 h5
  intro m
  obtain ⟨fresh, hf⟩ := hx m
  exact hE b xs hxs fresh _ _ hf

/-- **C127**, matrix-free with Chebyshev smoothing and two levels: under the conditions of `C92_chebyshev_partial` what
the program returns has an error of at most the tolerance, divided by a lower bound of the eigenvalues of the matrix. -/
theorem C127_chebyshev_partial (debug timer : Bool) (p : Params) (type : Option (List Char))
    (htype : EqNoCase (type.getD (chars! "Chebyshev")) (chars! "chebyshev")) (degree : Option ℤ)
    (range maxEigenvalue : Option ℝ) (auto : ℕ) (dims : ℕ → ℕ) (dinv : ∀ l, Fin (dims l) → ℝ)
    (hd : ∀ l i, 0 < dinv l i)
    (estimate : ∀ l, ((Fin (dims l) → ℝ) → Fin (dims l) → ℝ) → (Fin (dims l) → ℝ) → List ℝ)
    (A : Matrix (Fin (dims 0)) (Fin (dims 0)) ℝ) (hA : IsSpd A) (start : Fin (dims 0) → ℝ)
    (hest : RitzContract start A (dinv 0) (estimate 0 A.mulVec (dinv 0)))
    (R : ∀ l, Matrix (Fin (dims (l + 1))) (Fin (dims l)) ℝ) (hR : ∀ l, IndependentRows (R l))
    (solve : ∀ l, Matrix (Fin (dims l)) (Fin (dims l)) ℝ → (Fin (dims l) → ℝ) → Fin (dims l) → ℝ)
    (hsolve : ∀ l, SolvesExactly (solve l)) (hlev : p.maxLevels.getD 2 = 2)
    (hfast : p.fastAp.getD false = false) (hpre : p.isPreconditioner.getD true = true)
    (hsteps : 0 < toUnsigned (p.nSmoothingSteps.getD 1))
    (hlam : ∀ lam, ScaledEigenvalue A (dinv 0) lam →
      lam < upperEnd (estimate 0 A.mulVec (dinv 0)) + lowerEnd range (estimate 0 A.mulVec (dinv 0)))
    (bound : ℝ) (h0 : 0 ≤ bound) (hbound : BoundedBelow A bound) :
    ∃ H, (buildHierarchy debug timer (some p) (.ok (matrixFreeHelpers debug type degree range maxEigenvalue
        auto dims dinv estimate A R solve))).result = .ok H ∧
      ∀ fresh h, ErrorWithin A (fun tol2 b x => driverSolve debug A H fresh tol2 b x h) bound := by
  obtain ⟨H, hH, h⟩ := C92_chebyshev_partial debug timer p type htype degree range maxEigenvalue auto dims dinv hd
    estimate A hA start hest R hR solve hsolve hlev hfast hpre hsteps hlam
  exact ⟨H, hH, fun fresh h' => errorWithin_of_solves (h fresh h') h0 hbound⟩

section examples

/-- Two unknowns, degree three. -/
example : ∃ H, (buildHierarchy true false (some { isPreconditioner := some false })
      (.ok (matrixFreeHelpers true none (some 3) none none 0 (twoLevels 2 1) (fun _ _ => 1)
        (fun _ _ _ => [1 / 2, 3 / 2]) (signMatrix exPair (1 / 2)) (twoLevelRestriction exSumRow)
        (fun l => exInvSolve l (twoLevels 2 1))))).result = .ok H ∧
    ∀ b xs, (signMatrix exPair (1 / 2)).mulVec xs = b → ∀ x : ℕ → Fin (twoLevels 2 1 0) → ℝ,
      (∀ m, ∃ fresh, (H.vmult fresh (x m) b).result = .ok (x (m + 1))) →
        CorrectionsBound (signMatrix exPair (1 / 2)) xs x :=
  C125_matrix_free_partial true false _ none exName (some 3) none none 0 (twoLevels 2 1) (fun _ _ => 1)
    (fun _ _ => one_pos) (fun _ _ _ => [1 / 2, 3 / 2]) (signMatrix exPair (1 / 2)) exPair_spd ![1, 0] exPair_ritz
    (twoLevelRestriction exSumRow) (twoLevelRestriction_independent exSumRow_independent) _
    (fun l => exInvSolve_exact _ l) rfl rfl rfl

/-- The same case: the errors never change direction. -/
example := C123_matrix_free_partial true false { isPreconditioner := some false } none exName (some 3) none none 0
  (twoLevels 2 1) (fun _ _ => 1) (fun _ _ => one_pos) (fun _ _ _ => [1 / 2, 3 / 2]) (signMatrix exPair (1 / 2))
  exPair_spd ![1, 0] exPair_ritz (twoLevelRestriction exSumRow) (twoLevelRestriction_independent exSumRow_independent)
  (fun l => exInvSolve l (twoLevels 2 1)) (fun l => exInvSolve_exact _ l) rfl rfl rfl

/-- The same case: the bounds. -/
example := C123_matrix_free_bounds_partial true false { isPreconditioner := some false } none exName (some 3) none none 0
  (twoLevels 2 1) (fun _ _ => 1) (fun _ _ => one_pos) (fun _ _ _ => [1 / 2, 3 / 2]) (signMatrix exPair (1 / 2))
  exPair_spd ![1, 0] exPair_ritz (twoLevelRestriction exSumRow) (twoLevelRestriction_independent exSumRow_independent)
  (fun l => exInvSolve l (twoLevels 2 1)) (fun l => exInvSolve_exact _ l) rfl rfl rfl exPair_bound

/-- The same matrix, with the lower bound 1/2. -/
example : ∃ H, (buildHierarchy true false (some {})
      (.ok (matrixFreeHelpers true none (some 3) none none 0 (twoLevels 2 1) (fun _ _ => 1)
        (fun _ _ _ => [1 / 2, 3 / 2]) (signMatrix exPair (1 / 2)) (twoLevelRestriction exSumRow)
        (fun l => exInvSolve l (twoLevels 2 1))))).result = .ok H ∧
    ∀ fresh h, ErrorWithin (signMatrix exPair (1 / 2)) (fun tol2 b x =>
      driverSolve (dims := twoLevels 2 1) true (signMatrix exPair (1 / 2)) H fresh tol2 b x h) (1 / 2) :=
  C127_chebyshev_partial true false _ none exName (some 3) none none 0 (twoLevels 2 1) (fun _ _ => 1)
    (fun _ _ => one_pos) (fun _ _ _ => [1 / 2, 3 / 2]) (signMatrix exPair (1 / 2)) exPair_spd ![1, 0] exPair_ritz
    (twoLevelRestriction exSumRow) (twoLevelRestriction_independent exSumRow_independent) _
    (fun l => exInvSolve_exact _ l) rfl rfl rfl (by decide) exPair_bound (1 / 2) (by norm_num) (by
      intro v
      change Fin 2 → ℝ at v
      change 1 / 2 * (v ⬝ᵥ v) ≤ v ⬝ᵥ (signMatrix exPair (1 / 2)).mulVec v
      obtain ⟨h0, h1⟩ := exPair_mulVec v
      simp only [dotProduct, Fin.sum_univ_two]
      rw [h0, h1]
      nlinarith [sq_nonneg (v 0 - v 1)])

end examples

end Mfmg
