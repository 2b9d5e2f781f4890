import Verif.Spec.Unsymmetric
import Verif.Lemmas.CgCoarse
import Verif.Spec.TwoLevel
import Mathlib.LinearAlgebra.Matrix.Notation

/-!
# C120: systems that are not symmetric

The claim: for every matrix `A` with `vᵀ A v > 0` (`v ≠ 0`), symmetric or not, the hierarchy can be built and its
cycles converge to the solution.  The first half is true (`C120_solvable`), the second is not (`C120_violated`);
what the coarse correction still guarantees is `C120_correction`, and `C120_converges_partial` is what remains of the
second half.
-/

set_option autoImplicit false

namespace Mfmg

open Spec

section

variable {K : Type} [Field K] [LinearOrder K] [IsStrictOrderedRing K]

/-! ### Every level -/

omit [IsStrictOrderedRing K] in
theorem positive_ne {n : ℕ} {A : Matrix (Fin n) (Fin n) K} (hA : IsPositive A) {v : Fin n → K} (hv : v ≠ 0) :
    A.mulVec v ≠ 0 := by
  intro h
  have := hA v hv
  rw [h, dotProduct_zero] at this
  exact lt_irrefl _ this

omit [IsStrictOrderedRing K] in
theorem positive_det {n : ℕ} {A : Matrix (Fin n) (Fin n) K} (hA : IsPositive A) : A.det ≠ 0 := by
  intro h
  obtain ⟨v, hv, h0⟩ := Matrix.exists_mulVec_eq_zero_iff.2 h
  exact positive_ne hA hv h0

omit [IsStrictOrderedRing K] in
theorem positive_injective {n : ℕ} {A : Matrix (Fin n) (Fin n) K} (hA : IsPositive A) {u v : Fin n → K}
    (h : A.mulVec u = A.mulVec v) : u = v := by
  by_contra hne
  exact positive_ne hA (sub_ne_zero.2 hne) (by rw [Matrix.mulVec_sub, h, sub_self])

omit [IsStrictOrderedRing K] in
theorem coarseMatrix_positive (dims : ℕ → ℕ) (A : Matrix (Fin (dims 0)) (Fin (dims 0)) K) (hA : IsPositive A)
    (R : ∀ l, Matrix (Fin (dims (l + 1))) (Fin (dims l)) K) (hR : ∀ l, IndependentRows (R l)) (l : ℕ) :
    IsPositive (coarseMatrix dims A R l) := by
  induction l with
  | zero => exact hA
  | succ l ih =>
    intro y hy
    change 0 < y ⬝ᵥ (galerkin (R l) (coarseMatrix dims A R l)).mulVec y
    rw [galerkin_form]
    exact ih _ fun h => hy (hR l y h)

omit [IsStrictOrderedRing K] in
/-- Construction gives the textbook hierarchy with exact coarse solves. -/
theorem matrixHelpers_build_positive (debug timer : Bool) (p : Params) (type : Option (List Char))
    (k : SmootherKind) (kind : Relaxation) (hk : dealiiSmoother debug true type = .ok k)
    (hk' : k.relaxation = some kind) (dims : ℕ → ℕ) (procs : ∀ l, List (List (Fin (dims l))))
    (A : Matrix (Fin (dims 0)) (Fin (dims 0)) K) (hA : IsPositive A)
    (R : ∀ l, Matrix (Fin (dims (l + 1))) (Fin (dims l)) K) (hR : ∀ l, IndependentRows (R l))
    (solve : ∀ l, Matrix (Fin (dims l)) (Fin (dims l)) K → (Fin (dims l) → K) → Fin (dims l) → K)
    (hsolve : ∀ l, SolvesExactly (solve l)) (hpos : 0 < p.maxLevels.getD 2)
    (hfast : p.fastAp.getD false = false) :
    ∃ H, (buildHierarchy debug timer (some p)
        (.ok (matrixHelpers debug type dims procs A R solve))).result = .ok H ∧
      IsLinear H (matrixData kind dims procs A R) ∧ H.numLevels = (p.maxLevels.getD 2).toNat ∧
      H.isPreconditioner = p.isPreconditioner.getD true ∧
      H.nSmoothingSteps = toUnsigned (p.nSmoothingSteps.getD 1) :=
  matrixHelpers_build_linear debug timer p type k kind hk hk' dims procs A R solve
    (fun l => (coarseMatrix dims A R l)⁻¹.mulVecLin) (by
      intro l b
      have hd := coarseMatrix_positive dims A hA R hR l
      refine positive_injective hd ?_
      rw [hsolve l _ b (positive_det hd)]
      exact (mulVec_inv (positive_det hd) b).symm) hpos hfast

omit [IsStrictOrderedRing K] in
/-- **C120**, the first half: the matrices of all levels are positive, so that every coarse problem has exactly one
solution; construction succeeds; and an application to the solution of the system leaves it as it is. -/
theorem C120_solvable (debug timer : Bool) (p : Params) (type : Option (List Char)) (k : SmootherKind)
    (kind : Relaxation) (hk : dealiiSmoother debug true type = .ok k) (hk' : k.relaxation = some kind)
    (dims : ℕ → ℕ) (procs : ∀ l, List (List (Fin (dims l))))
    (A : Matrix (Fin (dims 0)) (Fin (dims 0)) K) (hA : IsPositive A)
    (R : ∀ l, Matrix (Fin (dims (l + 1))) (Fin (dims l)) K) (hR : ∀ l, IndependentRows (R l))
    (solve : ∀ l, Matrix (Fin (dims l)) (Fin (dims l)) K → (Fin (dims l) → K) → Fin (dims l) → K)
    (hsolve : ∀ l, SolvesExactly (solve l)) (hlev : 2 ≤ p.maxLevels.getD 2)
    (hfast : p.fastAp.getD false = false) (hpre : p.isPreconditioner = some false) :
    (∀ l, IsPositive (coarseMatrix dims A R l) ∧ ∀ b, ∃! x, (coarseMatrix dims A R l).mulVec x = b) ∧
    ∃ H, (buildHierarchy debug timer (some p)
        (.ok (matrixHelpers debug type dims procs A R solve))).result = .ok H ∧
      ∀ fresh (xs b : Fin (dims 0) → K), A.mulVec xs = b → (H.vmult fresh xs b).result = .ok xs := by
  have hc := coarseMatrix_positive dims A hA R hR
  refine ⟨fun l => ⟨hc l, fun b => ⟨_, mulVec_inv (positive_det (hc l)) b, ?_⟩⟩, ?_⟩
  · intro y hy
    exact positive_injective (hc l) (hy.trans (mulVec_inv (positive_det (hc l)) b).symm)
  · obtain ⟨H, hH, hlin, hL, hp, -⟩ := matrixHelpers_build_positive debug timer p type k kind hk hk' dims procs A hA
      R hR solve hsolve (by omega) hfast
    refine ⟨H, hH, fun fresh xs b hxs => ?_⟩
    rw [vmult_sa H _ hlin (by rw [hp, hpre]; rfl) (by omega)]
    have e : b - (matrixData kind dims procs A R).A 0 xs = 0 := sub_eq_zero.2 hxs.symm
    rw [e, map_zero, add_zero]

/-! ### Two levels -/

omit [LinearOrder K] [IsStrictOrderedRing K] in
/-- The error after one smoothing step. -/
theorem richardson_error {V : ℕ → Type} [∀ l, AddCommGroup (V l)] [∀ l, Module K (V l)] (D : Data K V) (l : ℕ)
    (b x xs : V l) (hxs : D.A l xs = b) :
    xs - richardson D l b x = (xs - x) - D.B l (D.A l (xs - x)) := by
  rw [richardson, map_sub (D.A l), hxs]
  abel

/-- The correction from the coarse level: what it is measured against may be anything reached by coarse corrections. -/
theorem correction_quasi_optimal {n m : ℕ} {A : Matrix (Fin n) (Fin n) K} (hA : IsPositive A) {κ : K}
    (hκ : SkewnessAtMost A κ) (R : Matrix (Fin m) (Fin n) K) (e : Fin n → K) (c w : Fin m → K)
    (hc : R.mulVec (A.mulVec (e - R.transpose.mulVec c)) = 0) :
    energyOf A (e - R.transpose.mulVec c) ≤ κ * energyOf A (e - R.transpose.mulVec w) := by
  set e' := e - R.transpose.mulVec c with he'
  have horth : ∀ y, R.transpose.mulVec y ⬝ᵥ A.mulVec e' = 0 := by
    intro y
    rw [Matrix.mulVec_transpose, ← Matrix.dotProduct_mulVec, hc, dotProduct_zero]
  have hen : energyOf A e' = (e - R.transpose.mulVec w) ⬝ᵥ A.mulVec e' := by
    have h1 : e' = (e - R.transpose.mulVec w) + R.transpose.mulVec (w - c) := by
      rw [he', Matrix.mulVec_sub]
      abel
    have h2 : e' ⬝ᵥ A.mulVec e' = (e - R.transpose.mulVec w) ⬝ᵥ A.mulVec e' := by
      conv_lhs => lhs; rw [h1]
      rw [add_dotProduct, horth, add_zero]
    exact h2
  by_cases h0 : e' = 0
  · have hz : energyOf A e' = 0 := by rw [h0, energyOf, Matrix.mulVec_zero, dotProduct_zero]
    rw [hz]
    by_cases hw : e - R.transpose.mulVec w = 0
    · rw [hw, energyOf, Matrix.mulVec_zero, dotProduct_zero, mul_zero]
    · have h1 := hκ (e - R.transpose.mulVec w) (e - R.transpose.mulVec w)
      have h2 : 0 < energyOf A (e - R.transpose.mulVec w) := hA _ hw
      have h3 : 0 ≤ κ * (energyOf A (e - R.transpose.mulVec w) * energyOf A (e - R.transpose.mulVec w)) :=
        (mul_self_nonneg _).trans h1
      rw [← mul_assoc] at h3
      exact nonneg_of_mul_nonneg_left h3 h2
  · have hpos : 0 < energyOf A e' := hA _ h0
    have h1 := hκ (e - R.transpose.mulVec w) e'
    rw [← hen, ← mul_assoc] at h1
    exact le_of_mul_le_mul_right h1 hpos

/-- One cycle on two levels: smoothing, a coarse correction that is optimal up to the factor `κ`, smoothing. -/
theorem two_level_positive {dims : ℕ → ℕ} (kind : Relaxation) (procs : ∀ l, List (List (Fin (dims l))))
    {A : Matrix (Fin (dims 0)) (Fin (dims 0)) K} (hA : IsPositive A) {κ : K} (hκ : SkewnessAtMost A κ)
    {R : ∀ l, Matrix (Fin (dims (l + 1))) (Fin (dims l)) K} (hR : ∀ l, IndependentRows (R l)) (n : ℕ)
    (x b xs : Fin (dims 0) → K) (hxs : A.mulVec xs = b) (y₁ : Fin (dims 0) → K)
    (hy₁ : y₁ = (richardson (matrixData kind dims procs A R) 0 b)^[n] x) :
    ∃ y₂ c, cycle (matrixData kind dims procs A R) n 1 0 b x
        = (richardson (matrixData kind dims procs A R) 0 b)^[n] y₂ ∧
      y₂ = y₁ + (R 0).transpose.mulVec c ∧ (R 0).mulVec (b - A.mulVec y₂) = 0 ∧
      ∀ w, energyOf A (xs - y₂) ≤ κ * energyOf A (xs - (y₁ + (R 0).transpose.mulVec w)) := by
  set c := (coarseMatrix dims A R 1)⁻¹.mulVec ((R 0).mulVec (b - A.mulVec y₁)) with hc
  have hG : (galerkin (R 0) A).mulVec c = (R 0).mulVec (b - A.mulVec y₁) :=
    mulVec_inv (positive_det (coarseMatrix_positive dims A hA R hR 1)) _
  have hz : (R 0).mulVec (b - A.mulVec (y₁ + (R 0).transpose.mulVec c)) = 0 := by
    have h1 : ∀ v, (galerkin (R 0) A).mulVec v = (R 0).mulVec (A.mulVec ((R 0).transpose.mulVec v)) := by
      intro v
      rw [galerkin, Matrix.mulVec_mulVec, Matrix.mulVec_mulVec, Matrix.mul_assoc]
    rw [Matrix.mulVec_add, ← sub_sub, Matrix.mulVec_sub, ← h1, hG, sub_self]
  refine ⟨y₁ + (R 0).transpose.mulVec c, c, ?_, rfl, hz, fun w => ?_⟩
  · rw [hy₁] at hc
    rw [hc, hy₁]
    rfl
  · rw [← sub_sub, ← sub_sub]
    refine correction_quasi_optimal hA hκ (R 0) _ c w ?_
    rw [sub_sub, Matrix.mulVec_sub, hxs]
    exact hz

/-- **C120**, what the coarse level still does: the correction makes the residual vanish on the coarse space, and up to
the factor `κ` no correction from the coarse space leaves a smaller error. -/
theorem C120_correction (debug timer : Bool) (p : Params) (type : Option (List Char)) (k : SmootherKind)
    (kind : Relaxation) (hk : dealiiSmoother debug true type = .ok k) (hk' : k.relaxation = some kind)
    (dims : ℕ → ℕ) (procs : ∀ l, List (List (Fin (dims l))))
    (A : Matrix (Fin (dims 0)) (Fin (dims 0)) K) (hA : IsPositive A) (κ : K) (hκ : SkewnessAtMost A κ)
    (R : ∀ l, Matrix (Fin (dims (l + 1))) (Fin (dims l)) K) (hR : ∀ l, IndependentRows (R l))
    (solve : ∀ l, Matrix (Fin (dims l)) (Fin (dims l)) K → (Fin (dims l) → K) → Fin (dims l) → K)
    (hsolve : ∀ l, SolvesExactly (solve l)) (hlev : p.maxLevels.getD 2 = 2)
    (hfast : p.fastAp.getD false = false) (hpre : p.isPreconditioner = some false)
    (hsteps : p.nSmoothingSteps = some 0) :
    ∃ H, (buildHierarchy debug timer (some p)
        (.ok (matrixHelpers debug type dims procs A R solve))).result = .ok H ∧
      ∀ fresh (x b xs : Fin (dims 0) → K), A.mulVec xs = b →
        ∃ y, (H.vmult fresh x b).result = .ok y ∧ (R 0).mulVec (b - A.mulVec y) = 0 ∧
          ∀ w, energyOf A (xs - y) ≤ κ * energyOf A (xs - (x + (R 0).transpose.mulVec w)) := by
  obtain ⟨H, hH, hlin, hL, hp, hn⟩ := matrixHelpers_build_positive debug timer p type k kind hk hk' dims procs A hA
    R hR solve hsolve (by omega) hfast
  refine ⟨H, hH, fun fresh x b xs hxs => ?_⟩
  have hn0 : H.nSmoothingSteps = 0 := by rw [hn, hsteps]; rfl
  have hL2 : H.numLevels - 1 = 1 := by rw [hL, hlev]; rfl
  obtain ⟨y₂, c, h1, h2, h3, h4⟩ := two_level_positive kind procs hA hκ hR 0 x b xs hxs x rfl
  refine ⟨y₂, ?_, h3, h4⟩
  rw [C04_cycle_is_textbook H _ hlin fresh x b (Or.inr (by omega)), hp, hpre, hn0, hL2]
  exact congrArg Outcome.ok h1

/-- **C120**, what remains of the second half: if one smoothing step multiplies the energy of every error by at most
`ρ`, a cycle on two levels multiplies it by at most `ρ^(2n) κ`, with `n` the number of smoothing steps; and `κ` is one
for symmetric matrices.  Missing, because false (`C120_violated`): that some smoothing makes this less than one. -/
theorem C120_converges_partial (debug timer : Bool) (p : Params) (type : Option (List Char)) (k : SmootherKind)
    (kind : Relaxation) (hk : dealiiSmoother debug true type = .ok k) (hk' : k.relaxation = some kind)
    (dims : ℕ → ℕ) (procs : ∀ l, List (List (Fin (dims l))))
    (A : Matrix (Fin (dims 0)) (Fin (dims 0)) K) (hA : IsPositive A) (κ : K) (hκ : SkewnessAtMost A κ)
    (ρ : K) (hρ : ∀ e, energyOf A (e - relaxVmult kind A (procs 0) (A.mulVec e)) ≤ ρ * energyOf A e)
    (hρ0 : 0 ≤ ρ) (hκ0 : 0 ≤ κ)
    (R : ∀ l, Matrix (Fin (dims (l + 1))) (Fin (dims l)) K) (hR : ∀ l, IndependentRows (R l))
    (solve : ∀ l, Matrix (Fin (dims l)) (Fin (dims l)) K → (Fin (dims l) → K) → Fin (dims l) → K)
    (hsolve : ∀ l, SolvesExactly (solve l)) (hlev : p.maxLevels.getD 2 = 2)
    (hfast : p.fastAp.getD false = false) (hpre : p.isPreconditioner = some false) :
    ∃ H, (buildHierarchy debug timer (some p)
        (.ok (matrixHelpers debug type dims procs A R solve))).result = .ok H ∧
      ∀ fresh (x b xs : Fin (dims 0) → K), A.mulVec xs = b →
        ∃ y, (H.vmult fresh x b).result = .ok y ∧
          energyOf A (xs - y)
            ≤ ρ ^ (2 * toUnsigned (p.nSmoothingSteps.getD 1)) * κ * energyOf A (xs - x) := by
  obtain ⟨H, hH, hlin, hL, hp, hn⟩ := matrixHelpers_build_positive debug timer p type k kind hk hk' dims procs A hA
    R hR solve hsolve (by omega) hfast
  refine ⟨H, hH, fun fresh x b xs hxs => ?_⟩
  have hL2 : H.numLevels - 1 = 1 := by rw [hL, hlev]; rfl
  set n := toUnsigned (p.nSmoothingSteps.getD 1) with hndef
  set D := matrixData kind dims procs A R with hD
  have hsm : ∀ (m : ℕ) (z : Fin (dims 0) → K),
      energyOf A (xs - (richardson D 0 b)^[m] z) ≤ ρ ^ m * energyOf A (xs - z) := by
    intro m
    induction m with
    | zero => intro z; rw [Function.iterate_zero, id, pow_zero, one_mul]
    | succ m ih =>
      intro z
      rw [Function.iterate_succ_apply']
      have h1 := richardson_error D 0 b ((richardson D 0 b)^[m] z) xs hxs
      have h2 := hρ (xs - (richardson D 0 b)^[m] z)
      have h3 : energyOf A (xs - richardson D 0 b ((richardson D 0 b)^[m] z))
          ≤ ρ * energyOf A (xs - (richardson D 0 b)^[m] z) := by
        rw [h1]
        exact h2
      refine h3.trans ((mul_le_mul_of_nonneg_left (ih z) hρ0).trans (le_of_eq ?_))
      rw [pow_succ]
      ring
  obtain ⟨y₂, c, h1, h2, h3, h4⟩ := two_level_positive kind procs hA hκ hR n x b xs hxs _ rfl
  refine ⟨_, (C04_cycle_is_textbook H _ hlin fresh x b (Or.inr (by omega))), ?_⟩
  rw [hp, hpre, hn, hL2]
  change energyOf A (xs - cycle D n 1 0 b x) ≤ _
  rw [h1]
  have h5 := h4 0
  rw [Matrix.mulVec_zero, add_zero] at h5
  calc energyOf A (xs - (richardson D 0 b)^[n] y₂) ≤ ρ ^ n * energyOf A (xs - y₂) := hsm n y₂
    _ ≤ ρ ^ n * (κ * energyOf A (xs - (richardson D 0 b)^[n] x)) :=
        mul_le_mul_of_nonneg_left h5 (pow_nonneg hρ0 n)
    _ ≤ ρ ^ n * (κ * (ρ ^ n * energyOf A (xs - x))) :=
        mul_le_mul_of_nonneg_left (mul_le_mul_of_nonneg_left (hsm n x) hκ0) (pow_nonneg hρ0 n)
    _ = ρ ^ (2 * n) * κ * energyOf A (xs - x) := by ring

/-! ### Where it fails -/

/-- The identity plus a rotation by a right angle, `k` times as large. -/
def rotation (k : K) : Matrix (Fin 2) (Fin 2) K := !![1, -k; k, 1]

/-- The coarse space consists of the first unknown. -/
def firstUnknown : Matrix (Fin 1) (Fin 2) K := !![1, 0]

/-- One process has all the rows. -/
def allRows : ∀ l, List (List (Fin (twoLevels 2 1 l)))
  | 0 => [[(0 : Fin 2), (1 : Fin 2)]]
  | _ + 1 => [[(0 : Fin 1)]]

theorem rotation_positive (k : K) : IsPositive (rotation k) := by
  intro v hv
  have h : v ⬝ᵥ (rotation k).mulVec v = v 0 ^ 2 + v 1 ^ 2 := by
    simp [rotation, Matrix.mulVec, dotProduct, Fin.sum_univ_two]
    ring
  rw [h]
  obtain ⟨i, hi⟩ := Function.ne_iff.1 hv
  have hi' : v i ≠ 0 := hi
  have h0 := sq_nonneg (v 0)
  have h1 := sq_nonneg (v 1)
  fin_cases i
  · have : 0 < v 0 ^ 2 := by positivity
    linarith
  · have : 0 < v 1 ^ 2 := by positivity
    linarith

omit [LinearOrder K] [IsStrictOrderedRing K] in
theorem firstUnknown_rows : IndependentRows (firstUnknown (K := K)) := by
  intro y hy
  have h := congrFun hy 0
  funext i
  rw [Subsingleton.elim i 0]
  simpa [firstUnknown, Matrix.mulVec, dotProduct] using h

omit [LinearOrder K] [IsStrictOrderedRing K] in
theorem firstUnknown_independent (l : ℕ) : IndependentRows (twoLevelRestriction (firstUnknown (K := K)) l) := by
  intro y hy
  cases l with
  | zero => exact firstUnknown_rows y hy
  | succ l =>
    exact ((Matrix.one_mulVec y).symm.trans
      (congrArg (fun M : Matrix (Fin 1) (Fin 1) K => M.mulVec y) Matrix.transpose_one.symm)).trans hy

omit [LinearOrder K] [IsStrictOrderedRing K] in
/-- One step of (symmetric) Gauss-Seidel multiplies the second component of the error by `-k²`. -/
theorem rotation_sweep (k : K) (kind : Relaxation) (hkind : kind = .symmetricGaussSeidel ∨ kind = .gaussSeidel)
    (e : Fin 2 → K) :
    (e - relaxVmult kind (rotation k) [[0, 1]] ((rotation k).mulVec e)) 1 = -(k * k) * e 1 := by
  rcases hkind with rfl | rfl <;>
    simp [relaxVmult, localVmult, relaxRow, rotation, dotProduct, Fin.sum_univ_two] <;> ring

/-- **C120** is false: for every `k` with `k² > 1` the matrix with rows `(1, -k)` and `(k, 1)` is positive, but with
(symmetric) Gauss-Seidel smoothing and the first unknown as the coarse space every cycle multiplies the second
component of the error by `k^(4n)`.  With at least one smoothing step the cycles diverge from every start with an error
in that component. -/
theorem C120_violated [Archimedean K] (debug timer : Bool) (p : Params) (type : Option (List Char))
    (htype : dealiiSmoother debug true type = .ok .symmetricGaussSeidel ∨
      dealiiSmoother debug true type = .ok .gaussSeidel) (k : K) (hk : 1 < k * k)
    (solve : ∀ l, Matrix (Fin (twoLevels 2 1 l)) (Fin (twoLevels 2 1 l)) K → (Fin (twoLevels 2 1 l) → K) →
      Fin (twoLevels 2 1 l) → K)
    (hsolve : ∀ l, SolvesExactly (solve l)) (hlev : p.maxLevels.getD 2 = 2)
    (hfast : p.fastAp.getD false = false) (hpre : p.isPreconditioner = some false)
    (hsteps : 0 < toUnsigned (p.nSmoothingSteps.getD 1)) :
    IsPositive (rotation k) ∧
    ∃ H, (buildHierarchy debug timer (some p) (.ok (matrixHelpers debug type (twoLevels 2 1) allRows (rotation k)
        (twoLevelRestriction firstUnknown) solve))).result = .ok H ∧
      ∀ (b xs : Fin 2 → K), (rotation k).mulVec xs = b →
        (∀ fresh (x : Fin 2 → K), ∃ y : Fin 2 → K, (H.vmult fresh x b).result = .ok y ∧
          (xs - y) 1 = (k * k) ^ (2 * toUnsigned (p.nSmoothingSteps.getD 1)) * (xs - x) 1) ∧
        ∀ (y : ℕ → Fin 2 → K), (∀ m, ∃ fresh, (H.vmult fresh (y m) b).result = .ok (y (m + 1))) → y 0 1 ≠ xs 1 →
          ∀ bound, ∃ m, bound < |(xs - y m) 1| := by
  refine ⟨rotation_positive k, ?_⟩
  obtain ⟨kd, kind, hkd, hkd', hkind⟩ : ∃ kd kind, dealiiSmoother debug true type = .ok kd ∧
      kd.relaxation = some kind ∧ (kind = .symmetricGaussSeidel ∨ kind = .gaussSeidel) := by
    rcases htype with h | h
    · exact ⟨_, _, h, rfl, Or.inl rfl⟩
    · exact ⟨_, _, h, rfl, Or.inr rfl⟩
  obtain ⟨H, hH, hlin, hL, hp, hn⟩ := matrixHelpers_build_positive debug timer p type kd kind hkd hkd' (twoLevels 2 1)
    allRows (rotation k) (rotation_positive k) (twoLevelRestriction firstUnknown) firstUnknown_independent solve hsolve (by omega) hfast
  refine ⟨H, hH, fun b xs hxs => ?_⟩
  have hL2 : H.numLevels - 1 = 1 := by rw [hL, hlev]; rfl
  set n := toUnsigned (p.nSmoothingSteps.getD 1) with hndef
  set D := matrixData kind (twoLevels 2 1) allRows (rotation k) (twoLevelRestriction firstUnknown) with hD
  have hstep : ∀ z : Fin 2 → K, xs 1 - richardson D 0 b z (1 : Fin 2) = -(k * k) * (xs 1 - z 1) := by
    intro z
    have h1 := congrFun (richardson_error D 0 b z xs hxs) (1 : Fin 2)
    exact h1.trans (rotation_sweep k kind hkind (xs - z))
  have hsm : ∀ (m : ℕ) (z : Fin 2 → K),
      xs 1 - ((richardson D 0 b)^[m] z) (1 : Fin 2) = (-(k * k)) ^ m * (xs 1 - z 1) := by
    intro m
    induction m with
    | zero => intro z; rw [pow_zero, one_mul]; rfl
    | succ m ih =>
      intro z
      have e : (richardson D 0 b)^[m + 1] z = richardson D 0 b ((richardson D 0 b)^[m] z) :=
        Function.iterate_succ_apply' (richardson D 0 b) m z
      refine (congrArg (fun u : Fin 2 → K => xs 1 - u 1) e).trans ((hstep _).trans ?_)
      refine (congrArg (fun u : K => -(k * k) * u) (ih z)).trans ?_
      rw [pow_succ]
      ring
  have hcyc : ∀ x : Fin 2 → K, xs 1 - cycle D n 1 0 b x (1 : Fin 2) = (k * k) ^ (2 * n) * (xs 1 - x 1) := by
    intro x
    have h1 : ∀ (z : Fin 2 → K) (w : Fin 1 → K), z 1 + firstUnknown.transpose.mulVec w 1 = z 1 := by
      intro z w
      simp [firstUnknown, Matrix.mulVec, dotProduct]
    change xs 1 - ((richardson D 0 b)^[n] ((richardson D 0 b)^[n] x + D.P 0 _)) (1 : Fin 2) = _
    refine (hsm n _).trans ?_
    have h2 := hsm n x
    have h3 : ∀ w, ((richardson D 0 b)^[n] x + D.P 0 w) (1 : Fin 2) = ((richardson D 0 b)^[n] x) (1 : Fin 2) :=
      fun w => h1 ((richardson D 0 b)^[n] x) w
    have h4 : ∀ u v : K, u = v → (-(k * k)) ^ n * (xs 1 - u) = (-(k * k)) ^ n * (xs 1 - v) := fun u v h => by rw [h]
    refine (h4 _ _ (h3 _)).trans ?_
    rw [h2, ← mul_assoc, ← pow_add, ← two_mul, pow_mul, pow_mul, neg_sq]
  have hv : ∀ fresh (x : Fin 2 → K), (H.vmult fresh x b).result = .ok (cycle D n 1 0 b x) := by
    intro fresh x
    have h := C04_cycle_is_textbook H _ hlin fresh x b (Or.inr (by omega))
    rw [hp, hpre, hn, hL2] at h
    exact h
  refine ⟨fun fresh x => ⟨_, hv fresh x, hcyc x⟩, fun y hy h0 bound => ?_⟩
  have hpow : ∀ m, (xs - y m) 1 = ((k * k) ^ (2 * n)) ^ m * (xs - y 0) 1 := by
    intro m
    induction m with
    | zero => rw [pow_zero, one_mul]
    | succ m ih =>
      obtain ⟨f, hf⟩ := hy m
      rw [hv] at hf
      have e := hcyc (y m)
      rw [Outcome.ok.inj hf] at e
      rw [pow_succ, mul_comm (((k * k) ^ (2 * n)) ^ m), mul_assoc, ← ih]
      exact e
  have hq : 1 < (k * k) ^ (2 * n) := one_lt_pow₀ hk (by omega)
  have hd : 0 < |(xs - y 0) 1| := abs_pos.2 (sub_ne_zero.2 (Ne.symm h0))
  obtain ⟨m, hm⟩ := pow_unbounded_of_one_lt (bound / |(xs - y 0) 1|) hq
  refine ⟨m, ?_⟩
  rw [hpow, abs_mul, abs_of_pos (pow_pos (zero_lt_one.trans hq) m)]
  exact (div_lt_iff₀ hd).1 hm

end

/-! ### Examples -/

/-- Convection from the second unknown to the first. -/
def exConvection : Matrix (Fin 2) (Fin 2) ℚ := !![2, -6/5; -4/5, 2]

theorem exConvection_energy (e : Fin 2 → ℚ) : energyOf exConvection e = 2 * (e 0 * e 0 - e 0 * e 1 + e 1 * e 1) := by
  simp [energyOf, exConvection, Matrix.mulVec, dotProduct, Fin.sum_univ_two]
  ring

theorem exConvection_positive : IsPositive exConvection := by
  intro v hv
  have h := exConvection_energy v
  unfold energyOf at h
  rw [h]
  obtain ⟨i, hi⟩ := Function.ne_iff.1 hv
  have hi' : v i ≠ 0 := hi
  fin_cases i
  · have : 0 < v 0 ^ 2 := by positivity
    nlinarith [sq_nonneg (v 0 - 2 * v 1)]
  · have : 0 < v 1 ^ 2 := by positivity
    nlinarith [sq_nonneg (v 1 - 2 * v 0)]

theorem exConvection_skewness : SkewnessAtMost exConvection (76 / 75) := by
  intro u v
  rw [exConvection_energy, exConvection_energy]
  have h : u ⬝ᵥ exConvection.mulVec v
      = (2 * (u 0 * v 0) - u 0 * v 1 - u 1 * v 0 + 2 * (u 1 * v 1)) - 1 / 5 * (u 0 * v 1 - u 1 * v 0) := by
    simp [exConvection, Matrix.mulVec, dotProduct, Fin.sum_univ_two]
    ring
  rw [h]
  have h2 : 2 * (u 0 * u 0 - u 0 * u 1 + u 1 * u 1) * (2 * (v 0 * v 0 - v 0 * v 1 + v 1 * v 1))
      = (2 * (u 0 * v 0) - u 0 * v 1 - u 1 * v 0 + 2 * (u 1 * v 1)) ^ 2 + 3 * (u 0 * v 1 - u 1 * v 0) ^ 2 := by
    ring
  rw [h2]
  generalize 2 * (u 0 * v 0) - u 0 * v 1 - u 1 * v 0 + 2 * (u 1 * v 1) = a
  generalize u 0 * v 1 - u 1 * v 0 = c
  nlinarith [sq_nonneg (a + 15 * c)]

theorem exConvection_smoothing (e : Fin 2 → ℚ) :
    energyOf exConvection (e - relaxVmult .symmetricGaussSeidel exConvection [[0, 1]] (exConvection.mulVec e))
      ≤ 1 / 16 * energyOf exConvection e := by
  have h0 : (e - relaxVmult .symmetricGaussSeidel exConvection [[0, 1]] (exConvection.mulVec e)) 0
      = 18 / 125 * e 1 := by
    simp [relaxVmult, localVmult, relaxRow, exConvection, dotProduct, Fin.sum_univ_two]
    ring
  have h1 : (e - relaxVmult .symmetricGaussSeidel exConvection [[0, 1]] (exConvection.mulVec e)) 1
      = 6 / 25 * e 1 := by
    simp [relaxVmult, localVmult, relaxRow, exConvection, dotProduct, Fin.sum_univ_two]
    ring
  rw [exConvection_energy, exConvection_energy, h0, h1]
  nlinarith [sq_nonneg (e 1 - 2 * e 0), sq_nonneg (e 1)]

/-- The default smoother, three levels asked for (the third has the size of the second). -/
example : (∀ l, IsPositive (coarseMatrix (twoLevels 2 1) exConvection (twoLevelRestriction firstUnknown) l) ∧
      ∀ b, ∃! x, (coarseMatrix (twoLevels 2 1) exConvection (twoLevelRestriction firstUnknown) l).mulVec x = b) ∧
    ∃ H, (buildHierarchy true false (some { isPreconditioner := some false, maxLevels := some 3 })
        (.ok (matrixHelpers true none (twoLevels 2 1) allRows exConvection (twoLevelRestriction firstUnknown)
          fun l => exInvSolve l (twoLevels 2 1)))).result = .ok H ∧
      ∀ fresh (xs b : Fin 2 → ℚ), exConvection.mulVec xs = b → (H.vmult fresh xs b).result = .ok xs :=
  C120_solvable true false { isPreconditioner := some false, maxLevels := some 3 } none _ _ rfl rfl (twoLevels 2 1)
    allRows exConvection exConvection_positive _ firstUnknown_independent _ (fun l => exInvSolve_exact _ l)
    (by decide) rfl rfl

/-- Every cycle reduces the energy of the error to less than a two hundredth. -/
example : ∃ H, (buildHierarchy true false (some { isPreconditioner := some false })
      (.ok (matrixHelpers true none (twoLevels 2 1) allRows exConvection (twoLevelRestriction firstUnknown)
        fun l => exInvSolve l (twoLevels 2 1)))).result = .ok H ∧
    ∀ fresh (x b xs : Fin 2 → ℚ), exConvection.mulVec xs = b →
      ∃ y : Fin 2 → ℚ, (H.vmult fresh x b).result = .ok y ∧
        energyOf exConvection (xs - y) ≤ (1 / 16) ^ 2 * (76 / 75) * energyOf exConvection (xs - x) :=
  C120_converges_partial true false { isPreconditioner := some false } none _ _ rfl rfl (twoLevels 2 1)
    allRows exConvection exConvection_positive (76 / 75) exConvection_skewness (1 / 16) exConvection_smoothing
    (by norm_num) (by norm_num) _ firstUnknown_independent _ (fun l => exInvSolve_exact _ l) rfl rfl rfl

/-- The coarse correction alone. -/
example := C120_correction true false { isPreconditioner := some false, nSmoothingSteps := some 0 } none _ _ rfl rfl
    (twoLevels 2 1) allRows exConvection exConvection_positive (76 / 75) exConvection_skewness _
    firstUnknown_independent _ (fun l => exInvSolve_exact _ l) rfl rfl rfl rfl

/-- `k = 2`: every cycle multiplies the error by sixteen. -/
example : ∃ H, (buildHierarchy true false (some { isPreconditioner := some false })
      (.ok (matrixHelpers true none (twoLevels 2 1) allRows (rotation (2 : ℚ)) (twoLevelRestriction firstUnknown)
        fun l => exInvSolve l (twoLevels 2 1)))).result = .ok H ∧
    ∀ (b xs : Fin 2 → ℚ), (rotation 2).mulVec xs = b → ∀ fresh (x : Fin 2 → ℚ),
      ∃ y : Fin 2 → ℚ, (H.vmult fresh x b).result = .ok y ∧ (xs - y) 1 = (2 * 2) ^ 2 * (xs - x) 1 := by
  obtain ⟨-, H, hH, h⟩ := C120_violated true false { isPreconditioner := some false } none (Or.inl rfl) (2 : ℚ)
    (by norm_num) (fun l => exInvSolve l (twoLevels 2 1)) (fun l => exInvSolve_exact _ l) rfl rfl rfl (by decide)
  exact ⟨H, hH, fun b xs hxs => (h b xs hxs).1⟩

end Mfmg
