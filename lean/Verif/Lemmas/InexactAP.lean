import Verif.Lemmas.FastCycle
import Verif.Lemmas.Numbering
import Verif.Props.FastAP
import Verif.Spec.InexactAP
import Mathlib.LinearAlgebra.Matrix.Notation
import Mathlib.Algebra.Order.Ring.Pow
import Mathlib.Tactic.FinCases

/-!
# A problem on which `fast_ap` with inexact eigenpairs diverges

Two cells with three dofs each share one dof, and each is an agglomerate.
-/

set_option autoImplicit false

namespace Mfmg

open Spec Matrix Finset

section

variable {K : Type} [Field K]

/-- The matrix of a cell; dof 2 is shared. -/
def badLocal (g : K) : ℕ → ℕ → K
  | 0, 0 => g + 4
  | 0, 1 => -g
  | 0, 2 => 1
  | 1, 0 => -g
  | 1, 1 => g + 4
  | 1, 2 => 1
  | 2, 0 => 1
  | 2, 1 => 1
  | 2, 2 => 1
  | _, _ => 0

/-- The matrices of the two cells; the second one is the mirror image of the first one. -/
def badCell (g t : K) (c x y : ℕ) : K :=
  if c = 0 then t * badLocal g x y else if c = 1 ∧ x ≤ 4 ∧ y ≤ 4 then t * badLocal g (4 - x) (4 - y) else 0

/-- The discretisation. -/
def badDisc (g t : K) : Disc K where
  nCells := 2
  owned := fun _ => true
  u := fun c => c + 1
  nAgg := 2
  conn := fun c => if c = 0 then [1] else if c = 1 then [0] else []
  nDofs := 5
  cellDofs := fun c => if c = 0 then [0, 1, 2] else if c = 1 then [2, 3, 4] else []
  cellMat := badCell g t
  A := fun x y => ∑ d ∈ range 2, badCell g t d x y

/-- What the eigensolvers return: a vector and its Rayleigh quotient. -/
def badData (g t : K) : List (CopyData K) :=
  [⟨[t * (29 / 11)], [[1, 1, 3]], [t * (g + 4), t * (g + 4), t], [0, 1, 2]⟩,
    ⟨[t * (29 / 11)], [[3, 1, 1]], [t, t * (g + 4), t * (g + 4)], [2, 3, 4]⟩]

/-- The matrix. -/
def badA (g t : K) : Matrix (Fin 5) (Fin 5) K :=
  t • !![g + 4, -g, 1, 0, 0; -g, g + 4, 1, 0, 0; 1, 1, 2, 1, 1; 0, 0, 1, g + 4, -g; 0, 0, 1, -g, g + 4]

/-- The restriction matrix. -/
def badR : Matrix (Fin 2) (Fin 5) K := !![1, 1, 3 / 2, 0, 0; 0, 0, 3 / 2, 1, 1]

/-- The product of the `fast_ap` branch. -/
def badAP (t : K) : Matrix (Fin 5) (Fin 2) K :=
  t • !![25 / 22, 3 / 2; 25 / 22, 3 / 2; 87 / 11, 87 / 11; 3 / 2, 25 / 22; 3 / 2, 25 / 22]

/-- The error. -/
def badU : Fin 5 → K := ![1, 1, 0, -1, -1]

theorem badA_badU (g t : K) : (badA g t).mulVec badU = (4 * t) • (badU : Fin 5 → K) := by
  funext i
  fin_cases i <;> simp [badA, badU, Matrix.mulVec, dotProduct, Fin.sum_univ_five] <;> ring

variable [LinearOrder K] [IsStrictOrderedRing K]

theorem bad_coarse (t : K) : (badR * badAP t : Matrix (Fin 2) (Fin 2) K)
    = t • !![311 / 22, 327 / 22; 327 / 22, 311 / 22] := by
  ext i j
  fin_cases i <;> fin_cases j <;> simp [badR, badAP, Matrix.mul_apply, Fin.sum_univ_five] <;> ring

theorem bad_det {t : K} (ht : 0 < t) : (badR * badAP t : Matrix (Fin 2) (Fin 2) K).det ≠ 0 := by
  rw [bad_coarse, Matrix.det_fin_two]
  simp
  have : t * (311 / 22) * (t * (311 / 22)) - t * (327 / 22) * (t * (327 / 22)) = -(232 / 11) * t ^ 2 := by ring
  rw [this]
  exact mul_ne_zero (by norm_num) (pow_ne_zero _ ht.ne')

omit [LinearOrder K] [IsStrictOrderedRing K] in
theorem badR_badU : badR.mulVec (badU : Fin 5 → K) = ![2, -2] := by
  funext i
  fin_cases i <;> simp [badR, badU, Matrix.mulVec, dotProduct, Fin.sum_univ_five] <;> ring

omit [LinearOrder K] [IsStrictOrderedRing K] in
theorem badR_transpose : badR.transpose.mulVec ![1, -1] = (badU : Fin 5 → K) := by
  funext i
  fin_cases i <;> simp [badR, badU, Matrix.mulVec, dotProduct, Fin.sum_univ_two]

theorem bad_spd {g t : K} (hg : 0 ≤ g) (ht : 0 < t) : IsSpd (badA g t) := by
  constructor
  · ext i j
    fin_cases i <;> fin_cases j <;> simp [badA]
  · intro v hv
    have h1 : v ⬝ᵥ (badA g t).mulVec v = t * (g * (v 0 - v 1) ^ 2 + g * (v 3 - v 4) ^ 2 + (2 * v 0 + v 2 / 2) ^ 2
        + (2 * v 1 + v 2 / 2) ^ 2 + (2 * v 3 + v 2 / 2) ^ 2 + (2 * v 4 + v 2 / 2) ^ 2 + v 2 ^ 2) := by
      simp [badA, Matrix.mulVec, dotProduct, Fin.sum_univ_five]
      ring
    rw [h1]
    refine mul_pos ht ?_
    by_contra h
    refine hv ?_
    have e1 := mul_nonneg hg (sq_nonneg (v 0 - v 1))
    have e2 := mul_nonneg hg (sq_nonneg (v 3 - v 4))
    have f0 := sq_nonneg (2 * v 0 + v 2 / 2)
    have f1 := sq_nonneg (2 * v 1 + v 2 / 2)
    have f3 := sq_nonneg (2 * v 3 + v 2 / 2)
    have f4 := sq_nonneg (2 * v 4 + v 2 / 2)
    have f2 := sq_nonneg (v 2)
    have z2 : v 2 = 0 := pow_eq_zero_iff two_ne_zero |>.1 (by linarith)
    have z0 : 2 * v 0 + v 2 / 2 = 0 := pow_eq_zero_iff two_ne_zero |>.1 (by linarith)
    have z1 : 2 * v 1 + v 2 / 2 = 0 := pow_eq_zero_iff two_ne_zero |>.1 (by linarith)
    have z3 : 2 * v 3 + v 2 / 2 = 0 := pow_eq_zero_iff two_ne_zero |>.1 (by linarith)
    have z4 : 2 * v 4 + v 2 / 2 = 0 := pow_eq_zero_iff two_ne_zero |>.1 (by linarith)
    funext i
    fin_cases i <;> simp <;> linarith

/-- Jacobi sweeps. -/
theorem bad_smooth {g t : K} (hg : 0 ≤ g) (ht : 0 < t) {procs : List (List (Fin 5))} (h : ListsAll procs.flatten) (N : ℕ)
    (s : K) : (fun e => e - relaxVmult .jacobi (badA g t) procs ((badA g t).mulVec e))^[N] (s • badU)
      = (s * (g / (g + 4)) ^ N) • badU := by
  have hstep : ∀ s : K, s • badU - relaxVmult .jacobi (badA g t) procs ((badA g t).mulVec (s • badU))
      = (s * (g / (g + 4))) • badU := by
    intro s
    rw [relaxVmult_jacobi_all h, Matrix.mulVec_smul, badA_badU]
    have hg4 : g + 4 ≠ 0 := by linarith
    funext i
    fin_cases i <;> simp [badA, badU] <;> field_simp <;> ring
  induction N generalizing s with
  | zero => simp
  | succ N ih =>
    rw [Function.iterate_succ_apply, hstep, ih, pow_succ]
    congr 1
    ring

/-- The coarse correction. -/
theorem bad_correction {g t : K} (ht : 0 < t) (s : K) :
    s • badU - badR.transpose.mulVec ((badR * badAP t)⁻¹.mulVec (badR.mulVec ((badA g t).mulVec (s • badU))))
      = (12 * s) • (badU : Fin 5 → K) := by
  have h1 : (badR * badAP t : Matrix (Fin 2) (Fin 2) K).mulVec ![-11, 11] = (4 * t) • ![2, -2] := by
    rw [bad_coarse]
    funext i
    fin_cases i <;> simp [Matrix.mulVec, dotProduct, Fin.sum_univ_two] <;> ring
  have h2 : (badR * badAP t : Matrix (Fin 2) (Fin 2) K)⁻¹.mulVec ((4 * t) • ![2, -2]) = ![-11, 11] := by
    rw [← h1, Matrix.mulVec_mulVec, Matrix.nonsing_inv_mul _ (Ne.isUnit (bad_det ht)), Matrix.one_mulVec]
  rw [Matrix.mulVec_smul, badA_badU, Matrix.mulVec_smul, Matrix.mulVec_smul badR (4 * t), badR_badU, Matrix.mulVec_smul, h2,
    Matrix.mulVec_smul]
  have h3 : (![-11, 11] : Fin 2 → K) = (-11 : K) • ![1, -1] := by
    funext i
    fin_cases i <;> simp
  rw [h3, Matrix.mulVec_smul, badR_transpose, smul_smul, ← sub_smul]
  congr 1
  ring

/-- The exact product. -/
theorem bad_product (g t : K) : (badA g t * badR.transpose : Matrix (Fin 5) (Fin 2) K)
    = t • !![11 / 2, 3 / 2; 11 / 2, 3 / 2; 5, 5; 3 / 2, 11 / 2; 3 / 2, 11 / 2] := by
  ext i j
  fin_cases i <;> fin_cases j <;>
    simp [badR, badA, Matrix.mul_apply, Fin.sum_univ_five] <;> ring

/-- With the exact product. -/
theorem good_correction {g t : K} (ht : 0 < t) (s : K) :
    (badR * (badA g t * badR.transpose)).det ≠ 0 ∧
    s • badU - badR.transpose.mulVec ((badR * (badA g t * badR.transpose))⁻¹.mulVec
      (badR.mulVec ((badA g t).mulVec (s • badU)))) = (0 : Fin 5 → K) := by
  have h1 : (badR * (badA g t * badR.transpose) : Matrix (Fin 2) (Fin 2) K)
      = t • !![37 / 2, 21 / 2; 21 / 2, 37 / 2] := by
    rw [bad_product]
    ext i j
    fin_cases i <;> fin_cases j <;>
      simp [badR, Matrix.mul_apply, Fin.sum_univ_five] <;> ring
  have hdet : (badR * (badA g t * badR.transpose)).det ≠ 0 := by
    rw [h1, Matrix.det_fin_two]
    simp
    have : t * (37 / 2) * (t * (37 / 2)) - t * (21 / 2) * (t * (21 / 2)) = 232 * t ^ 2 := by ring
    rw [this]
    exact mul_ne_zero (by norm_num) (pow_ne_zero _ ht.ne')
  refine ⟨hdet, ?_⟩
  have h2 : s • badU = badR.transpose.mulVec (s • (![1, -1] : Fin 2 → K)) := by
    rw [Matrix.mulVec_smul, badR_transpose]
  have h3 : ∀ w : Fin 2 → K, badR.mulVec ((badA g t).mulVec (badR.transpose.mulVec w))
      = (badR * (badA g t * badR.transpose)).mulVec w := by
    intro w
    rw [← Matrix.mulVec_mulVec, ← Matrix.mulVec_mulVec]
  rw [h2, h3, Matrix.mulVec_mulVec _ _ (badR * (badA g t * badR.transpose)),
    Matrix.nonsing_inv_mul _ (Ne.isUnit hdet), Matrix.one_mulVec, sub_self]

/-- The factor of a cycle. -/
theorem bad_factor (N : ℕ) : (6 : K) ≤ 12 * ((16 * N / (16 * N + 4)) ^ N * (16 * N / (16 * N + 4)) ^ N) := by
  have hN : (0 : K) ≤ N := Nat.cast_nonneg N
  have h4 : (0 : K) < 16 * N + 4 := by linarith
  have h1 : (16 * N / (16 * N + 4) : K) = 1 + -(4 / (16 * N + 4)) := by
    field_simp
    ring
  have h2 : (-2 : K) ≤ -(4 / (16 * N + 4)) := by
    have : (4 / (16 * N + 4) : K) ≤ 1 := (div_le_one h4).2 (by linarith)
    linarith
  have h3 := one_add_mul_le_pow h2 (N + N)
  rw [← pow_add, h1]
  have h5 : ((N + N : ℕ) : K) * (4 / (16 * N + 4)) ≤ 1 / 2 := by
    rw [mul_div_assoc', div_le_iff₀ h4]
    push_cast
    linarith
  have h6 : (1 : K) + ((N + N : ℕ) : K) * -(4 / (16 * N + 4)) = 1 - ((N + N : ℕ) : K) * (4 / (16 * N + 4)) := by ring
  rw [h6] at h3
  linarith

omit [LinearOrder K] [IsStrictOrderedRing K] in
theorem badLocal_support {g : K} {x y : ℕ} (h : badLocal g x y ≠ 0) : x ≤ 2 ∧ y ≤ 2 := by
  match x, y with
  | 0, 0 | 0, 1 | 0, 2 | 1, 0 | 1, 1 | 1, 2 | 2, 0 | 2, 1 | 2, 2 => exact ⟨by norm_num, by norm_num⟩
  | 0, y + 3 => exact absurd rfl h
  | 1, y + 3 => exact absurd rfl h
  | 2, y + 3 => exact absurd rfl h
  | x + 3, y => exact absurd rfl h

omit [LinearOrder K] [IsStrictOrderedRing K] in
theorem badDisc_sound (g t : K) : (badDisc g t).Sound where
  flags := by
    intro c hc _
    simp only [badDisc] at hc ⊢
    omega
  conn_lt := by
    intro c d hd
    simp only [badDisc] at hd ⊢
    by_cases h0 : c = 0
    · simp [h0] at hd; omega
    · by_cases h1 : c = 1
      · simp [h1] at hd; omega
      · simp [h0, h1] at hd
  conn_complete := by
    intro c d x hc hd hne hx hy
    simp only [badDisc] at hc hd ⊢
    rcases (by omega : c = 0 ∧ d = 1 ∨ c = 1 ∧ d = 0) with ⟨rfl, rfl⟩ | ⟨rfl, rfl⟩ <;> simp
  dofs_lt := by
    intro c x hx
    simp only [badDisc] at hx ⊢
    by_cases h0 : c = 0
    · simp [h0] at hx; omega
    · by_cases h1 : c = 1
      · simp [h1] at hx; omega
      · simp [h0, h1] at hx
  support := by
    intro c x y h
    simp only [badDisc, badCell] at h ⊢
    by_cases h0 : c = 0
    · rw [if_pos h0] at h
      have := badLocal_support (right_ne_zero_of_mul h)
      simp [h0]
      omega
    · rw [if_neg h0] at h
      by_cases h1 : c = 1 ∧ x ≤ 4 ∧ y ≤ 4
      · rw [if_pos h1] at h
        have := badLocal_support (right_ne_zero_of_mul h)
        simp [h1.1]
        omega
      · rw [if_neg h1] at h
        exact absurd rfl h
  assembled := by
    intro c x y _ _ _
    rfl

omit [LinearOrder K] [IsStrictOrderedRing K] in
theorem badDisc_matrix (g t : K) : (badDisc g t).matrix = badA g t := by
  change (Matrix.of fun x y : Fin 5 => ∑ d ∈ range 2, badCell g t d x y) = _
  ext x y
  fin_cases x <;> fin_cases y <;>
    simp [Finset.sum_range_succ, badCell, badLocal, badA, mul_two]

omit [LinearOrder K] [IsStrictOrderedRing K] in
theorem badDisc_aggMat (g t : K) {a : ℕ} (ha : a < 2) (x y : ℕ) : (badDisc g t).aggMat a x y = badCell g t a x y := by
  simp only [Disc.aggMat, Disc.inAgg, badDisc, Finset.sum_filter, Finset.sum_range_succ, Finset.sum_range_zero]
  rcases (by omega : a = 0 ∨ a = 1) with rfl | rfl <;> simp

/-- The residuals. -/
def badRes (t : K) (a : ℕ) (x : ℕ) : K :=
  t * ((if a = 0 then ([-48, -48, 32, 0, 0] : List K) else [0, 0, 32, -48, -48]).getD x 0 / 11)

omit [LinearOrder K] [IsStrictOrderedRing K] in
theorem badData_local (g t : K) {a : ℕ} {c : CopyData K} (h : (badData g t)[a]? = some c) :
    LocalData (badDisc g t) a c ∧ c.eigenvectors.length = 1 := by
  match a with
  | 0 =>
    obtain rfl : (⟨[t * (29 / 11)], [[1, 1, 3]], [t * (g + 4), t * (g + 4), t], [0, 1, 2]⟩ : CopyData K) = c :=
      Option.some.inj h
    refine ⟨⟨⟨by simp, rfl, by simp⟩, ?_, ?_, rfl⟩, rfl⟩
    · intro x
      simp only [badDisc, Disc.inAgg]
      constructor
      · intro hx
        exact ⟨0, by norm_num, by simp, by simpa using hx⟩
      · rintro ⟨d, hd, h1, h2⟩
        have : d = 0 := by simpa using h1
        simpa [this] using h2
    · intro x hx
      rw [badDisc_aggMat _ _ (by norm_num)]
      simp only [List.mem_cons, List.not_mem_nil, or_false] at hx
      rcases hx with rfl | rfl | rfl <;> simp [extend_cons, badCell, badLocal]
  | 1 =>
    obtain rfl : (⟨[t * (29 / 11)], [[3, 1, 1]], [t, t * (g + 4), t * (g + 4)], [2, 3, 4]⟩ : CopyData K) = c :=
      Option.some.inj h
    refine ⟨⟨⟨by simp, rfl, by simp⟩, ?_, ?_, rfl⟩, rfl⟩
    · intro x
      simp only [badDisc, Disc.inAgg]
      constructor
      · intro hx
        exact ⟨1, by norm_num, by simp, by simpa using hx⟩
      · rintro ⟨d, hd, h1, h2⟩
        have : d = 1 := by simpa using h1
        simpa [this] using h2
    · intro x hx
      rw [badDisc_aggMat _ _ (by norm_num)]
      simp only [List.mem_cons, List.not_mem_nil, or_false] at hx
      rcases hx with rfl | rfl | rfl <;> simp [extend_cons, badCell, badLocal]
  | a + 2 => simp [badData] at h

theorem badData_residual (g t : K) {a : ℕ} {c : CopyData K} (h : (badData g t)[a]? = some c) {k : ℕ} {lam : K}
    {v : List K} (h1 : c.eigenvalues[k]? = some lam) (h2 : c.eigenvectors[k]? = some v) {x : ℕ} (hx : x < 5) :
    (badDisc g t).residual a c lam v x = badRes t a x := by
  have h5 : (badDisc g t).nDofs = 5 := rfl
  match a, k with
  | 0, 0 =>
    obtain rfl : (⟨[t * (29 / 11)], [[1, 1, 3]], [t * (g + 4), t * (g + 4), t], [0, 1, 2]⟩ : CopyData K) = c :=
      Option.some.inj h
    obtain rfl := Option.some.inj h1
    obtain rfl := Option.some.inj h2
    rw [Disc.residual, h5]
    simp only [badDisc_aggMat g t (by norm_num : 0 < 2), Finset.sum_range_succ, Finset.sum_range_zero]
    rcases (by omega : x = 0 ∨ x = 1 ∨ x = 2 ∨ x = 3 ∨ x = 4) with rfl | rfl | rfl | rfl | rfl <;>
      simp [extend_cons, badCell, badLocal, badRes] <;> ring
  | 1, 0 =>
    obtain rfl : (⟨[t * (29 / 11)], [[3, 1, 1]], [t, t * (g + 4), t * (g + 4)], [2, 3, 4]⟩ : CopyData K) = c :=
      Option.some.inj h
    obtain rfl := Option.some.inj h1
    obtain rfl := Option.some.inj h2
    rw [Disc.residual, h5]
    simp only [badDisc_aggMat g t (by norm_num : 1 < 2), Finset.sum_range_succ, Finset.sum_range_zero]
    rcases (by omega : x = 0 ∨ x = 1 ∨ x = 2 ∨ x = 3 ∨ x = 4) with rfl | rfl | rfl | rfl | rfl <;>
      simp [extend_cons, badCell, badLocal, badRes] <;> ring
  | 0, k + 1 =>
    obtain rfl := Option.some.inj h
    simp at h1
  | 1, k + 1 =>
    obtain rfl := Option.some.inj h
    simp at h1
  | a + 2, k => simp [badData] at h

theorem badData_within (g t : K) {a : ℕ} {c : CopyData K} (h : (badData g t)[a]? = some c) {tol2 : K}
    (ht : t ^ 2 * (512 / 11) ≤ tol2) : (badDisc g t).Within a c tol2 := by
  intro k lam v h1 h2
  refine le_trans (le_of_eq ?_) ht
  change ∑ x ∈ range 5, _ = _
  rw [Finset.sum_congr rfl fun x hx => by rw [badData_residual g t h h1 h2 (Finset.mem_range.1 hx)]]
  simp only [Finset.sum_range_succ, Finset.sum_range_zero, badRes]
  by_cases ha : a = 0
  · simp [ha]; ring
  · simp [ha]; ring

theorem badData_ritz (g t : K) {a : ℕ} {c : CopyData K} (h : (badData g t)[a]? = some c) : (badDisc g t).Ritz a c := by
  intro k lam v h1 h2
  change ∑ x ∈ range 5, _ = _
  rw [Finset.sum_congr rfl fun x hx => by rw [badData_residual g t h h1 h2 (Finset.mem_range.1 hx)]]
  match a, k with
  | 0, 0 =>
    obtain rfl : (⟨[t * (29 / 11)], [[1, 1, 3]], [t * (g + 4), t * (g + 4), t], [0, 1, 2]⟩ : CopyData K) = c :=
      Option.some.inj h
    obtain rfl := Option.some.inj h2
    simp [Finset.sum_range_succ, badRes, extend_cons]
    ring
  | 1, 0 =>
    obtain rfl : (⟨[t * (29 / 11)], [[3, 1, 1]], [t, t * (g + 4), t * (g + 4)], [2, 3, 4]⟩ : CopyData K) = c :=
      Option.some.inj h
    obtain rfl := Option.some.inj h2
    simp [Finset.sum_range_succ, badRes, extend_cons]
    ring
  | 0, k + 1 =>
    obtain rfl := Option.some.inj h
    simp at h1
  | 1, k + 1 =>
    obtain rfl := Option.some.inj h
    simp at h1
  | a + 2, k => simp [badData] at h

end

end Mfmg
