import Verif.Props.Ilu
import Mathlib.LinearAlgebra.Matrix.ToLin
import Mathlib.LinearAlgebra.FiniteDimensional.Basic

/-!
# Incomplete factorisation can diverge (C88)
-/

set_option autoImplicit false

namespace Mfmg

open Spec

section

variable {K : Type} [Field K]

/-- Four unknowns in a ring, one of the four couplings with another sign (Kershaw's matrix). -/
def ringMatrix (a c : K) : Matrix (Fin 4) (Fin 4) K :=
  Matrix.of ![![1, -a, 0, a], ![-a, 1, -c, 0], ![0, -c, 1, -c], ![a, 0, -c, 1]]

/-- One process holds the unknowns of every level. -/
def ringProcs : ∀ l, List (List (Fin (twoDims 4 l)))
  | 0 => [[(0 : Fin 4), (1 : Fin 4), (2 : Fin 4), (3 : Fin 4)]]
  | _ + 1 => [[(0 : Fin 1)]]

/-- The error that grows. -/
def ringVector (c : K) : Fin 4 → K := ![0, 1, 2 * c, 1]

/-- A restriction to one coarse unknown, supported on the first unknown. -/
def cornerRow : ∀ l, Matrix (Fin (twoDims 4 (l + 1))) (Fin (twoDims 4 l)) K
  | 0 => Matrix.of fun _ j => if j.val = 0 then 1 else 0
  | _ + 1 => Matrix.of fun _ _ => 1

theorem cornerRow_independent (l : ℕ) : IndependentRows (cornerRow (K := K) l) := by
  intro y hy
  cases l with
  | zero =>
    have h0 : ∑ k : Fin 1, (if (0 : ℕ) = 0 then (1 : K) else 0) * (y : Fin 1 → K) k = 0 :=
      congrFun hy (0 : Fin 4)
    rw [Fin.sum_univ_one, if_pos rfl, one_mul] at h0
    funext k
    have : k = (0 : Fin 1) := Fin.eq_zero k
    rw [this]
    exact h0
  | succ l =>
    have h0 : ∑ k : Fin 1, (1 : K) * (y : Fin 1 → K) k = 0 := congrFun hy (0 : Fin 1)
    rw [Fin.sum_univ_one, one_mul] at h0
    funext k
    have : k = (0 : Fin 1) := Fin.eq_zero k
    rw [this]
    exact h0

theorem ringMatrix_symm (a c : K) : (ringMatrix a c).transpose = ringMatrix a c := by
  ext i j
  fin_cases i <;> fin_cases j <;> rfl

theorem ringGraph_isGraph (a c : K) : IsGraph ringGraph (ringMatrix a c) := by
  refine ⟨by decide, ?_⟩
  intro i j h
  fin_cases i <;> fin_cases j <;> first | rfl | exact absurd rfl h

theorem ringMatrix_vector (a c : K) :
    (ringMatrix a c).mulVec (ringVector c) = (1 - 2 * c * c) • ![0, 1, 0, 1] := by
  funext i
  fin_cases i <;> simp [ringMatrix, ringVector, Matrix.mulVec, dotProduct, Fin.sum_univ_four] <;> ring

theorem ring_pivots (a c : K) (h1 : 1 - a * a ≠ 0) (h2 : 1 - a * a - c * c ≠ 0)
    (h3 : 1 - a * a - 2 * c * c ≠ 0) :
    NonzeroPivots ringGraph [0, 1, 2, 3] (ringMatrix a c) := by
  have g11 : ringGraph 1 1 = true := rfl
  have g12 : ringGraph 1 2 = true := rfl
  have g21 : ringGraph 2 1 = true := rfl
  have g22 : ringGraph 2 2 = true := rfl
  have g23 : ringGraph 2 3 = true := rfl
  have g32 : ringGraph 3 2 = true := rfl
  have g33 : ringGraph 3 3 = true := rfl
  have g13 : ringGraph 1 3 = false := rfl
  have g31 : ringGraph 3 1 = false := rfl
  have h1' : 1 - a ^ 2 ≠ 0 := by rwa [sq]
  have h2' : 1 - a ^ 2 - c ^ 2 ≠ 0 := by rwa [sq, sq]
  refine ⟨?_, ?_, ?_, ?_, trivial⟩
  · simp [ringMatrix]
  · simp [iluStep, ringMatrix, g11]
    exact h1
  · simp [iluStep, ringMatrix, g11, g12, g21, g22]
    have e2 : 1 + -c / (1 - a * a) * c = (1 - a * a - c * c) / (1 - a * a) := by
      field_simp
      ring
    rw [e2]
    exact div_ne_zero h2 h1
  · simp [iluStep, ringMatrix, g11, g12, g21, g22, g23, g32, g33, g13, g31]
    have e2 : 1 + -c / (1 - a * a) * c = (1 - a * a - c * c) / (1 - a * a) := by
      field_simp
      ring
    have e3 : 1 - a * a + -c / (1 + -c / (1 - a * a) * c) * c
        = (1 - a * a) * (1 - a * a - 2 * c * c) / (1 - a * a - c * c) := by
      rw [e2]
      field_simp
      ring
    rw [e3]
    exact div_ne_zero (mul_ne_zero h1 h3) h2

theorem ring_product (a c : K) :
    (iluProd ringGraph [0, 1, 2, 3] (ringMatrix a c)).mulVec (ringVector c)
      = (1 - a * a - 2 * c * c) • ![0, 1, 0, 1] := by
  have hg : ∀ i j, ringGraph i j = true → iluProd ringGraph [0, 1, 2, 3] (ringMatrix a c) i j
      = ringMatrix a c i j := fun i j h => iluProd_graph _ _ (by fin_cases i <;> simp)
        (by fin_cases j <;> simp) h
  have h13 : iluProd ringGraph [0, 1, 2, 3] (ringMatrix a c) 1 3 = -(a * a) := by
    rw [iluProd_in _ _ _ (by decide) (by decide), iluProd_row, iluStep_off _ _ _ rfl]
    simp [ringMatrix]
  have h31 : iluProd ringGraph [0, 1, 2, 3] (ringMatrix a c) 3 1 = -(a * a) := by
    have hs : ∀ i j, ringMatrix a c i j = ringMatrix a c j i := fun i j =>
      congrFun (congrFun (ringMatrix_symm a c).symm i) j
    rw [← h13]
    exact iluProd_symm (graph := ringGraph) _ hs (by decide) 3 1
  have e : ∀ i, (iluProd ringGraph [0, 1, 2, 3] (ringMatrix a c)).mulVec (ringVector c) i
      = iluProd ringGraph [0, 1, 2, 3] (ringMatrix a c) i 1
        + iluProd ringGraph [0, 1, 2, 3] (ringMatrix a c) i 2 * (2 * c)
        + iluProd ringGraph [0, 1, 2, 3] (ringMatrix a c) i 3 := by
    intro i
    simp [ringVector, Matrix.mulVec, dotProduct, Fin.sum_univ_four]
  have h02 : iluProd ringGraph [0, 1, 2, 3] (ringMatrix a c) 0 2 = 0 := iluProd_row _ _ _ _
  funext i
  rw [e]
  match i with
  | 0 =>
    rw [hg 0 1 rfl, h02, hg 0 3 rfl]
    simp [ringMatrix]
  | 1 =>
    rw [hg 1 1 rfl, hg 1 2 rfl, h13]
    simp [ringMatrix]
    ring
  | 2 =>
    rw [hg 2 1 rfl, hg 2 2 rfl, hg 2 3 rfl]
    simp [ringMatrix]
    ring
  | 3 =>
    rw [h31, hg 3 2 rfl, hg 3 3 rfl]
    simp [ringMatrix]
    ring

/-- An error that smoothing multiplies by `lam` and whose residual is restricted to zero is multiplied by
`lam` in each smoothing step of a two-level cycle. -/
theorem two_level_eigen {V : ℕ → Type} [∀ l, AddCommGroup (V l)] [∀ l, Module K (V l)] (D : Data K V)
    (n : ℕ) (w : V 0) (lam : K) (hB : D.B 0 (D.A 0 w) = (1 - lam) • w) (hR : D.R 0 (D.A 0 w) = 0)
    (t : K) : cycle D n (2 - 1) 0 0 (if false = true then 0 else t • w) = (lam ^ (2 * n) * t) • w := by
  have hrich : ∀ t : K, richardson D 0 0 (t • w) = (lam * t) • w := by
    intro t
    rw [richardson, zero_sub, map_neg, map_smul, map_smul, hB, smul_smul, ← neg_smul, ← add_smul]
    congr 1
    ring
  have hiter : ∀ (m : ℕ) (t : K), (richardson D 0 0)^[m] (t • w) = (lam ^ m * t) • w := by
    intro m
    induction m with
    | zero => intro t; simp
    | succ m ih =>
      intro t
      rw [Function.iterate_succ_apply, hrich, ih]
      congr 1
      ring
  have hzero : ∀ t : K, D.R 0 (0 - D.A 0 (t • w)) = 0 := by
    intro t
    rw [zero_sub, map_neg, map_smul, map_smul, hR, smul_zero, neg_zero]
  simp only [Bool.false_eq_true, if_false, cycle, Nat.reduceSub]
  rw [hiter, hzero, map_zero, map_zero, add_zero, hiter]
  congr 1
  ring

theorem solve_left {n : ℕ} {M : Matrix (Fin n) (Fin n) K} (f : (Fin n → K) →ₗ[K] (Fin n → K))
    (h : ∀ r, M.mulVec (f r) = r) (x : Fin n → K) : f (M.mulVec x) = x := by
  have h1 : M.mulVecLin * f = 1 := LinearMap.ext h
  have h2 : f * M.mulVecLin = 1 := mul_eq_one_comm.1 h1
  exact LinearMap.congr_fun h2 x

/-- The preconditioner on the growing error. -/
theorem ring_vmult (a c : K) (h1 : 1 - a * a ≠ 0) (h2 : 1 - a * a - c * c ≠ 0)
    (h3 : 1 - a * a - 2 * c * c ≠ 0) :
    iluVmult ringGraph (ringMatrix a c) [[0, 1, 2, 3]] ((ringMatrix a c).mulVec (ringVector c))
      = ((1 - 2 * c * c) / (1 - a * a - 2 * c * c)) • ringVector c := by
  have hall : ListsAll ([[0, 1, 2, 3]] : List (List (Fin 4))).flatten := ⟨by decide, by decide⟩
  have hs : ∀ i j, sameProc ([[0, 1, 2, 3]] : List (List (Fin 4))) i j = true := by decide
  have hu : uncouple [[0, 1, 2, 3]] (ringMatrix a c) = ringMatrix a c := by
    ext i j
    simp [uncouple, hs i j]
  have hug : uncoupleGraph [[0, 1, 2, 3]] ringGraph = ringGraph := by
    funext i j
    simp [uncoupleGraph, hs i j]
  have hsolve := iluMatrix_vmult (graph := ringGraph) hall (ringMatrix a c) (by
    rw [hu, hug]
    exact ring_pivots a c h1 h2 h3)
  have hM : iluMatrix ringGraph [[0, 1, 2, 3]] (ringMatrix a c)
      = iluProd ringGraph [0, 1, 2, 3] (ringMatrix a c) := by
    rw [iluMatrix, hu, hug]
    rfl
  have hleft := solve_left (iluLin ringGraph (ringMatrix a c) [[0, 1, 2, 3]]) hsolve
    (((1 - 2 * c * c) / (1 - a * a - 2 * c * c)) • ringVector c)
  rw [hM, Matrix.mulVec_smul, ring_product, smul_smul, div_mul_cancel₀ _ h3,
    ← ringMatrix_vector a c] at hleft
  exact hleft

end

section

variable {K : Type} [Field K] [LinearOrder K] [IsStrictOrderedRing K]

theorem ringMatrix_spd (a c : K) (ha : 2 * a * a < 1) (hc : 2 * c * c < 1) : IsSpd (ringMatrix a c) := by
  refine ⟨ringMatrix_symm a c, ?_⟩
  intro v hv
  have h : v ⬝ᵥ (ringMatrix a c).mulVec v
      = (v 0 - a * (v 1 - v 3)) ^ 2 + (v 2 - c * (v 1 + v 3)) ^ 2
        + ((1 - 2 * a * a) * (v 1 - v 3) ^ 2 + (1 - 2 * c * c) * (v 1 + v 3) ^ 2) / 2 := by
    simp [ringMatrix, Matrix.mulVec, dotProduct, Fin.sum_univ_four]
    ring
  rw [h]
  by_contra hn
  have e1 := sq_nonneg (v 0 - a * (v 1 - v 3))
  have e2 := sq_nonneg (v 2 - c * (v 1 + v 3))
  have e3 : 0 ≤ (1 - 2 * a * a) * (v 1 - v 3) ^ 2 := mul_nonneg (by linarith) (sq_nonneg _)
  have e4 : 0 ≤ (1 - 2 * c * c) * (v 1 + v 3) ^ 2 := mul_nonneg (by linarith) (sq_nonneg _)
  have f3 : v 1 - v 3 = 0 := by
    have : (1 - 2 * a * a) * (v 1 - v 3) ^ 2 = 0 := by linarith
    exact pow_eq_zero_iff two_ne_zero |>.1 ((mul_eq_zero.1 this).resolve_left (by linarith))
  have f4 : v 1 + v 3 = 0 := by
    have : (1 - 2 * c * c) * (v 1 + v 3) ^ 2 = 0 := by linarith
    exact pow_eq_zero_iff two_ne_zero |>.1 ((mul_eq_zero.1 this).resolve_left (by linarith))
  have f1 : v 0 - a * (v 1 - v 3) = 0 := pow_eq_zero_iff two_ne_zero |>.1 (by linarith)
  have f2 : v 2 - c * (v 1 + v 3) = 0 := pow_eq_zero_iff two_ne_zero |>.1 (by linarith)
  rw [f3, mul_zero, sub_zero] at f1
  rw [f4, mul_zero, sub_zero] at f2
  apply hv
  funext i
  match i with
  | 0 => exact f1
  | 1 => change v 1 = 0; linarith
  | 2 => exact f2
  | 3 => change v 3 = 0; linarith

/-- **C88**, where the property fails: already on one process, for the symmetric positive definite matrices
of four unknowns in a ring with couplings `a` and `c` (one of them with another sign),
`2 a² < 1`, `2 c² < 1`, `2 a² + 2 c² > 1`, and a restriction matrix of full rank, two-level cycles with
incomplete factorisation smoothing multiply an error by a factor larger than one, however many smoothing steps
are made; no pivot is zero. -/
theorem C88_cycle_violated (debug timer : Bool) (p : Params) (type : Option (List Char))
    (htype : dealiiSmoother debug true type = .ok .ilu) (a c : K) (ha : 2 * a * a < 1)
    (hc : 2 * c * c < 1) (hac : 1 < 2 * a * a + 2 * c * c) (hd : a * a + 2 * c * c ≠ 1)
    (solve : ∀ l, Matrix (Fin (twoDims 4 l)) (Fin (twoDims 4 l)) K →
      (Fin (twoDims 4 l) → K) → Fin (twoDims 4 l) → K)
    (hsolve : ∀ l, SolvesExactly (solve l)) (hlev : p.maxLevels.getD 2 = 2)
    (hfast : p.fastAp.getD false = false) (hpre : p.isPreconditioner = some false)
    (hsteps : 0 < toUnsigned (p.nSmoothingSteps.getD 1)) :
    IsSpd (ringMatrix a c) ∧ IsGraph ringGraph (ringMatrix a c) ∧
    (∀ k ∈ [0, 1, 2, 3], iluFactor ringGraph [0, 1, 2, 3] (ringMatrix a c) k k ≠ 0) ∧
    (∀ l, IndependentRows (cornerRow (K := K) l)) ∧
    ∃ H, (buildHierarchy debug timer (some p) (.ok (fullHelpers debug type
        (twoDims 4) ringProcs
        ringGraphs
        (ringMatrix a c) cornerRow solve))).result = .ok H ∧
      ∃ q : K, 1 < q ∧ ∀ fresh (t : K), ∃ y,
        (H.vmult fresh (t • ringVector c) 0).result = .ok y ∧ y = (q * t) • ringVector c := by
  have h1 : 1 - a * a ≠ 0 := by nlinarith [mul_self_nonneg a]
  have h2 : 1 - a * a - c * c ≠ 0 := by nlinarith
  have h3 : 1 - a * a - 2 * c * c ≠ 0 := fun h => hd (by linarith)
  have hA := ringMatrix_spd a c ha hc
  have hR : ∀ l, IndependentRows (cornerRow (K := K) l) := cornerRow_independent
  refine ⟨hA, ringGraph_isGraph a c, ?_, hR, ?_⟩
  · exact (nonzeroPivots_iff _ (by decide) _).1 (ring_pivots a c h1 h2 h3)
  obtain ⟨H, hH, hlin, hL, hp, hs⟩ := fullHelpers_build debug timer p type htype (twoDims 4)
    ringProcs
    ringGraphs
    (ringMatrix a c) hA cornerRow hR solve hsolve (by omega) hfast
  set lam : K := 1 - (1 - 2 * c * c) / (1 - a * a - 2 * c * c) with hlam
  have hlam' : lam * (1 - a * a - 2 * c * c) = -(a * a) := by
    rw [hlam, sub_mul, div_mul_cancel₀ _ h3]
    ring
  have hlam2 : 1 < lam ^ 2 := by
    set d := 1 - a * a - 2 * c * c with hdd
    have hd2 : 0 < d ^ 2 := by positivity
    have e : lam ^ 2 * d ^ 2 = (a * a) ^ 2 := by rw [← mul_pow, hlam', neg_sq]
    have e2 : d ^ 2 < (a * a) ^ 2 := by
      have f1 : d < a * a := by rw [hdd]; linarith
      have f2 : -(a * a) < d := by rw [hdd]; linarith
      nlinarith
    by_contra hle
    have := mul_le_mul_of_nonneg_right (not_lt.1 hle) hd2.le
    linarith
  refine ⟨H, hH, lam ^ (2 * H.nSmoothingSteps), ?_, ?_⟩
  · rw [pow_mul]
    exact one_lt_pow₀ hlam2 (by omega)
  intro fresh t
  have hL2 : H.numLevels = 2 := by rw [hL, hlev]; rfl
  have hp' : H.isPreconditioner = false := by rw [hp, hpre]; rfl
  refine ⟨_, C04_cycle_is_textbook H _ hlin fresh _ 0 (Or.inr (by omega)), ?_⟩
  rw [hp', hL2]
  refine two_level_eigen (V := fun l => Fin (twoDims 4 l) → K) _ _ (ringVector c) lam ?_ ?_ t
  · have h : iluVmult ringGraph (ringMatrix a c) [[0, 1, 2, 3]] ((ringMatrix a c).mulVec (ringVector c))
        = (1 - lam) • ringVector c := by
      rw [ring_vmult a c h1 h2 h3, hlam, sub_sub_cancel]
    exact h
  · change (cornerRow (K := K) 0).mulVec ((ringMatrix a c).mulVec (ringVector c)) = 0
    rw [ringMatrix_vector]
    funext k
    change ∑ j : Fin 4, (if j.val = 0 then (1 : K) else 0) * ((1 - 2 * c * c) • ![0, 1, 0, 1]) j = 0
    simp

/-- Negative pivot (Kershaw's example): with the default parameters in standalone mode the error grows. -/
example : ∃ H, (buildHierarchy true false (some { isPreconditioner := some false })
      (.ok (fullHelpers true (some (chars! "ILU")) (twoDims 4) ringProcs ringGraphs
        (ringMatrix (2 / 3 : ℚ) (2 / 3)) cornerRow (fun l => exInvSolve l (twoDims 4))))).result = .ok H ∧
    ∃ q : ℚ, 1 < q ∧ ∀ fresh (t : ℚ), ∃ y,
      (H.vmult fresh (t • ringVector (2 / 3)) 0).result = .ok y ∧ y = (q * t) • ringVector (2 / 3) :=
  (C88_cycle_violated true false _ _ rfl (2 / 3 : ℚ) (2 / 3) (by norm_num) (by norm_num) (by norm_num)
    (by norm_num) _ (fun l => exInvSolve_exact _ l) rfl rfl rfl (by decide)).2.2.2.2

/-- The same with positive pivots. -/
example : (∀ k ∈ [0, 1, 2, 3], 0 < iluFactor ringGraph [0, 1, 2, 3] (ringMatrix (2 / 3 : ℚ) (1 / 3)) k k) ∧
    ∃ H, (buildHierarchy true false (some { isPreconditioner := some false })
      (.ok (fullHelpers true (some (chars! "ILU")) (twoDims 4) ringProcs ringGraphs
        (ringMatrix (2 / 3 : ℚ) (1 / 3)) cornerRow (fun l => exInvSolve l (twoDims 4))))).result = .ok H ∧
    ∃ q : ℚ, 1 < q ∧ ∀ fresh (t : ℚ), ∃ y,
      (H.vmult fresh (t • ringVector (1 / 3)) 0).result = .ok y ∧ y = (q * t) • ringVector (1 / 3) :=
  ⟨by decide +kernel,
    (C88_cycle_violated true false _ _ rfl (2 / 3 : ℚ) (1 / 3) (by norm_num) (by norm_num) (by norm_num)
      (by norm_num) _ (fun l => exInvSolve_exact _ l) rfl rfl rfl (by decide)).2.2.2.2⟩

end

end Mfmg
