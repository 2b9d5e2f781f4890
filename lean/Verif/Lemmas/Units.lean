import Verif.Props.Ilu
import Verif.Props.Chebyshev

/-!
# Multiplying the problem by a number
-/

set_option autoImplicit false

namespace Mfmg

open Spec

section

variable {K : Type} [Field K] {V V' : ℕ → Type} [∀ l, AddCommGroup (V l)] [∀ l, Module K (V l)]
  [∀ l, AddCommGroup (V' l)] [∀ l, Module K (V' l)]

/-- The cycles of two hierarchies whose components correspond to each other under the maps `T`, up to the
factor `c` of the operators. -/
theorem cycle_transport (D : Data K V) (D' : Data K V') (T : ∀ l, V l →ₗ[K] V' l) (c : K) (N : ℕ)
    (hA : ∀ l < N, ∀ x, D'.A l (T l x) = c • T l (D.A l x))
    (hB : ∀ l, l + 1 < N → ∀ r, D'.B l (c • T l r) = T l (D.B l r))
    (hR : ∀ l, l + 1 < N → ∀ x, D'.R l (T l x) = T (l + 1) (D.R l x))
    (hP : ∀ l, l + 1 < N → ∀ y, D'.P l (T (l + 1) y) = T l (D.P l y))
    (hC : ∀ l < N, ∀ r, D'.C l (c • T l r) = T l (D.C l r)) (n d l : ℕ) (hl : l + d < N) (b x : V l) :
    cycle D' n d l (c • T l b) (T l x) = T l (cycle D n d l b x) := by
  induction d generalizing l with
  | zero => exact hC l (by omega) b
  | succ d ih =>
    have hres : ∀ x, c • T l b - D'.A l (T l x) = c • T l (b - D.A l x) := by
      intro x
      rw [hA l (by omega), map_sub, smul_sub]
    have hsm : ∀ k x, (richardson D' l (c • T l b))^[k] (T l x) = T l ((richardson D l b)^[k] x) := by
      intro k
      induction k with
      | zero => intro x; rfl
      | succ k ihk =>
        intro x
        rw [Function.iterate_succ_apply, Function.iterate_succ_apply, ← ihk]
        congr 1
        rw [richardson, hres, hB l (by omega), richardson, map_add]
    simp only [cycle]
    have h0 : (0 : V' (l + 1)) = T (l + 1) 0 := (map_zero _).symm
    rw [hsm, hres, map_smul, hR l (by omega), h0, ih (l + 1) (by omega), hP l (by omega), ← map_add, hsm]

end

section

variable {K : Type} [Field K] {n : ℕ}

theorem relaxRow_units {c : K} (hc : c ≠ 0) (A : Matrix (Fin n) (Fin n) K) (own : List (Fin n))
    (b : Fin n → K) : relaxRow (c • A) own (c • b) = relaxRow A own b := by
  funext x i
  have h : (own.map fun j => (c • A) i j * x j).sum = c * (own.map fun j => A i j * x j).sum := by
    rw [← List.sum_map_mul_left]
    congr 1
    apply List.map_congr_left
    intro j _
    rw [Matrix.smul_apply, smul_eq_mul, mul_assoc]
  simp only [relaxRow]
  rw [h, Pi.smul_apply, Matrix.smul_apply, smul_eq_mul, smul_eq_mul, ← mul_sub, mul_div_mul_left _ _ hc]

theorem relaxVmult_units {c : K} (hc : c ≠ 0) (kind : Relaxation) (A : Matrix (Fin n) (Fin n) K)
    (procs : List (List (Fin n))) (r : Fin n → K) :
    relaxVmult kind (c • A) procs (c • r) = relaxVmult kind A procs r := by
  have h : ∀ own, localVmult kind (c • A) own (c • r) = localVmult kind A own r := by
    intro own
    cases kind
    · simp only [localVmult, relaxRow_units hc]
    · simp only [localVmult, relaxRow_units hc]
    · simp only [localVmult, Pi.smul_apply, Matrix.smul_apply, smul_eq_mul, mul_div_mul_left _ _ hc]
  funext i
  simp only [relaxVmult, h]

theorem iluFactor_units {c : K} (hc : c ≠ 0) (graph : Fin n → Fin n → Bool) (own : List (Fin n))
    (F : Matrix (Fin n) (Fin n) K) : iluFactor graph own (c • F) = c • iluFactor graph own F := by
  induction own generalizing F with
  | nil => rfl
  | cons k rest ih =>
    rw [iluFactor, iluFactor, ← ih]
    congr 1
    ext i j
    simp only [iluStep, Matrix.of_apply, Matrix.smul_apply, smul_eq_mul]
    rw [mul_div_mul_left _ _ hc]
    split_ifs
    · ring
    · rfl

theorem iluForward_units {c : K} (hc : c ≠ 0) (F : Matrix (Fin n) (Fin n) K) (own : List (Fin n))
    (r : Fin n → K) : iluForward (c • F) own (c • r) = c • iluForward F own r := by
  induction own generalizing r with
  | nil => rfl
  | cons k rest ih =>
    rw [iluForward, iluForward, ← ih]
    congr 1
    funext i
    simp only [Matrix.smul_apply, Pi.smul_apply, smul_eq_mul]
    rw [mul_div_mul_left _ _ hc]
    split_ifs
    · ring
    · rfl

theorem iluBackward_units {c : K} (hc : c ≠ 0) (F : Matrix (Fin n) (Fin n) K) (own : List (Fin n))
    (y : Fin n → K) : iluBackward (c • F) own (c • y) = iluBackward F own y := by
  induction own with
  | nil => rfl
  | cons k rest ih =>
    simp only [iluBackward, ih]
    have h : (rest.map fun j => (c • F) k j * iluBackward F rest y j).sum
        = c * (rest.map fun j => F k j * iluBackward F rest y j).sum := by
      rw [← List.sum_map_mul_left]
      congr 1
      apply List.map_congr_left
      intro j _
      rw [Matrix.smul_apply, smul_eq_mul, mul_assoc]
    rw [h, Pi.smul_apply, Matrix.smul_apply, smul_eq_mul, smul_eq_mul, ← mul_sub, mul_div_mul_left _ _ hc]

theorem iluVmult_units {c : K} (hc : c ≠ 0) (graph : Fin n → Fin n → Bool) (A : Matrix (Fin n) (Fin n) K)
    (procs : List (List (Fin n))) (r : Fin n → K) :
    iluVmult graph (c • A) procs (c • r) = iluVmult graph A procs r := by
  funext i
  simp only [iluVmult, iluLocal, iluFactor_units hc, iluForward_units hc, iluBackward_units hc]

theorem coarseMatrix_units (c : K) (dims : ℕ → ℕ) (A : Matrix (Fin (dims 0)) (Fin (dims 0)) K)
    (R : ∀ l, Matrix (Fin (dims (l + 1))) (Fin (dims l)) K) (l : ℕ) :
    coarseMatrix dims (c • A) R l = c • coarseMatrix dims A R l := by
  induction l with
  | zero => rfl
  | succ l ih => simp only [coarseMatrix, galerkin, ih, Matrix.mul_smul, Matrix.smul_mul]

theorem inv_units {c : K} (hc : c ≠ 0) (M : Matrix (Fin n) (Fin n) K) (hM : M.det ≠ 0) (r : Fin n → K) :
    (c • M)⁻¹.mulVec (c • r) = M⁻¹.mulVec r := by
  have h : (c • M)⁻¹ = c⁻¹ • M⁻¹ := by
    apply Matrix.inv_eq_right_inv
    rw [Matrix.smul_mul, Matrix.mul_smul, Matrix.mul_nonsing_inv _ (Ne.isUnit hM), smul_smul,
      mul_inv_cancel₀ hc, one_smul]
  rw [h, Matrix.smul_mulVec, Matrix.mulVec_smul, smul_smul, inv_mul_cancel₀ hc, one_smul]

end

section

variable {K : Type} [Field K] [LinearOrder K] {n : ℕ}

theorem chebyshevVmult_units {c : K} (hc : c ≠ 0) (s : ChebyshevSettings K) (auto : ℕ) (ritz : List K)
    (A : (Fin n → K) → Fin n → K) (dinv r : Fin n → K) :
    chebyshevVmult s auto ritz (fun x => c • A x) (c⁻¹ • dinv) (c • r)
      = chebyshevVmult s auto ritz A dinv r := by
  have hP : ∀ v : Fin n → K, (fun i => (c⁻¹ • dinv) i * (c • v) i) = fun i => dinv i * v i := by
    intro v
    funext i
    simp only [Pi.smul_apply, smul_eq_mul]
    field_simp
  have hloop : ∀ (delta sigma : K) k xold x rho,
      chebyshevLoop (fun x => c • A x) (fun v i => (c⁻¹ • dinv) i * v i) (c • r) delta sigma k xold x rho
        = chebyshevLoop A (fun v i => dinv i * v i) r delta sigma k xold x rho := by
    intro delta sigma k
    induction k with
    | zero => intros; rfl
    | succ k ih =>
      intro xold x rho
      simp only [chebyshevLoop]
      rw [← smul_sub, hP, ih]
  simp only [chebyshevVmult]
  rw [hP]
  simp only [hloop]

end

end Mfmg
