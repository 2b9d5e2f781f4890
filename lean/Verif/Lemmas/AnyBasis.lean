import Verif.Spec.AnyBasis
import Verif.Lemmas.Richer
import Verif.Lemmas.Numbering

/-!
# Lemmas about other bases of the same coarse space
-/

set_option autoImplicit false

namespace Mfmg

open Spec Matrix

section

variable {K : Type} [Field K] {V V' : ℕ → Type} [∀ l, AddCommGroup (V l)] [∀ l, Module K (V l)]
  [∀ l, AddCommGroup (V' l)] [∀ l, Module K (V' l)]

/-- The cycles of two hierarchies whose components correspond to each other under the maps `T` of solutions and `U` of
right-hand sides. -/
theorem cycle_transport_dual (D : Data K V) (D' : Data K V') (T U : ∀ l, V l →ₗ[K] V' l)
    (hA : ∀ l x, D'.A l (T l x) = U l (D.A l x))
    (hB : ∀ l r, D'.B l (U l r) = T l (D.B l r))
    (hR : ∀ l r, D'.R l (U l r) = U (l + 1) (D.R l r))
    (hP : ∀ l y, D'.P l (T (l + 1) y) = T l (D.P l y))
    (hC : ∀ l r, D'.C l (U l r) = T l (D.C l r)) (n d l : ℕ) (b x : V l) :
    cycle D' n d l (U l b) (T l x) = T l (cycle D n d l b x) := by
  induction d generalizing l with
  | zero => exact hC l b
  | succ d ih =>
    have hres : ∀ x, U l b - D'.A l (T l x) = U l (b - D.A l x) := by
      intro x
      rw [hA l, map_sub]
    have hsm : ∀ k x, (richardson D' l (U l b))^[k] (T l x) = T l ((richardson D l b)^[k] x) := by
      intro k
      induction k with
      | zero => intro x; rfl
      | succ k ihk =>
        intro x
        rw [Function.iterate_succ_apply, Function.iterate_succ_apply, ← ihk]
        congr 1
        rw [richardson, hres, hB l, richardson, map_add]
    simp only [cycle]
    have h0 : (0 : V' (l + 1)) = T (l + 1) 0 := (map_zero _).symm
    rw [hsm, hres, hR l, h0, ih (l + 1), hP l, ← map_add, hsm]

end

section scaling

variable {K : Type} [Field K] {m n : ℕ}

/-- `weighVec` as a linear map. -/
def scaleLin (s : Fin n → K) : (Fin n → K) →ₗ[K] Fin n → K where
  toFun := weighVec s
  map_add' x y := by funext i; simp only [weighVec, Pi.add_apply]; ring
  map_smul' c x := by funext i; simp only [weighVec, Pi.smul_apply, smul_eq_mul, RingHom.id_apply]; ring

/-- `unscaleVec` as a linear map. -/
def unscaleLin (s : Fin n → K) : (Fin n → K) →ₗ[K] Fin n → K where
  toFun := unscaleVec s
  map_add' x y := by funext i; simp only [unscaleVec, Pi.add_apply]; ring
  map_smul' c x := by funext i; simp only [unscaleVec, Pi.smul_apply, smul_eq_mul, RingHom.id_apply]; ring

theorem scaleMatrix_mulVec {s : Fin n → K} (hs : ∀ i, s i ≠ 0) (A : Matrix (Fin n) (Fin n) K) (x : Fin n → K) :
    (scaleMatrix s A).mulVec (unscaleVec s x) = weighVec s (A.mulVec x) := by
  funext i
  simp only [Matrix.mulVec, dotProduct, scaleMatrix, Matrix.of_apply, unscaleVec, weighVec, Finset.mul_sum]
  refine Finset.sum_congr rfl fun j _ => ?_
  have := hs j
  field_simp

theorem scaleRestriction_mulVec {t : Fin m → K} {s : Fin n → K} (hs : ∀ i, s i ≠ 0) (R : Matrix (Fin m) (Fin n) K)
    (x : Fin n → K) : (scaleRestriction t s R).mulVec (weighVec s x) = weighVec t (R.mulVec x) := by
  funext i
  simp only [Matrix.mulVec, dotProduct, scaleRestriction, Matrix.of_apply, weighVec, Finset.mul_sum]
  refine Finset.sum_congr rfl fun j _ => ?_
  have := hs j
  field_simp

theorem scaleRestriction_transpose {t : Fin m → K} (ht : ∀ i, t i ≠ 0) {s : Fin n → K} (R : Matrix (Fin m) (Fin n) K)
    (y : Fin m → K) :
    (scaleRestriction t s R).transpose.mulVec (unscaleVec t y) = unscaleVec s (R.transpose.mulVec y) := by
  funext j
  simp only [Matrix.mulVec, dotProduct, scaleRestriction, Matrix.transpose_apply, Matrix.of_apply, unscaleVec,
    Finset.sum_div]
  refine Finset.sum_congr rfl fun i _ => ?_
  have := ht i
  field_simp

theorem galerkin_scale {t : Fin m → K} {s : Fin n → K} (hs : ∀ i, s i ≠ 0) (R : Matrix (Fin m) (Fin n) K)
    (A : Matrix (Fin n) (Fin n) K) :
    galerkin (scaleRestriction t s R) (scaleMatrix s A) = scaleMatrix t (galerkin R A) := by
  ext i j
  simp only [galerkin, Matrix.mul_apply, Matrix.transpose_apply, scaleRestriction, scaleMatrix, Matrix.of_apply,
    Finset.mul_sum, Finset.sum_mul]
  refine Finset.sum_congr rfl fun k _ => Finset.sum_congr rfl fun l _ => ?_
  have := hs k
  have := hs l
  field_simp

theorem coarseMatrix_scale (dims : ℕ → ℕ) {s : ∀ l, Fin (dims l) → K} (hs : ∀ l i, s l i ≠ 0)
    (A : Matrix (Fin (dims 0)) (Fin (dims 0)) K) (R : ∀ l, Matrix (Fin (dims (l + 1))) (Fin (dims l)) K) (l : ℕ) :
    coarseMatrix dims (scaleMatrix (s 0) A) (fun l => scaleRestriction (s (l + 1)) (s l) (R l)) l
      = scaleMatrix (s l) (coarseMatrix dims A R l) := by
  induction l with
  | zero => rfl
  | succ l ih =>
    simp only [coarseMatrix]
    rw [ih, galerkin_scale (hs l)]

theorem unscaleVec_zero (s : Fin n → K) : unscaleVec s (0 : Fin n → K) = 0 := by
  funext i
  simp [unscaleVec]

theorem relaxRow_scale {s : Fin n → K} (hs : ∀ i, s i ≠ 0) (A : Matrix (Fin n) (Fin n) K) (own : List (Fin n))
    (b x : Fin n → K) (i : Fin n) :
    relaxRow (scaleMatrix s A) own (weighVec s b) (unscaleVec s x) i = unscaleVec s (relaxRow A own b x i) := by
  have h : (own.map fun j => scaleMatrix s A i j * unscaleVec s x j).sum = s i * (own.map fun j => A i j * x j).sum := by
    rw [← List.sum_map_mul_left]
    congr 1
    apply List.map_congr_left
    intro j _
    simp only [scaleMatrix, Matrix.of_apply, unscaleVec]
    have := hs j
    field_simp
  simp only [relaxRow, h]
  funext k
  by_cases hk : k = i
  · subst hk
    simp only [Function.update_self, unscaleVec, weighVec, scaleMatrix, Matrix.of_apply, ← mul_sub]
    have := hs k
    rw [show s k * A k k * s k = s k * (A k k * s k) from mul_assoc _ _ _, mul_div_mul_left _ _ this, add_div, div_div]
  · simp only [Function.update_of_ne hk, unscaleVec]

theorem sweep_scale {s : Fin n → K} (hs : ∀ i, s i ≠ 0) (A : Matrix (Fin n) (Fin n) K) (own : List (Fin n))
    (b : Fin n → K) (rows : List (Fin n)) (x : Fin n → K) :
    rows.foldl (relaxRow (scaleMatrix s A) own (weighVec s b)) (unscaleVec s x)
      = unscaleVec s (rows.foldl (relaxRow A own b) x) := by
  induction rows generalizing x with
  | nil => rfl
  | cons i rows ih => rw [List.foldl_cons, List.foldl_cons, relaxRow_scale hs, ih]

theorem unscaleVec_sum (s : Fin n → K) {α : Type} (l : List α) (f : α → Fin n → K) (i : Fin n) :
    (l.map fun a => unscaleVec s (f a) i).sum = (l.map fun a => f a i).sum / s i := by
  simp only [unscaleVec, div_eq_mul_inv, List.sum_map_mul_right]

theorem relaxVmult_scale {s : Fin n → K} (hs : ∀ i, s i ≠ 0) (kind : Relaxation) (A : Matrix (Fin n) (Fin n) K)
    (procs : List (List (Fin n))) (r : Fin n → K) :
    relaxVmult kind (scaleMatrix s A) procs (weighVec s r) = unscaleVec s (relaxVmult kind A procs r) := by
  have h : ∀ own, localVmult kind (scaleMatrix s A) own (weighVec s r) = unscaleVec s (localVmult kind A own r) := by
    intro own
    cases kind
    · have := sweep_scale hs A own r (own ++ own.reverse) 0
      rwa [unscaleVec_zero] at this
    · have := sweep_scale hs A own r own 0
      rwa [unscaleVec_zero] at this
    · funext i
      simp only [localVmult, unscaleVec, weighVec, scaleMatrix, Matrix.of_apply]
      split_ifs
      · rw [mul_assoc, mul_div_mul_left _ _ (hs i), div_div]
      · rw [zero_div]
  funext i
  simp only [relaxVmult, h]
  exact unscaleVec_sum s procs _ i

theorem iluFactor_scale {s : Fin n → K} (hs : ∀ i, s i ≠ 0) (graph : Fin n → Fin n → Bool) (own : List (Fin n))
    (F : Matrix (Fin n) (Fin n) K) : iluFactor graph own (scaleMatrix s F) = scaleMatrix s (iluFactor graph own F) := by
  induction own generalizing F with
  | nil => rfl
  | cons k rest ih =>
    rw [iluFactor, iluFactor, ← ih]
    congr 1
    ext i j
    simp only [iluStep, Matrix.of_apply, scaleMatrix]
    rw [mul_div_mul_right _ _ (hs k)]
    split_ifs
    · have e : s i * F i k / (s k * F k k) * (s k * F k j * s j) = s i * (F i k / F k k * F k j) * s j := by
        rw [mul_div_mul_comm]
        have := hs k
        field_simp
      rw [e]
      ring
    · rfl

theorem iluForward_scale {s : Fin n → K} (hs : ∀ i, s i ≠ 0) (F : Matrix (Fin n) (Fin n) K) (own : List (Fin n))
    (r : Fin n → K) : iluForward (scaleMatrix s F) own (weighVec s r) = weighVec s (iluForward F own r) := by
  induction own generalizing r with
  | nil => rfl
  | cons k rest ih =>
    rw [iluForward, iluForward, ← ih]
    congr 1
    funext i
    simp only [scaleMatrix, Matrix.of_apply, weighVec]
    rw [mul_div_mul_right _ _ (hs k)]
    split_ifs
    · have e : s i * F i k / (s k * F k k) * (s k * r k) = s i * (F i k / F k k * r k) := by
        rw [mul_div_mul_comm]
        have := hs k
        field_simp
      rw [e]
      ring
    · rfl

theorem iluBackward_scale {s : Fin n → K} (hs : ∀ i, s i ≠ 0) (F : Matrix (Fin n) (Fin n) K) (own : List (Fin n))
    (y : Fin n → K) : iluBackward (scaleMatrix s F) own (weighVec s y) = unscaleVec s (iluBackward F own y) := by
  induction own with
  | nil => exact (unscaleVec_zero s).symm
  | cons k rest ih =>
    simp only [iluBackward, ih]
    have h : (rest.map fun j => scaleMatrix s F k j * unscaleVec s (iluBackward F rest y) j).sum
        = s k * (rest.map fun j => F k j * iluBackward F rest y j).sum := by
      rw [← List.sum_map_mul_left]
      congr 1
      apply List.map_congr_left
      intro j _
      simp only [scaleMatrix, Matrix.of_apply, unscaleVec]
      have := hs j
      field_simp
    rw [h]
    funext i
    by_cases hi : i = k
    · subst hi
      simp only [Function.update_self, unscaleVec, weighVec, scaleMatrix, Matrix.of_apply, ← mul_sub]
      rw [mul_assoc, mul_div_mul_left _ _ (hs i), div_div]
    · simp only [Function.update_of_ne hi, unscaleVec]

theorem iluVmult_scale {s : Fin n → K} (hs : ∀ i, s i ≠ 0) (graph : Fin n → Fin n → Bool)
    (A : Matrix (Fin n) (Fin n) K) (procs : List (List (Fin n))) (r : Fin n → K) :
    iluVmult graph (scaleMatrix s A) procs (weighVec s r) = unscaleVec s (iluVmult graph A procs r) := by
  funext i
  simp only [iluVmult, iluLocal, iluFactor_scale hs, iluForward_scale hs, iluBackward_scale hs]
  exact unscaleVec_sum s procs _ i

theorem independentRows_scale {t : Fin m → K} (ht : ∀ i, t i ≠ 0) {s : Fin n → K} (hs : ∀ i, s i ≠ 0)
    {R : Matrix (Fin m) (Fin n) K} (h : IndependentRows R) : IndependentRows (scaleRestriction t s R) := by
  intro y hy
  have e := scaleRestriction_transpose (s := s) ht R (weighVec t y)
  have e1 : unscaleVec t (weighVec t y) = y := by
    funext i
    simp only [unscaleVec, weighVec]
    exact mul_div_cancel_left₀ _ (ht i)
  rw [e1, hy] at e
  have h1 : R.transpose.mulVec (weighVec t y) = 0 := by
    funext j
    have := congrFun e j
    simp only [unscaleVec, Pi.zero_apply] at this
    exact (div_eq_zero_iff.1 this.symm).resolve_right (hs j)
  have h2 := h _ h1
  funext i
  have := congrFun h2 i
  simp only [weighVec, Pi.zero_apply] at this
  exact (mul_eq_zero.1 this).resolve_left (ht i)

theorem spd_scale [LinearOrder K] {s : Fin n → K} (hs : ∀ i, s i ≠ 0) {A : Matrix (Fin n) (Fin n) K} (hA : IsSpd A) :
    IsSpd (scaleMatrix s A) := by
  refine ⟨?_, ?_⟩
  · ext i j
    have := congrFun (congrFun hA.1 i) j
    simp only [Matrix.transpose_apply] at this
    simp only [scaleMatrix, Matrix.transpose_apply, Matrix.of_apply, this]
    ring
  · intro v hv
    have e1 : unscaleVec s (weighVec s v) = v := by
      funext i
      simp only [unscaleVec, weighVec]
      exact mul_div_cancel_left₀ _ (hs i)
    have e : v ⬝ᵥ (scaleMatrix s A).mulVec v = weighVec s v ⬝ᵥ A.mulVec (weighVec s v) := by
      have h1 := scaleMatrix_mulVec hs A (weighVec s v)
      rw [e1] at h1
      rw [h1]
      simp only [dotProduct, weighVec]
      exact Finset.sum_congr rfl fun i _ => by ring
    rw [e]
    refine hA.2 _ fun h => hv ?_
    rw [← e1, h, unscaleVec_zero]

end scaling

end Mfmg
