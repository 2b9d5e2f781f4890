import Verif.Lemmas.Rounded
import Mathlib.Tactic.Abel

/-!
# Lemmas: errors of products and sums in the standard model
-/

set_option autoImplicit false

namespace Mfmg

namespace Arith

variable {ar : Arith} {u : ℝ}

theorem one_add_le {δ : ℝ} (h : |δ| ≤ u) : |1 + δ| ≤ 1 + u :=
  (abs_add_le 1 δ).trans (by rw [abs_one]; linarith)

/-- One step of a sum of products. -/
theorem muladd_error (hu : 0 ≤ u) {s S p T g δ ε : ℝ} (hδ : |δ| ≤ u) (hε : |ε| ≤ u)
    (hS : |S| ≤ T) (hs : |s - S| ≤ g * T) (hg : 0 ≤ g) :
    |(s + p * (1 + δ)) * (1 + ε) - (S + p)| ≤ (g * (1 + u) + u) * T + ((1 + u) ^ 2 - 1) * |p| := by
  have hT : 0 ≤ T := (abs_nonneg S).trans hS
  have e : (s + p * (1 + δ)) * (1 + ε) - (S + p)
      = (s - S) * (1 + ε) + S * ε + p * (δ + ε + δ * ε) := by ring
  have h1 : |(s - S) * (1 + ε)| ≤ g * T * (1 + u) := by
    rw [abs_mul]
    exact mul_le_mul hs (one_add_le hε) (abs_nonneg _) (by positivity)
  have h2 : |S * ε| ≤ T * u := by
    rw [abs_mul]
    exact mul_le_mul hS hε (abs_nonneg _) hT
  have h3 : |δ + ε + δ * ε| ≤ (1 + u) ^ 2 - 1 := by
    have a1 : |δ * ε| ≤ u * u := by
      rw [abs_mul]; exact mul_le_mul hδ hε (abs_nonneg _) hu
    have a2 := abs_add_le (δ + ε) (δ * ε)
    have a3 := abs_add_le δ ε
    nlinarith
  have h4 : |p * (δ + ε + δ * ε)| ≤ |p| * ((1 + u) ^ 2 - 1) := by
    rw [abs_mul]
    exact mul_le_mul_of_nonneg_left h3 (abs_nonneg _)
  have h5 := abs_add_le ((s - S) * (1 + ε) + S * ε) (p * (δ + ε + δ * ε))
  have h6 := abs_add_le ((s - S) * (1 + ε)) (S * ε)
  rw [e]
  linarith

theorem abs_list_sum {α : Type} (l : List α) (f : α → ℝ) :
    |(l.map f).sum| ≤ (l.map fun a => |f a|).sum := by
  induction l with
  | nil => simp
  | cons a l ih =>
    simp only [List.map_cons, List.sum_cons]
    exact (abs_add_le _ _).trans (by linarith)

theorem list_sum_nonneg {α : Type} (l : List α) (f : α → ℝ) (hf : ∀ a ∈ l, 0 ≤ f a) :
    0 ≤ (l.map f).sum := by
  induction l with
  | nil => simp
  | cons a l ih =>
    simp only [List.map_cons, List.sum_cons]
    exact add_nonneg (hf a (by simp)) (ih fun b hb => hf b (by simp [hb]))

/-- The error of a row times a vector. -/
theorem dotRow_error (h : ar.Standard u) {n : ℕ} (row : Row n) (x : Fin n → ℝ) :
    |ar.dotRow row x - (row.map fun e => e.2 * x e.1).sum| ≤
      ((1 + u) ^ (row.length + 1) - 1) * (row.map fun e => |e.2 * x e.1|).sum := by
  have hu := h.nonneg
  induction row using List.reverseRecOn with
  | nil => simp [dotRow]
  | append_singleton row e ih =>
    obtain ⟨δ, ε, hδ, hε, hm⟩ := h.muladd (ar.dotRow row x) e.2 (x e.1)
    have e1 : ar.dotRow (row ++ [e]) x = ar.muladd (ar.dotRow row x) e.2 (x e.1) := by
      simp [dotRow, List.foldl_append]
    have hT := list_sum_nonneg row (fun e => |e.2 * x e.1|) (fun _ _ => abs_nonneg _)
    have hpow : (1 : ℝ) ≤ (1 + u) ^ row.length := one_le_pow₀ (by linarith)
    have hg : 0 ≤ (1 + u) ^ (row.length + 1) - 1 := by
      have : (1 : ℝ) ≤ (1 + u) ^ (row.length + 1) := one_le_pow₀ (by linarith)
      linarith
    have key := muladd_error (p := e.2 * x e.1) hu hδ hε
      (abs_list_sum row fun e => e.2 * x e.1) ih hg
    rw [e1, hm]
    simp only [List.map_append, List.map_cons, List.map_nil, List.sum_append, List.sum_cons,
      List.sum_nil, add_zero, List.length_append, List.length_cons, List.length_nil]
    refine key.trans ?_
    have e2 : ((1 + u) ^ (row.length + 1) - 1) * (1 + u) + u
        = (1 + u) ^ (row.length + (0 + 1) + 1) - 1 := by ring
    have e3 : (1 + u) ^ 2 - 1 ≤ (1 + u) ^ (row.length + (0 + 1) + 1) - 1 := by
      have : (1 + u) ^ 2 ≤ (1 + u) ^ (row.length + (0 + 1) + 1) :=
        pow_le_pow_right₀ (by linarith) (by omega)
      linarith
    rw [e2, mul_add]
    gcongr

/-- The row `j` of the transpose, in the order of the entries. -/
def transposeRow {m n : ℕ} (es : List (Fin m × Fin n × ℝ)) (j : Fin n) : Row m :=
  (es.filter fun e => e.2.1 = j).map fun e => (e.1, e.2.2)

/-- The transposed product does the same operations as the product with the transposed rows. -/
theorem sparseTVec_eq (ar : Arith) {m n : ℕ} (es : List (Fin m × Fin n × ℝ)) (x : Fin m → ℝ) :
    ar.sparseTVec es x = ar.sparseVec (transposeRow es) x := by
  induction es using List.reverseRecOn with
  | nil => funext j; simp [sparseTVec, sparseVec, transposeRow, dotRow]
  | append_singleton es e ih =>
    funext j
    have e1 : ar.sparseTVec (es ++ [e]) x = Function.update (ar.sparseTVec es x) e.2.1
        (ar.muladd (ar.sparseTVec es x e.2.1) e.2.2 (x e.1)) := by
      simp [sparseTVec, List.foldl_append]
    rw [e1]
    by_cases hj : j = e.2.1
    · subst hj
      rw [Function.update_self, ih]
      simp [sparseVec, transposeRow, dotRow, List.filter_append, List.foldl_append]
    · rw [Function.update_of_ne hj, ih]
      simp [sparseVec, transposeRow, List.filter_append, Ne.symm hj]

theorem rowsMatrix_mulVec {m n : ℕ} (rows : Fin m → Row n) (x : Fin n → ℝ) (i : Fin m) :
    (rowsMatrix rows).mulVec x i = ((rows i).map fun e => e.2 * x e.1).sum := by
  simp only [Matrix.mulVec, dotProduct, rowsMatrix]
  induction rows i with
  | nil => simp
  | cons e row ih =>
    simp only [List.map_cons, List.sum_cons, add_mul, Finset.sum_add_distrib, ih]
    simp

theorem rowsMatrix_transpose {m n : ℕ} (rows : Fin m → Row n) :
    rowsMatrix (transposeRow (entries rows)) = (rowsMatrix rows).transpose := by
  ext j i
  simp only [rowsMatrix, Matrix.transpose_apply, transposeRow, entries, List.filter_flatMap,
    List.map_flatMap, List.map_map, List.filter_map]
  have key : ∀ l : List (Fin m), l.Nodup → (l.flatMap fun a => ((rows a).filter
      ((fun e => decide (e.2.1 = j)) ∘ fun e => (a, e.1, e.2))).map
      ((fun e : Fin m × ℝ => if e.1 = i then e.2 else 0) ∘ (fun e => (e.1, e.2.2)) ∘
        fun e => (a, e.1, e.2))).sum =
      if i ∈ l then ((rows i).map fun e => if e.1 = j then e.2 else 0).sum else 0 := by
    have hone : ∀ a : Fin m, (((rows a).filter
        ((fun e => decide (e.2.1 = j)) ∘ fun e => (a, e.1, e.2))).map
        ((fun e : Fin m × ℝ => if e.1 = i then e.2 else 0) ∘ (fun e => (e.1, e.2.2)) ∘
          fun e => (a, e.1, e.2))).sum =
        if a = i then ((rows a).map fun e => if e.1 = j then e.2 else 0).sum else 0 := by
      intro a
      induction rows a with
      | nil => simp
      | cons e row ih =>
        by_cases h : e.1 = j
        · rw [List.filter_cons_of_pos (by simp [h]), List.map_cons, List.sum_cons, ih]
          by_cases ha : a = i <;> simp [h, ha]
        · rw [List.filter_cons_of_neg (by simp [h]), ih]
          by_cases ha : a = i <;> simp [h, ha]
    intro l hl
    induction l with
    | nil => simp
    | cons a l ih =>
      rw [List.nodup_cons] at hl
      rw [List.flatMap_cons, List.sum_append, hone, ih hl.2]
      by_cases ha : a = i
      · subst ha
        simp [hl.1]
      · simp [ha, Ne.symm ha]
  rw [key _ (List.nodup_finRange m), if_pos (List.mem_finRange i)]

theorem pow_sub_one_le (hu : 0 ≤ u) (hu1 : u ≤ 1) (k : ℕ) : (1 + u) ^ k - 1 ≤ 2 ^ k * u := by
  have key : (1 + u) ^ k - 1 ≤ (2 ^ k - 1) * u := by
    induction k with
    | zero => simp
    | succ k ih =>
      have h3 : (1 : ℝ) ≤ 2 ^ k := one_le_pow₀ (by norm_num)
      have e : (1 + u) ^ (k + 1) - 1 = ((1 + u) ^ k - 1) * (1 + u) + u := by ring
      have h4 : ((1 + u) ^ k - 1) * (1 + u) ≤ (2 ^ k - 1) * u * (1 + u) := by gcongr
      have h5 : (2 ^ k - 1) * u * (1 + u) ≤ (2 ^ k - 1) * u * 2 := by
        have : 0 ≤ (2 ^ k - 1) * u := mul_nonneg (by linarith) hu
        gcongr
        linarith
      rw [e, pow_succ]
      linarith
  linarith

/-- Bounds of a sum of nonnegative numbers. -/
theorem sumUp_bounds (h : ar.Standard u) (hu1 : u ≤ 1) (vs : List ℝ) (hv : ∀ v ∈ vs, 0 ≤ v) :
    (1 - u) ^ vs.length * vs.sum ≤ ar.sumUp vs ∧ ar.sumUp vs ≤ (1 + u) ^ vs.length * vs.sum := by
  have hu := h.nonneg
  induction vs using List.reverseRecOn with
  | nil => simp [sumUp]
  | append_singleton vs v ih =>
    obtain ⟨h1, h2⟩ := ih (fun w hw => hv w (by simp [hw]))
    have hv0 : 0 ≤ v := hv v (by simp)
    have hS : 0 ≤ vs.sum := List.sum_nonneg (fun w hw => hv w (by simp [hw]))
    obtain ⟨δ, hδ, e⟩ := h.add (ar.sumUp vs) v
    rw [abs_le] at hδ
    have e1 : ar.sumUp (vs ++ [v]) = (ar.sumUp vs + v) * (1 + δ) := by
      rw [← e]; simp [sumUp, List.foldl_append]
    have hp : (0 : ℝ) ≤ (1 - u) ^ vs.length := pow_nonneg (by linarith) _
    have hp1 : (1 - u) ^ vs.length ≤ 1 := pow_le_one₀ (by linarith) (by linarith)
    have hq1 : (1 : ℝ) ≤ (1 + u) ^ vs.length := one_le_pow₀ (by linarith)
    have h0 : 0 ≤ ar.sumUp vs := (mul_nonneg hp hS).trans h1
    rw [e1]
    simp only [List.length_append, List.length_cons, List.length_nil, List.sum_append, List.sum_cons,
      List.sum_nil, add_zero, zero_add, pow_succ]
    constructor
    · calc (1 - u) ^ vs.length * (1 - u) * (vs.sum + v)
          = ((1 - u) ^ vs.length * vs.sum + (1 - u) ^ vs.length * v) * (1 - u) := by ring
        _ ≤ (ar.sumUp vs + 1 * v) * (1 - u) := by gcongr
        _ ≤ (ar.sumUp vs + v) * (1 + δ) := by
          rw [one_mul]
          gcongr
          linarith
    · calc (ar.sumUp vs + v) * (1 + δ) ≤ (ar.sumUp vs + 1 * v) * (1 + u) := by
            rw [one_mul]
            gcongr
            linarith
        _ ≤ ((1 + u) ^ vs.length * vs.sum + (1 + u) ^ vs.length * v) * (1 + u) := by gcongr
        _ = (1 + u) ^ vs.length * (1 + u) * (vs.sum + v) := by ring

/-! ### In the maximum norm -/

/-- A bound for the matrix and for the error of its product. -/
noncomputable def size {m n : ℕ} (rows : Fin m → Row n) : ℝ :=
  ∑ i, 2 ^ ((rows i).length + 1) * ((rows i).map fun e => |e.2|).sum

theorem size_nonneg {m n : ℕ} (rows : Fin m → Row n) : 0 ≤ size rows :=
  Finset.sum_nonneg fun i _ => mul_nonneg (by positivity) (list_sum_nonneg _ _ fun _ _ => abs_nonneg _)

theorem row_le_size {m n : ℕ} (rows : Fin m → Row n) (i : Fin m) :
    2 ^ ((rows i).length + 1) * ((rows i).map fun e => |e.2|).sum ≤ size rows :=
  Finset.single_le_sum (f := fun i => 2 ^ ((rows i).length + 1) * ((rows i).map fun e => |e.2|).sum)
    (fun i _ => mul_nonneg (by positivity) (list_sum_nonneg _ _ fun _ _ => abs_nonneg _))
    (Finset.mem_univ i)

theorem row_abs_le {n : ℕ} (row : Row n) (x : Fin n → ℝ) :
    (row.map fun e => |e.2 * x e.1|).sum ≤ (row.map fun e => |e.2|).sum * ‖x‖ := by
  induction row with
  | nil => simp
  | cons e row ih =>
    simp only [List.map_cons, List.sum_cons, add_mul, abs_mul]
    simp only [abs_mul] at ih
    have h : |x e.1| ≤ ‖x‖ := by
      rw [← Real.norm_eq_abs]; exact norm_le_pi_norm x e.1
    have := mul_le_mul_of_nonneg_left h (abs_nonneg e.2)
    linarith

theorem mulVec_le {m n : ℕ} (rows : Fin m → Row n) (x : Fin n → ℝ) :
    ‖(rowsMatrix rows).mulVec x‖ ≤ size rows * ‖x‖ := by
  rw [pi_norm_le_iff_of_nonneg (mul_nonneg (size_nonneg rows) (norm_nonneg x))]
  intro i
  rw [rowsMatrix_mulVec, Real.norm_eq_abs]
  have h0 := list_sum_nonneg (rows i) (fun e => |e.2|) fun _ _ => abs_nonneg _
  have h1 : ((rows i).map fun e => |e.2|).sum ≤ size rows := by
    refine le_trans ?_ (row_le_size rows i)
    have : (1 : ℝ) ≤ 2 ^ ((rows i).length + 1) := one_le_pow₀ (by norm_num)
    nlinarith
  exact ((abs_list_sum _ _).trans (row_abs_le _ _)).trans (by gcongr)

theorem sparseVec_error (h : ar.Standard u) (hu1 : u ≤ 1) {m n : ℕ} (rows : Fin m → Row n)
    (x : Fin n → ℝ) : ‖ar.sparseVec rows x - (rowsMatrix rows).mulVec x‖ ≤ size rows * u * ‖x‖ := by
  have hu := h.nonneg
  have hs := size_nonneg rows
  rw [pi_norm_le_iff_of_nonneg (by positivity)]
  intro i
  rw [Pi.sub_apply, rowsMatrix_mulVec, Real.norm_eq_abs]
  refine (dotRow_error h (rows i) x).trans ?_
  have h0 := list_sum_nonneg (rows i) (fun e => |e.2|) fun _ _ => abs_nonneg _
  have h1 := list_sum_nonneg (rows i) (fun e => |e.2 * x e.1|) fun _ _ => abs_nonneg _
  calc ((1 + u) ^ ((rows i).length + 1) - 1) * ((rows i).map fun e => |e.2 * x e.1|).sum
      ≤ (2 ^ ((rows i).length + 1) * u) * (((rows i).map fun e => |e.2|).sum * ‖x‖) := by
        gcongr
        · exact pow_sub_one_le hu hu1 _
        · exact row_abs_le _ _
    _ = (2 ^ ((rows i).length + 1) * ((rows i).map fun e => |e.2|).sum) * u * ‖x‖ := by ring
    _ ≤ size rows * u * ‖x‖ := by
        gcongr
        exact row_le_size rows i

theorem sparseTVec_error (h : ar.Standard u) (hu1 : u ≤ 1) {m n : ℕ} (rows : Fin m → Row n)
    (x : Fin m → ℝ) : ‖ar.sparseTVec (entries rows) x - (rowsMatrix rows).transpose.mulVec x‖ ≤
      size (transposeRow (entries rows)) * u * ‖x‖ := by
  rw [sparseTVec_eq, ← rowsMatrix_transpose]
  exact sparseVec_error h hu1 _ x

theorem vsub_error (h : ar.Standard u) {n : ℕ} (x y : Fin n → ℝ) :
    ‖ar.vsub x y - (x - y)‖ ≤ u * (‖x‖ + ‖y‖) := by
  have hu := h.nonneg
  rw [pi_norm_le_iff_of_nonneg (by positivity)]
  intro i
  obtain ⟨δ, hδ, e⟩ := h.sub (x i) (y i)
  have h1 : |x i - y i| ≤ ‖x‖ + ‖y‖ := by
    have hx := norm_le_pi_norm x i
    have hy := norm_le_pi_norm y i
    rw [Real.norm_eq_abs] at hx hy
    exact (abs_sub _ _).trans (by linarith)
  rw [Pi.sub_apply, Pi.sub_apply, Real.norm_eq_abs]
  simp only [vsub]
  rw [e, show (x i - y i) * (1 + δ) - (x i - y i) = δ * (x i - y i) by ring, abs_mul]
  gcongr

theorem jacobiPrec_error (h : ar.Standard u) {n : ℕ} (d r : Fin n → ℝ) :
    ‖ar.jacobiPrec d r - (Matrix.diagonal d).mulVec r‖ ≤ ‖d‖ * u * ‖r‖ := by
  have hu := h.nonneg
  rw [pi_norm_le_iff_of_nonneg (by positivity)]
  intro i
  obtain ⟨δ, hδ, e⟩ := h.mul (d i) (r i)
  have hd := norm_le_pi_norm d i
  have hr := norm_le_pi_norm r i
  rw [Real.norm_eq_abs] at hd hr
  rw [Pi.sub_apply, Real.norm_eq_abs, Matrix.mulVec_diagonal]
  simp only [jacobiPrec]
  rw [e, show d i * r i * (1 + δ) - d i * r i = d i * δ * r i by ring, abs_mul, abs_mul]
  gcongr

theorem diagonal_le {n : ℕ} (d r : Fin n → ℝ) : ‖(Matrix.diagonal d).mulVec r‖ ≤ ‖d‖ * ‖r‖ := by
  rw [pi_norm_le_iff_of_nonneg (by positivity)]
  intro i
  rw [Matrix.mulVec_diagonal, norm_mul]
  exact mul_le_mul (norm_le_pi_norm d i) (norm_le_pi_norm r i) (norm_nonneg _) (norm_nonneg _)

theorem matrix_le {m n : ℕ} (C : Matrix (Fin m) (Fin n) ℝ) (x : Fin n → ℝ) :
    ‖C.mulVec x‖ ≤ (∑ i, ∑ j, |C i j|) * ‖x‖ := by
  have h0 : 0 ≤ ∑ i, ∑ j, |C i j| :=
    Finset.sum_nonneg fun i _ => Finset.sum_nonneg fun j _ => abs_nonneg _
  rw [pi_norm_le_iff_of_nonneg (mul_nonneg h0 (norm_nonneg x))]
  intro i
  rw [Real.norm_eq_abs, Matrix.mulVec, dotProduct]
  calc |∑ j, C i j * x j| ≤ ∑ j, |C i j| * ‖x‖ := by
        refine (Finset.abs_sum_le_sum_abs _ _).trans (Finset.sum_le_sum fun j _ => ?_)
        rw [abs_mul]
        have := norm_le_pi_norm x j
        rw [Real.norm_eq_abs] at this
        gcongr
    _ = (∑ j, |C i j|) * ‖x‖ := by rw [Finset.sum_mul]
    _ ≤ (∑ i, ∑ j, |C i j|) * ‖x‖ := by
        gcongr
        exact Finset.single_le_sum (f := fun i => ∑ j, |C i j|)
          (fun i _ => Finset.sum_nonneg fun j _ => abs_nonneg _) (Finset.mem_univ i)

/-- A smoothing step, for any preconditioner with a bound and an error. -/
theorem smooth_error (h : ar.Standard u) (K : ℝ) (hK : 1 ≤ K) (hKu : K * u ≤ 1) {n : ℕ}
    (A B : Matrix (Fin n) (Fin n) ℝ) (mat prec : (Fin n → ℝ) → Fin n → ℝ)
    (hA : ∀ x, ‖A.mulVec x‖ ≤ K * ‖x‖) (hB : ∀ x, ‖B.mulVec x‖ ≤ K * ‖x‖)
    (hmat : ∀ x, ‖mat x - A.mulVec x‖ ≤ K * u * ‖x‖)
    (hprec : ∀ x, ‖prec x - B.mulVec x‖ ≤ K * u * ‖x‖) (b x : Fin n → ℝ) :
    ‖ar.smooth mat prec b x - (x + B.mulVec (b - A.mulVec x))‖ ≤
      K * u * (23 * K ^ 2) * (‖b‖ + ‖x‖) := by
  have hu := h.nonneg
  have hK0 : (0 : ℝ) ≤ K := by linarith
  have hc : 0 ≤ K * u := by positivity
  have hT : 0 ≤ ‖b‖ + ‖x‖ := by positivity
  let N := normAddGroupSeminorm (Fin n → ℝ)
  have hsub : ∀ x y : Fin n → ℝ, N (ar.vsub x y - (x - y)) ≤ K * u * (N x + N y) := by
    intro x y
    refine (vsub_error h x y).trans ?_
    have : u ≤ K * u := by nlinarith
    exact mul_le_mul_of_nonneg_right this (by positivity)
  have tb : Tracks N (K * u) (‖b‖ + ‖x‖) 1 0 b b :=
    ⟨by show ‖b‖ ≤ _; have := norm_nonneg x; linarith, by simp⟩
  have tx : Tracks N (K * u) (‖b‖ + ‖x‖) 1 0 x x :=
    ⟨by show ‖x‖ ≤ _; have := norm_nonneg b; linarith, by simp⟩
  have t1 := tx.map (M := N) hc hKu le_rfl hT hK0 A.mulVec mat (Matrix.mulVec_sub A) hA hmat
  have t2 := t1.sub tb hc hKu (by linarith) le_rfl hT ar.vsub hsub
  have t3 := t2.map (M := N) hc hKu (by linarith) hT hK0 B.mulVec prec (Matrix.mulVec_sub B) hB hprec
  have t4 := tx.sub t3 hc hKu le_rfl (by positivity) hT ar.vsub hsub
  have e : x - B.mulVec (A.mulVec x - b) = x + B.mulVec (b - A.mulVec x) := by
    rw [← neg_sub b, Matrix.mulVec_neg, sub_neg_eq_add]
  have h5 := t4.2
  rw [e] at h5
  refine h5.trans ?_
  gcongr
  nlinarith

end Arith

theorem roundTo_error (p : ℕ) (x : ℝ) :
    ∃ δ : ℝ, |δ| ≤ 1 / 2 ^ (p + 1) ∧ roundTo p x = x * (1 + δ) := by
  by_cases hx : x = 0
  · exact ⟨0, by simp, by simp [roundTo, hx]⟩
  · set k : ℤ := (p : ℤ) - Int.log 2 |x| with hk
    have hpos : 0 < |x| := abs_pos.2 hx
    have h2k : (0 : ℝ) < 2 ^ k := zpow_pos (by norm_num) k
    have hlog : (2 : ℝ) ^ Int.log 2 |x| ≤ |x| := by
      have := Int.zpow_log_le_self (b := 2) (R := ℝ) (by norm_num) hpos
      exact_mod_cast this
    have h1 := abs_sub_round (x * 2 ^ k)
    have hr : roundTo p x = round (x * 2 ^ k) / 2 ^ k := rfl
    refine ⟨(roundTo p x - x) / x, ?_, by field_simp; ring⟩
    have e : roundTo p x - x = -((x * 2 ^ k - round (x * 2 ^ k)) / 2 ^ k) := by
      rw [hr]; field_simp; ring
    rw [e, abs_div, abs_neg, abs_div, abs_of_pos h2k, div_div]
    have h3 : (2 : ℝ) ^ p ≤ 2 ^ k * |x| := by
      calc (2 : ℝ) ^ p = 2 ^ k * 2 ^ Int.log 2 |x| := by
            rw [← zpow_add₀ (by norm_num), hk, sub_add_cancel, zpow_natCast]
        _ ≤ 2 ^ k * |x| := by gcongr
    have h4 : (0 : ℝ) < 2 ^ p := by positivity
    calc |x * 2 ^ k - round (x * 2 ^ k)| / (2 ^ k * |x|) ≤ (1 / 2) / 2 ^ p := by gcongr
      _ = 1 / 2 ^ (p + 1) := by rw [pow_succ]; field_simp

theorem roundTo_natCast (p m : ℕ) (hm : Nat.log 2 m ≤ p) : roundTo p m = m := by
  have hk : Int.log 2 |(m : ℝ)| = Nat.log 2 m := by
    rw [abs_of_nonneg (Nat.cast_nonneg m), Int.log_natCast]
  obtain ⟨d, hd⟩ := Nat.exists_eq_add_of_le hm
  have e : (p : ℤ) - Nat.log 2 m = d := by omega
  rw [roundTo, hk, e, zpow_natCast]
  have : (m : ℝ) * 2 ^ d = ((m * 2 ^ d : ℤ) : ℝ) := by push_cast; ring
  rw [this, round_intCast, ← this]
  field_simp

end Mfmg
