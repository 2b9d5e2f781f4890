import Verif.Spec.HostOperator
import Verif.Props.DeviceOperator
import Verif.Props.MatMult
import Mathlib.Data.Matrix.Mul
import Mathlib.Algebra.Order.Field.Rat
import Mathlib.Tactic.FinCases

/-!
# C66: operators made from operators (host)
-/

set_option autoImplicit false

namespace Mfmg

section

variable {K : Type} [Field K]

/-- A sum over indices in two notations. -/
theorem sum_range_fin (n : ℕ) (f : ℕ → K) :
    ((List.range n).map f).sum = ∑ k : Fin n, f k := by
  rw [← List.sum_ofFn]
  congr 1
  apply List.ext_getElem <;> simp

theorem GMat.mulVec_length {A : GMat K} {x y : List K} (h : A.mulVec x = some y) :
    y.length = A.rows := by
  unfold GMat.mulVec at h
  split at h
  · injection h with h
    subst h
    simp
  · cases h

theorem GMat.mulVec_some (A : GMat K) (x : List K) (h : A.cols = x.length) :
    ∃ y, A.mulVec x = some y ∧ y.length = A.rows := by
  refine ⟨_, by unfold GMat.mulVec; rw [dif_pos h], by simp⟩

theorem GMat.mul_some (A B : GMat K) (h : A.cols = B.rows) :
    ∃ C, A.mul B = some C ∧ C.rows = A.rows ∧ C.cols = B.cols := by
  refine ⟨⟨A.rows, B.cols, A.entry * B.entry.submatrix (Fin.cast h) id⟩, ?_, rfl, rfl⟩
  unfold GMat.mul
  rw [dif_pos h]

/-- The product matrix applies as the composition. -/
theorem GMat.mul_mulVec {A B C : GMat K} (h : A.mul B = some C) (x : List K) :
    C.mulVec x = (B.mulVec x).bind A.mulVec := by
  unfold GMat.mul at h
  split at h
  case isFalse => cases h
  case isTrue hd =>
  injection h with h
  subst h
  rcases A with ⟨m, k, a⟩
  rcases B with ⟨k', n, b⟩
  simp only at hd
  subst hd
  unfold GMat.mulVec
  by_cases hx : n = x.length
  · simp only [hx, dif_pos, Option.bind_some, List.length_ofFn]
    congr 2
    subst hx
    simp only [Fin.cast_refl, Matrix.submatrix_id_id, ← Matrix.mulVec_mulVec]
    congr 1
    funext i
    simp
  · simp only [hx, dif_neg, not_false_eq_true, Option.bind_none]

/-- Transposing a product. -/
theorem GMat.mul_transpose {A B C : GMat K} (h : A.mul B = some C) :
    B.transpose.mul A.transpose = some C.transpose := by
  unfold GMat.mul at h
  split at h
  case isFalse => cases h
  case isTrue hd =>
  injection h with h
  subst h
  rcases A with ⟨m, k, a⟩
  rcases B with ⟨k', n, b⟩
  simp only at hd
  subst hd
  unfold GMat.mul GMat.transpose
  simp

variable [LinearOrder K]

/-- The matrix of an expression. -/
theorem OpExpr.build_ok (debug : Bool) (eps : K) (mm : GMat K → GMat K → Outcome (HostOp K))
    {e : OpExpr K} {m n : ℕ} (h : e.Fits m n) :
    ∃ C : GMat K, C.rows = m ∧ C.cols = n ∧ e.build debug eps mm = .ok (.assembled C true) ∧
      ∀ x, e.meaning x = C.mulVec x ∧ e.adjoint x = C.transpose.mulVec x := by
  induction h with
  | leaf A => exact ⟨A, rfl, rfl, rfl, fun x => by simp [OpExpr.meaning, OpExpr.adjoint]⟩
  | transpose _ ih =>
    obtain ⟨C, h1, h2, h3, h4⟩ := ih
    refine ⟨C.transpose, h2, h1, by simp [OpExpr.build, h3, hostTranspose], fun x => ?_⟩
    simp [OpExpr.meaning, OpExpr.adjoint, h4]
  | multiply _ _ ih ih' =>
    obtain ⟨A, a1, a2, a3, a4⟩ := ih
    obtain ⟨B, b1, b2, b3, b4⟩ := ih'
    obtain ⟨C, h1, h2, h3⟩ := A.mul_some B (by omega)
    refine ⟨C, by omega, by omega, by simp [OpExpr.build, a3, b3, hostMultiply, h1], fun x => ?_⟩
    simp only [OpExpr.meaning, OpExpr.adjoint, a4, b4, GMat.mul_mulVec h1,
      GMat.mul_mulVec (GMat.mul_transpose h1)]
    exact ⟨trivial, trivial⟩
  | multiplyTranspose _ _ ih ih' =>
    obtain ⟨A, a1, a2, a3, a4⟩ := ih
    obtain ⟨B, b1, b2, b3, b4⟩ := ih'
    obtain ⟨C, h1, h2, h3⟩ := A.mul_some B.transpose (by simp only [GMat.transpose]; omega)
    refine ⟨C, by omega, by simp only [GMat.transpose] at h3; omega,
      by simp [OpExpr.build, a3, b3, hostMultiplyTranspose, h1], fun x => ?_⟩
    simp only [OpExpr.meaning, OpExpr.adjoint, a4, b4, GMat.mul_mulVec h1,
      GMat.mul_mulVec (GMat.mul_transpose h1), GMat.transpose_transpose]
    exact ⟨trivial, trivial⟩

/-- **C66.**  However operators are made from assembled operators with `transpose`, `multiply` and
`multiply_transpose`, if the dimensions fit then the result exists and applying it, in both modes,
gives the composition of the products with the original matrices.  Missing: matrix-free operators; as
right operands the claim is false for them (`C66_operand_violated`). -/
theorem C66_compose_partial (debug : Bool) (eps : K) (mm : GMat K → GMat K → Outcome (HostOp K))
    {e : OpExpr K} {m n : ℕ} (h : e.Fits m n) :
    ∃ o, e.build debug eps mm = .ok o ∧
      (∀ x : List K, x.length = n →
        ∃ y, e.meaning x = some y ∧ hostApply o false x m = .ok y) ∧
      (∀ x : List K, x.length = m →
        ∃ y, e.adjoint x = some y ∧ hostApply o true x n = .ok y) := by
  obtain ⟨C, h1, h2, h3, h4⟩ := OpExpr.build_ok debug eps mm h
  refine ⟨_, h3, fun x hx => ?_, fun x hx => ?_⟩
  · obtain ⟨y, hy, hl⟩ := C.mulVec_some x (by omega)
    exact ⟨y, by rw [(h4 x).1, hy], by simp [hostApply, hy]; omega⟩
  · obtain ⟨y, hy, hl⟩ := C.transpose.mulVec_some x (by simp only [GMat.transpose]; omega)
    refine ⟨y, by rw [(h4 x).2, hy], ?_⟩
    simp only [GMat.transpose] at hl
    simp [hostApply, hy]
    omega

/-- A 2×3 and a 3×3 matrix. -/
def exRm : Matrix (Fin 2) (Fin 3) ℚ := ![![1, 2, 0], ![0, 1, 1]]

@[inherit_doc exRm]
def exAm : Matrix (Fin 3) (Fin 3) ℚ := ![![2, 1, 0], ![0, 2, 1], ![0, 0, 2]]

@[inherit_doc exRm]
def exR : GMat ℚ := ⟨2, 3, exRm⟩

@[inherit_doc exRm]
def exA : GMat ℚ := ⟨3, 3, exAm⟩

/-- `R (A Rᵀ)`, the coarse operator. -/
def exGalerkin : OpExpr ℚ :=
  .multiply (.leaf (.assembled exR true))
    (.multiplyTranspose (.leaf (.assembled exA true)) (.leaf (.assembled exR true)))

theorem exGalerkin_fits : exGalerkin.Fits 2 2 :=
  .multiply (.leaf exR) (.multiplyTranspose (.leaf exA) (.leaf exR))

theorem exGalerkin_meaning : exGalerkin.meaning [1, -1] = some [5, -1] := by
  simp [exGalerkin, OpExpr.meaning, OpExpr.adjoint, GMat.mulVec, GMat.transpose, exR, exA, exRm, exAm,
    Matrix.mulVec, dotProduct, Fin.sum_univ_succ, List.ofFn_succ, Matrix.transpose]
  decide +kernel

example : ∃ o, exGalerkin.build true (0 : ℚ) (fun _ _ => .ub "") = .ok o ∧
    hostApply o false [1, -1] 2 = .ok [5, -1] := by
  obtain ⟨o, h1, h2, -⟩ := C66_compose_partial true (0 : ℚ) (fun _ _ => .ub "") exGalerkin_fits
  obtain ⟨y, hy, ha⟩ := h2 [1, -1] rfl
  rw [exGalerkin_meaning] at hy
  injection hy with hy
  exact ⟨o, h1, hy ▸ ha⟩

omit [LinearOrder K] in
/-- The entries of a matrix as rows stored on one process. -/
theorem GMat.dist_value {m n : ℕ} (b : Matrix (Fin m) (Fin n) K) (j : Fin m) (k : Fin n) :
    (GMat.dist ⟨m, n, b⟩).value j k = b j k := by
  have h : ((List.finRange n).map fun q => (q.val, b j q)).find? (fun e => e.1 == k.val) =
      some (k.val, b j k) := by
    rw [List.find?_map, Option.map_eq_some_iff]
    refine ⟨k, ?_, rfl⟩
    rw [List.find?_eq_some_iff_getElem]
    refine ⟨by simp, k, by simp, by simp, ?_⟩
    intro i hi
    simp only [List.getElem_finRange, Function.comp_apply, Fin.val_cast,
      Bool.not_eq_true', beq_eq_false_iff_ne]
    omega
  simp [GMat.dist, DistMatrix.value, h]

/-- **C66**, matrix-free left operands.  If `matrix_free_evaluate_global` multiplies by the matrix `a`,
then `multiply_transpose` with an assembled operator gives a complete assembled operator whose entries
are those of the product with the transpose up to the truncation at `eps` (see C38). -/
theorem C66_matrix_free [IsStrictOrderedRing K] (debug : Bool) (eps : K) (heps : 0 ≤ eps) {m n : ℕ}
    (a : Matrix (Fin n) (Fin n) K) (b : Matrix (Fin m) (Fin n) K) (evaluate : List K → List K)
    (hev : ∀ x : List K, x.length = n → GMat.mulVec ⟨n, n, a⟩ x = some (evaluate x)) :
    ∃ c : Matrix (Fin n) (Fin m) K,
      hostMultiplyTranspose debug eps (.matrixFree n evaluate) (.assembled ⟨m, n, b⟩ true) =
        .ok (.assembled ⟨n, m, c⟩ true) ∧
      ∀ i j, |c i j - (a * b.transpose) i j| ≤ eps := by
  refine ⟨fun i j => insertedValue (transposeMultiply 1 eps (GMat.dist ⟨m, n, b⟩) n (fun _ => 0)
    (fun v => ofVec (evaluate (toVec n v))) 0) i j, by simp [hostMultiplyTranspose], fun i j => ?_⟩
  have hA : IsMatrix n (fun i k => if h : i < n ∧ k < n then a ⟨i, h.1⟩ ⟨k, h.2⟩ else 0)
      (fun v => ofVec (evaluate (toVec n v))) := by
    intro v i
    have hl : (toVec n v).length = n := by simp [toVec]
    have h := hev _ hl
    unfold GMat.mulVec at h
    rw [dif_pos hl.symm] at h
    injection h with h
    show ofVec (evaluate (toVec n v)) i = _
    rw [← h, ofVec]
    by_cases hi : i < n
    · simp only [List.getD, List.getElem?_ofFn, hi, dif_pos, Option.getD_some, true_and, toVec,
        Matrix.mulVec, dotProduct, List.getElem_map, List.getElem_range, Fin.getElem_fin]
      rw [sum_range_fin]
      refine Finset.sum_congr rfl fun k _ => ?_
      simp only [Fin.isLt, dif_pos, Fin.eta]
      rfl
    · simp only [List.getD, List.getElem?_ofFn, hi, dif_neg, Option.getD_none, false_and,
        not_false_eq_true, zero_mul]
      simp
  have hB : (GMat.dist ⟨m, n, b⟩).WellFormed 1 := by
    intro j hj
    refine ⟨by simp [GMat.dist], ?_⟩
    have hj' : j < m := hj
    simp only [GMat.dist, hj', dif_pos, List.map_map]
    exact (List.nodup_finRange n).map Fin.val_injective
  have := C38_error 1 n eps heps _ hB n (fun _ => 0) _ _ hA i j i.isLt j.isLt
  have e : productTransposed n (fun i k => if h : i < n ∧ k < n then a ⟨i, h.1⟩ ⟨k, h.2⟩ else 0)
      (GMat.dist ⟨m, n, b⟩) i j = (a * b.transpose) i j := by
    unfold productTransposed
    rw [Matrix.mul_apply, sum_range_fin]
    refine Finset.sum_congr rfl fun k _ => ?_
    simp [GMat.dist_value]
  rw [e] at this
  exact this

example : ∃ c : Matrix (Fin 3) (Fin 2) ℚ,
    hostMultiplyTranspose true (1 / 10 ^ 14) (.matrixFree 3 fun x => (exA.mulVec x).getD [])
      (.assembled exR true) = .ok (.assembled ⟨3, 2, c⟩ true) ∧
    ∀ i j, |c i j - (exAm * Matrix.transpose exRm) i j| ≤ 1 / 10 ^ 14 :=
  C66_matrix_free true (1 / 10 ^ 14) (by norm_num) exAm exRm _ fun x hx => by
    obtain ⟨y, hy, -⟩ := exA.mulVec_some x hx.symm
    rw [show (⟨3, 3, exAm⟩ : GMat ℚ) = exA from rfl, hy]
    rfl

omit [LinearOrder K] in
/-- **C66**, matrix-free operators otherwise.  Everything else a matrix-free operator cannot do is
reported by an exception. -/
theorem C66_matrix_free_throws (n : ℕ) (evaluate : List K → List K) (x : List K) (ny : ℕ)
    (mm : GMat K → GMat K → Outcome (HostOp K)) (b : HostOp K) :
    hostApply (.matrixFree n evaluate) true x ny = .throws "not implemented" ∧
      hostTranspose (.matrixFree n evaluate) = .throws "not implemented" ∧
      hostMultiply mm (.matrixFree n evaluate) b = .throws "not implemented" :=
  ⟨rfl, rfl, rfl⟩

example : hostTranspose (.matrixFree 3 fun x => (exA.mulVec x).getD []) =
    .throws "not implemented" :=
  (C66_matrix_free_throws 3 _ [] 0 (fun _ _ => .ub "") (.assembled exR true)).2.1

/-- **C66**, matrix-free right operands.  Multiplying an assembled operator by a matrix-free one, or
any operator by the transpose of a matrix-free one, dereferences a null pointer; no error is
reported. -/
theorem C66_operand_violated (debug : Bool) (eps : K) (A : GMat K) (filled : Bool) (a : HostOp K)
    (n : ℕ) (evaluate : List K → List K) (mm : GMat K → GMat K → Outcome (HostOp K)) :
    hostMultiply mm (.assembled A filled) (.matrixFree n evaluate) =
        .ub "downcast_b->get_matrix()" ∧
      hostMultiplyTranspose debug eps a (.matrixFree n evaluate) =
        .ub "downcast_b->get_matrix()" := by
  refine ⟨rfl, ?_⟩
  cases a <;> rfl

example : hostMultiply (fun _ _ => .ub "") (.assembled exR true)
    (.matrixFree 3 fun x => (exA.mulVec x).getD []) = .ub "downcast_b->get_matrix()" :=
  (C66_operand_violated true (0 : ℚ) exR true (.assembled exA true) 3 _ _).1

end

end Mfmg
