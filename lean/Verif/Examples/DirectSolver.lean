import Verif.Props.DirectSolver
import Verif.Props.Amgx
import Mathlib.LinearAlgebra.Matrix.ToLinearEquiv
import Mathlib.LinearAlgebra.Matrix.NonsingularInverse
import Mathlib.Algebra.Order.Field.Rat
import Mathlib.Tactic.NormNum
import Mathlib.Tactic.Linarith
import Mathlib.Tactic.Positivity

/-!
# Examples for C69: a library that meets the assumptions, and systems
-/

set_option autoImplicit false

namespace Mfmg

open Classical in
/-- An exact solver. -/
noncomputable def exCuSolver : CuSolver ℚ where
  chol n _ c b := if h : ∃ rows x, c.HasRows rows ∧ Nonsingular rows ∧ Solves rows x b then
    (h.choose_spec.choose, -1) else (List.replicate n 0, 0)
  lu n _ c b := if h : ∃ rows x, c.HasRows rows ∧ Nonsingular rows ∧ Solves rows x b then
    (h.choose_spec.choose, -1) else (List.replicate n 0, 0)
  getrf n d := (d, [], if ∃ a : Matrix (Fin n) (Fin n) ℚ, d = columnMajor a ∧ DenseNonsingular a
    then 0 else 1)
  getrs n d _ b := if h : ∃ (a : Matrix (Fin n) (Fin n) ℚ) (x : List ℚ), d = columnMajor a ∧
      x.length = n ∧ ∀ i : Fin n, a.mulVec (fun j => x.getD j 0) i = b.getD i 0 then
    (h.choose_spec.choose, 0) else (List.replicate n 0, 1)
  workspace _ := 1

theorem columnMajor_injective {n : ℕ} (a b : Matrix (Fin n) (Fin n) ℚ)
    (h : columnMajor a = columnMajor b) : a = b := by
  funext i j
  have ht : (j : ℕ) * n + i < n * n := by
    have : ((j : ℕ) + 1) * n ≤ n * n := Nat.mul_le_mul_right _ j.2
    rw [Nat.add_mul] at this
    have := i.2
    omega
  have hn : 0 < n := Nat.lt_of_le_of_lt (Nat.zero_le _) i.2
  have e1 : ((j : ℕ) * n + i) % n = i := by
    rw [Nat.mul_add_mod_self_right, Nat.mod_eq_of_lt i.2]
  have e2 : ((j : ℕ) * n + i) / n = j := by
    rw [Nat.mul_comm, Nat.mul_add_div hn, Nat.div_eq_of_lt i.2, Nat.add_zero]
  have e := columnMajor_getElem a _ ht
  have e' := columnMajor_getElem b _ ht
  rw [h, e'] at e
  simp only [e1, e2, Fin.eta, Option.some.injEq] at e
  exact e.symm

theorem dense_solvable {n : ℕ} (a : Matrix (Fin n) (Fin n) ℚ) (h : DenseNonsingular a) (b : List ℚ) :
    ∃ x : List ℚ, x.length = n ∧ ∀ i : Fin n, a.mulVec (fun j => x.getD j 0) i = b.getD i 0 := by
  have hdet : a.det ≠ 0 := by
    intro h0
    obtain ⟨v, hv, hv'⟩ := Matrix.exists_mulVec_eq_zero_iff.2 h0
    exact hv (h v hv')
  have hu : IsUnit a.det := isUnit_iff_ne_zero.2 hdet
  refine ⟨List.ofFn (a⁻¹.mulVec fun i => b.getD i 0), by simp, fun i => ?_⟩
  have e : (fun j : Fin n => (List.ofFn (a⁻¹.mulVec fun i => b.getD i 0)).getD (j : ℕ) 0) =
      a⁻¹.mulVec fun i => b.getD i 0 := funext fun j => getD_ofFn_fin _ j
  rw [e, Matrix.mulVec_mulVec, Matrix.mul_nonsing_inv a hu, Matrix.one_mulVec]

theorem solvable (rows : List (List (ℕ × ℚ))) (hr : SquareRows rows) (h : Nonsingular rows)
    (b : List ℚ) : ∃ x, Solves rows x b := by
  obtain ⟨x, hx⟩ := dense_solvable _ ((nonsingular_iff rows hr).1 h) b
  exact ⟨x, (solves_iff rows hr x b).2 hx⟩

theorem positiveDefinite_nonsingular (rows : List (List (ℕ × ℚ))) (h : PositiveDefinite rows) :
    Nonsingular rows := by
  intro x hx
  by_contra hne
  have hpos := h.2 x hx.1 hne
  rw [List.sum_eq_zero] at hpos
  · exact lt_irrefl _ hpos
  · intro y hy
    obtain ⟨i, hi, rfl⟩ := List.mem_map.1 hy
    rw [List.mem_range] at hi
    rw [List.getD_eq_getElem?_getD (l := rows), List.getElem?_eq_getElem hi, Option.getD_some, hx.2 i hi]
    simp [hi]

theorem exCuSolver_sparse (rows : List (List (ℕ × ℚ))) (c : Csr ℚ) (b : List ℚ) (hr : SquareRows rows)
    (hc : c.HasRows rows) (h : Nonsingular rows) :
    ∃ x, exCuSolver.lu rows.length (rows.map List.length).sum c b = (x, -1) ∧ Solves rows x b := by
  have hex : ∃ rows x, c.HasRows rows ∧ Nonsingular rows ∧ Solves rows x b := by
    obtain ⟨x, hx⟩ := solvable rows hr h b
    exact ⟨rows, x, hc, h, hx⟩
  refine ⟨hex.choose_spec.choose, ?_, ?_⟩
  · simp only [exCuSolver, dif_pos hex]
  · obtain ⟨h1, -, h3⟩ := hex.choose_spec.choose_spec
    rw [hasRows_unique c rows _ hc h1]
    exact h3

theorem exCuSolver_correct : exCuSolver.Correct where
  chol rows c b hr hc hpd _ :=
    exCuSolver_sparse rows c b hr hc (positiveDefinite_nonsingular rows hpd)
  lu rows c b hr hc h _ := exCuSolver_sparse rows c b hr hc h
  lu_singular rows c b _ hc h _ := by
    have hex : ¬ ∃ rows x, c.HasRows rows ∧ Nonsingular rows ∧ Solves rows x b := by
      rintro ⟨rows', x, h1, h2, -⟩
      rw [hasRows_unique c rows rows' hc h1] at h
      exact h h2
    simp only [exCuSolver, dif_neg hex]
    norm_num
  lu_length rows c b hc := by
    by_cases hex : ∃ rows x, c.HasRows rows ∧ Nonsingular rows ∧ Solves rows x b
    · simp only [exCuSolver, dif_pos hex]
      obtain ⟨h1, -, h3⟩ := hex.choose_spec.choose_spec
      rw [h3.1, ← hasRows_unique c rows _ hc h1]
    · simp only [exCuSolver, dif_neg hex, List.length_replicate]
  getrf n a h := by
    refine ⟨columnMajor a, [], ?_, fun b _ => ?_⟩
    · simp only [exCuSolver, if_pos (show ∃ a' : Matrix (Fin n) (Fin n) ℚ,
        columnMajor a = columnMajor a' ∧ DenseNonsingular a' from ⟨a, rfl, h⟩)]
    · have hex : ∃ (a' : Matrix (Fin n) (Fin n) ℚ) (x : List ℚ), columnMajor a = columnMajor a' ∧
          x.length = n ∧ ∀ i : Fin n, a'.mulVec (fun j => x.getD j 0) i = b.getD i 0 := by
        obtain ⟨x, hx⟩ := dense_solvable a h b
        exact ⟨a, x, rfl, hx⟩
      refine ⟨hex.choose_spec.choose, ?_, ?_⟩
      · simp only [exCuSolver, dif_pos hex]
      · obtain ⟨h1, h2, h3⟩ := hex.choose_spec.choose_spec
        have e := columnMajor_injective _ _ h1
        refine ⟨h2, fun i => ?_⟩
        exact (congrFun (congrArg (fun m : Matrix (Fin n) (Fin n) ℚ => m.mulVec fun j =>
          hex.choose_spec.choose.getD (j : ℕ) 0) e) i).trans (h3 i)
  getrf_singular n a h := by
    have hex : ¬ ∃ a' : Matrix (Fin n) (Fin n) ℚ, columnMajor a = columnMajor a' ∧
        DenseNonsingular a' := by
      rintro ⟨a', h1, h2⟩
      rw [columnMajor_injective _ _ h1] at h
      exact h h2
    simp only [exCuSolver, if_neg hex]
    norm_num
  getrs_length n f p b := by
    by_cases hex : ∃ (a' : Matrix (Fin n) (Fin n) ℚ) (x : List ℚ), f = columnMajor a' ∧
        x.length = n ∧ ∀ i : Fin n, a'.mulVec (fun j => x.getD j 0) i = b.getD i 0
    · simp only [exCuSolver, dif_pos hex]
      exact hex.choose_spec.choose_spec.2.1
    · simp only [exCuSolver, dif_neg hex, List.length_replicate]
  workspace _ := by simp [exCuSolver]

/-- A symmetric, positive definite matrix. -/
def exSpd : List (List (ℕ × ℚ)) := [[(0, 2), (1, -1)], [(0, -1), (1, 2)]]

/-- A singular matrix. -/
def exSingular : List (List (ℕ × ℚ)) := [[(0, 1), (1, 2)], [(1, 4), (0, 2)]]

theorem exSpd_square : SquareRows exSpd := by
  intro r hr
  simp only [exSpd, List.mem_cons, List.not_mem_nil, or_false] at hr
  rcases hr with rfl | rfl <;> simp [exSpd]

theorem exSpd_pd : PositiveDefinite exSpd := by
  refine ⟨?_, ?_⟩
  · intro i j hi hj
    have hi' : i < 2 := hi
    have hj' : j < 2 := hj
    interval_cases i <;> interval_cases j <;> simp [exSpd, List.lookup]
  intro x hx hne
  match x, hx with
  | [u, v], _ =>
    simp [exSpd, rowTimes, List.range_succ]
    have hne' : ¬ (u = 0 ∧ v = 0) := by
      rintro ⟨rfl, rfl⟩
      exact hne rfl
    rcases not_and_or.1 hne' with h | h
    · nlinarith [sq_nonneg (u - v), sq_nonneg v, sq_pos_of_ne_zero h]
    · nlinarith [sq_nonneg (u - v), sq_nonneg u, sq_pos_of_ne_zero h]

theorem exSingular_square : SquareRows exSingular := by
  intro r hr
  simp only [exSingular, List.mem_cons, List.not_mem_nil, or_false] at hr
  rcases hr with rfl | rfl <;> simp [exSingular]

theorem exSingular_singular : ¬ Nonsingular exSingular := by
  intro h
  have := h [2, -1] ⟨rfl, by
    intro i hi
    have hi' : i < 2 := hi
    interval_cases i <;> simp [exSingular, rowTimes]
    norm_num⟩
  simp [exSingular] at this

/-- The matrix on one process. -/
def exSerial (rows : List (List (ℕ × ℚ))) : SolverMatrix ℚ :=
  ⟨csrOf rows, rows.length, rows.length, (rows.map List.length).sum⟩

theorem exSerial_serial (rows : List (List (ℕ × ℚ))) : (exSerial rows).Serial rows :=
  ⟨csrOf_hasRows rows, rfl, rfl, rfl⟩

example (debug host : Bool) (b0 b1 : ℚ) : ∃ x' h',
    directSolverApply debug host exCuSolver (chars! "cholesky") (some (exSerial exSpd)) [b0, b1] [0, 0]
      ⟨0, [], []⟩ = .ok (x', h') ∧ Solves exSpd x' [b0, b1] ∧ h'.live = [] :=
  C69_solves_partial debug host exCuSolver exCuSolver_correct _ exSpd exSpd_square _
    (exSerial_serial exSpd) (Or.inl ⟨rfl, exSpd_pd⟩) _ _ rfl rfl _

example (debug host : Bool) (b0 b1 : ℚ) : ∃ x' h',
    directSolverApply debug host exCuSolver (chars! "lu_dense") (some (exSerial exSpd)) [b0, b1] [0, 0]
      ⟨0, [], []⟩ = .ok (x', h') ∧ Solves exSpd x' [b0, b1] ∧ h'.live = [] :=
  C69_solves_partial debug host exCuSolver exCuSolver_correct _ exSpd exSpd_square _
    (exSerial_serial exSpd) (Or.inr ⟨Or.inl rfl, positiveDefinite_nonsingular _ exSpd_pd⟩) _ _ rfl rfl _

example : directSolverApply true false exCuSolver (chars! "lu_sparse_host") (some (exSerial exSingular))
      [1, 0] [0, 0] ⟨0, [], []⟩ = .aborted ∧
    ∃ x' h', directSolverApply false false exCuSolver (chars! "lu_sparse_host")
      (some (exSerial exSingular)) [1, 0] [0, 0] ⟨0, [], []⟩ = .ok (x', h') ∧ x'.length = 2 :=
  C69_singular_violated exCuSolver exCuSolver_correct _ exSingular exSingular_square _
    (exSerial_serial exSingular) (Or.inr rfl) exSingular_singular _ _ rfl rfl _

/-- The first row of a matrix with two rows. -/
def exShared : SolverMatrix ℚ := ⟨csrOf [[(0, 2), (1, -1)]], 2, 2, 4⟩

example : ∃ why, directSolverApply false true exCuSolver (chars! "lu_dense") (some exShared) [1] [0]
    ⟨0, [], []⟩ = .ub why :=
  C69_shared_violated false true exCuSolver _ [[(0, 2), (1, -1)]] exShared
    ⟨csrOf_hasRows _, by simp [exShared], by simp [exShared]⟩ rfl (Or.inr (Or.inl rfl)) _ _ _

example : ∃ msg, directSolverApply true true exCuSolver (chars! "qr") (some exShared) [1] [0]
    ⟨0, [], []⟩ = .throws msg :=
  C69_unknown true exCuSolver _ exShared (by decide) _ _ _ _

end Mfmg
