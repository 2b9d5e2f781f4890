import Verif.Spec.Relaxation
import Verif.Props.CoarseSpd
import Mathlib.Tactic.FieldSimp
import Mathlib.Tactic.Linarith
import Mathlib.Algebra.BigOperators.Group.Finset.Basic

/-!
# Relaxation sweeps
-/

set_option autoImplicit false

namespace Mfmg

section

variable {K : Type} [Field K] {n : ℕ}

/-- Relaxation of one row with all columns. -/
def relaxFull (A : Matrix (Fin n) (Fin n) K) (b x : Fin n → K) (i : Fin n) : Fin n → K :=
  Function.update x i (x i + (b i - A.mulVec x i) / A i i)

theorem sum_listsAll {own : List (Fin n)} (h : ListsAll own) (f : Fin n → K) :
    (own.map f).sum = ∑ j, f j := by
  rw [← List.sum_toFinset f h.1]
  apply Finset.sum_congr _ fun _ _ => rfl
  ext i
  simp [h.2 i]

theorem relaxRow_eq (A : Matrix (Fin n) (Fin n) K) {own : List (Fin n)} (h : ListsAll own)
    (b x : Fin n → K) (i : Fin n) : relaxRow A own b x i = relaxFull A b x i := by
  unfold relaxRow relaxFull
  rw [sum_listsAll h]
  rfl

/-- What the relaxation of row `i` does to the error. -/
def errRow (A : Matrix (Fin n) (Fin n) K) (e : Fin n → K) (i : Fin n) : Fin n → K :=
  e - Pi.single i (A.mulVec e i / A i i)

theorem err_relaxFull (A : Matrix (Fin n) (Fin n) K) (b x xs : Fin n → K) (hxs : A.mulVec xs = b)
    (i : Fin n) : xs - relaxFull A b x i = errRow A (xs - x) i := by
  funext k
  by_cases hk : k = i
  · subst hk
    simp only [relaxFull, errRow, Pi.sub_apply, Function.update_self, Pi.single_eq_same,
      Matrix.mulVec_sub, hxs]
    ring
  · simp [relaxFull, errRow, hk]

theorem err_sweep (A : Matrix (Fin n) (Fin n) K) (b xs : Fin n → K) (hxs : A.mulVec xs = b)
    (rows : List (Fin n)) (x : Fin n → K) :
    xs - rows.foldl (relaxFull A b) x = rows.foldl (errRow A) (xs - x) := by
  induction rows generalizing x with
  | nil => rfl
  | cons i rows ih => rw [List.foldl_cons, List.foldl_cons, ih, err_relaxFull A b x xs hxs]

theorem relaxRow_add (A : Matrix (Fin n) (Fin n) K) (own : List (Fin n)) (b b' x x' : Fin n → K)
    (i : Fin n) :
    relaxRow A own (b + b') (x + x') i = relaxRow A own b x i + relaxRow A own b' x' i := by
  funext k
  by_cases hk : k = i
  · subst hk
    have : (own.map fun j => A k j * (x j + x' j)).sum
        = (own.map fun j => A k j * x j).sum + (own.map fun j => A k j * x' j).sum := by
      rw [← List.sum_map_add]
      congr 1
      exact List.map_congr_left fun j _ => mul_add _ _ _
    simp only [relaxRow, Function.update_self, Pi.add_apply, this]
    ring
  · simp [relaxRow, hk]

theorem relaxRow_smul (A : Matrix (Fin n) (Fin n) K) (own : List (Fin n)) (c : K) (b x : Fin n → K)
    (i : Fin n) : relaxRow A own (c • b) (c • x) i = c • relaxRow A own b x i := by
  funext k
  by_cases hk : k = i
  · subst hk
    have : (own.map fun j => A k j * (c * x j)).sum = c * (own.map fun j => A k j * x j).sum := by
      rw [← List.sum_map_mul_left]
      congr 1
      exact List.map_congr_left fun j _ => by ring
    simp only [relaxRow, Function.update_self, Pi.smul_apply, smul_eq_mul, this]
    ring
  · simp [relaxRow, hk]

theorem sweep_add (A : Matrix (Fin n) (Fin n) K) (own : List (Fin n)) (b b' : Fin n → K)
    (rows : List (Fin n)) (x x' : Fin n → K) :
    rows.foldl (relaxRow A own (b + b')) (x + x')
      = rows.foldl (relaxRow A own b) x + rows.foldl (relaxRow A own b') x' := by
  induction rows generalizing x x' with
  | nil => rfl
  | cons i rows ih => simp only [List.foldl_cons]; rw [relaxRow_add, ih]

theorem sweep_smul (A : Matrix (Fin n) (Fin n) K) (own : List (Fin n)) (c : K) (b : Fin n → K)
    (rows : List (Fin n)) (x : Fin n → K) :
    rows.foldl (relaxRow A own (c • b)) (c • x) = c • rows.foldl (relaxRow A own b) x := by
  induction rows generalizing x with
  | nil => rfl
  | cons i rows ih => simp only [List.foldl_cons]; rw [relaxRow_smul, ih]

theorem localVmult_add (kind : Relaxation) (A : Matrix (Fin n) (Fin n) K) (own : List (Fin n))
    (r r' : Fin n → K) :
    localVmult kind A own (r + r') = localVmult kind A own r + localVmult kind A own r' := by
  cases kind
  · have := sweep_add A own r r' (own ++ own.reverse) 0 0
    rwa [add_zero] at this
  · have := sweep_add A own r r' own 0 0
    rwa [add_zero] at this
  · funext i
    simp only [localVmult, Pi.add_apply]
    split
    · exact add_div _ _ _
    · exact (add_zero 0).symm

theorem localVmult_smul (kind : Relaxation) (A : Matrix (Fin n) (Fin n) K) (own : List (Fin n))
    (c : K) (r : Fin n → K) :
    localVmult kind A own (c • r) = c • localVmult kind A own r := by
  cases kind
  · have := sweep_smul A own c r (own ++ own.reverse) 0
    rwa [smul_zero] at this
  · have := sweep_smul A own c r own 0
    rwa [smul_zero] at this
  · funext i
    simp only [localVmult, Pi.smul_apply, smul_eq_mul]
    split
    · exact mul_div_assoc _ _ _
    · exact (mul_zero c).symm

/-- The preconditioner as a linear map. -/
def relaxLin (kind : Relaxation) (A : Matrix (Fin n) (Fin n) K) (procs : List (List (Fin n))) :
    (Fin n → K) →ₗ[K] (Fin n → K) where
  toFun := relaxVmult kind A procs
  map_add' := by
    intro r r'
    funext i
    simp only [relaxVmult, localVmult_add, Pi.add_apply]
    rw [List.sum_map_add]
  map_smul' := by
    intro c r
    funext i
    simp only [relaxVmult, localVmult_smul, Pi.smul_apply, smul_eq_mul, RingHom.id_apply]
    rw [List.sum_map_mul_left]

theorem mulVec_single' (A : Matrix (Fin n) (Fin n) K) (i : Fin n) (t : K) (k : Fin n) :
    A.mulVec (Pi.single i t) k = A k i * t := by
  simp [Matrix.mulVec_single]

theorem form_symm {A : Matrix (Fin n) (Fin n) K} (hA : A.transpose = A) (u v : Fin n → K) :
    u ⬝ᵥ A.mulVec v = v ⬝ᵥ A.mulVec u := by
  rw [Matrix.dotProduct_mulVec, ← Matrix.mulVec_transpose, hA, dotProduct_comm]

/-- Relaxation of one row is self-adjoint in energy. -/
theorem errRow_symm {A : Matrix (Fin n) (Fin n) K} (hA : A.transpose = A) (u v : Fin n → K)
    (i : Fin n) : errRow A u i ⬝ᵥ A.mulVec v = u ⬝ᵥ A.mulVec (errRow A v i) := by
  have h2 : u ⬝ᵥ A.mulVec (Pi.single i (A.mulVec v i / A i i))
      = A.mulVec u i * (A.mulVec v i / A i i) := by
    rw [form_symm hA, single_dotProduct, mul_comm]
  unfold errRow
  rw [sub_dotProduct, Matrix.mulVec_sub, dotProduct_sub, h2, single_dotProduct]
  ring

theorem errSweep_symm {A : Matrix (Fin n) (Fin n) K} (hA : A.transpose = A) (rows : List (Fin n))
    (u v : Fin n → K) :
    rows.foldl (errRow A) u ⬝ᵥ A.mulVec v = u ⬝ᵥ A.mulVec (rows.reverse.foldl (errRow A) v) := by
  induction rows generalizing u v with
  | nil => rfl
  | cons i rows ih =>
    rw [List.foldl_cons, ih, errRow_symm hA, List.reverse_cons, List.foldl_append]
    rfl

end

section

variable {K : Type} [Field K] [LinearOrder K] [IsStrictOrderedRing K] {n : ℕ}

omit [IsStrictOrderedRing K] in
theorem diag_pos {A : Matrix (Fin n) (Fin n) K} (hA : IsSpd A) (i : Fin n) : 0 < A i i := by
  have := hA.2 (Pi.single i 1) (by
    intro h
    have := congrFun h i
    simp at this)
  rw [single_dotProduct, mulVec_single'] at this
  simpa using this

theorem energy_errRow {A : Matrix (Fin n) (Fin n) K} (hA : IsSpd A) (e : Fin n → K) (i : Fin n) :
    energyOf A (errRow A e i) = energyOf A e - A.mulVec e i * A.mulVec e i / A i i := by
  have hp := (diag_pos hA i).ne'
  have h1 := errRow_symm hA.1 e (errRow A e i) i
  have h3 : A.mulVec (errRow A e i) i = 0 := by
    unfold errRow
    rw [Matrix.mulVec_sub, Pi.sub_apply, mulVec_single']
    rw [mul_div_cancel₀ _ hp, sub_self]
  have h4 : errRow A (errRow A e i) i = errRow A e i := by
    rw [errRow, h3, zero_div, Pi.single_zero, sub_zero]
  unfold energyOf
  rw [h1, h4]
  unfold errRow
  rw [Matrix.mulVec_sub, dotProduct_sub, form_symm hA.1 e (Pi.single i _), single_dotProduct]
  ring

theorem energy_sweep {A : Matrix (Fin n) (Fin n) K} (hA : IsSpd A) (rows : List (Fin n))
    (e : Fin n → K) : energyOf A (rows.foldl (errRow A) e) ≤ energyOf A e ∧
      (energyOf A (rows.foldl (errRow A) e) = energyOf A e → ∀ i ∈ rows, A.mulVec e i = 0) := by
  induction rows generalizing e with
  | nil => exact ⟨le_refl _, by simp⟩
  | cons i rows ih =>
    obtain ⟨h1, h2⟩ := ih (errRow A e i)
    have hp := diag_pos hA i
    have h0 : 0 ≤ A.mulVec e i * A.mulVec e i / A i i := div_nonneg (mul_self_nonneg _) hp.le
    have h3 := energy_errRow hA e i
    rw [List.foldl_cons]
    refine ⟨by linarith, ?_⟩
    intro heq
    have h4 : A.mulVec e i * A.mulVec e i / A i i = 0 := by linarith
    have h5 : A.mulVec e i = 0 := by
      rcases div_eq_zero_iff.1 h4 with h | h
      · exact mul_self_eq_zero.1 h
      · exact absurd h hp.ne'
    have h6 : errRow A e i = e := by rw [errRow, h5, zero_div, Pi.single_zero, sub_zero]
    rw [h6] at h2 heq
    intro j hj
    rcases List.mem_cons.1 hj with rfl | hj
    · exact h5
    · exact h2 heq j hj

omit [IsStrictOrderedRing K] in
theorem spd_mulVec_ne {A : Matrix (Fin n) (Fin n) K} (hA : IsSpd A) {e : Fin n → K} (he : e ≠ 0) :
    A.mulVec e ≠ 0 := by
  intro h
  have := hA.2 e he
  rw [h, dotProduct_zero] at this
  exact lt_irrefl _ this

theorem energy_sweep_lt {A : Matrix (Fin n) (Fin n) K} (hA : IsSpd A) (rows : List (Fin n))
    (hall : ∀ i, i ∈ rows) (e : Fin n → K) (he : e ≠ 0) :
    energyOf A (rows.foldl (errRow A) e) < energyOf A e := by
  obtain ⟨h1, h2⟩ := energy_sweep hA rows e
  refine lt_of_le_of_ne h1 fun h => spd_mulVec_ne hA he ?_
  funext i
  exact h2 h i (hall i)

omit [IsStrictOrderedRing K] in
theorem spd_det {A : Matrix (Fin n) (Fin n) K} (hA : IsSpd A) : A.det ≠ 0 := by
  intro h
  obtain ⟨v, hv, h0⟩ := Matrix.exists_mulVec_eq_zero_iff.2 h
  exact spd_mulVec_ne hA hv h0

end

end Mfmg
