import Verif.Spec.Numbering
import Verif.Lemmas.Units
import Verif.Lemmas.RelaxationProcs

/-!
# Renumbering of the unknowns
-/

set_option autoImplicit false

namespace Mfmg

section

variable {K : Type} [Field K] {n : ℕ} (σ : Equiv.Perm (Fin n))

omit [Field K] in
@[simp] theorem renameVec_apply (x : Fin n → K) (i : Fin n) : renameVec σ x (σ i) = x i := by
  simp [renameVec]

/-- Renumbering as a linear map. -/
def renameLin : (Fin n → K) →ₗ[K] (Fin n → K) where
  toFun := renameVec σ
  map_add' _ _ := rfl
  map_smul' _ _ := rfl

omit [Field K] in
theorem renameVec_update (x : Fin n → K) (i : Fin n) (t : K) :
    renameVec σ (Function.update x i t) = Function.update (renameVec σ x) (σ i) t := by
  funext j
  obtain ⟨j, rfl⟩ := σ.surjective j
  rw [renameVec_apply]
  by_cases h : j = i
  · subst h; simp
  · rw [Function.update_of_ne h, Function.update_of_ne (fun e => h (σ.injective e)), renameVec_apply]

omit [Field K] in
@[simp] theorem renameMatrix_apply (A : Matrix (Fin n) (Fin n) K) (i j : Fin n) :
    renameMatrix σ σ A (σ i) (σ j) = A i j := by
  simp [renameMatrix]

theorem mem_rename (own : List (Fin n)) (i : Fin n) : σ i ∈ own.map σ ↔ i ∈ own := by
  simp

theorem relaxRow_rename (A : Matrix (Fin n) (Fin n) K) (own : List (Fin n)) (b x : Fin n → K) (i : Fin n) :
    relaxRow (renameMatrix σ σ A) (own.map σ) (renameVec σ b) (renameVec σ x) (σ i)
      = renameVec σ (relaxRow A own b x i) := by
  simp only [relaxRow]
  rw [renameVec_update, List.map_map]
  simp only [Function.comp_def, renameMatrix_apply, renameVec_apply]

theorem sweep_rename (A : Matrix (Fin n) (Fin n) K) (own : List (Fin n)) (b : Fin n → K)
    (rows : List (Fin n)) (x : Fin n → K) :
    (rows.map σ).foldl (relaxRow (renameMatrix σ σ A) (own.map σ) (renameVec σ b)) (renameVec σ x)
      = renameVec σ (rows.foldl (relaxRow A own b) x) := by
  induction rows generalizing x with
  | nil => rfl
  | cons i rows ih => rw [List.map_cons, List.foldl_cons, List.foldl_cons, relaxRow_rename, ih]

theorem relaxVmult_rename (kind : Relaxation) (A : Matrix (Fin n) (Fin n) K) (procs : List (List (Fin n)))
    (r : Fin n → K) :
    relaxVmult kind (renameMatrix σ σ A) (renameProcs σ procs) (renameVec σ r)
      = renameVec σ (relaxVmult kind A procs r) := by
  have h : ∀ own, localVmult kind (renameMatrix σ σ A) (own.map σ) (renameVec σ r)
      = renameVec σ (localVmult kind A own r) := by
    intro own
    cases kind
    · simp only [localVmult]
      rw [← List.map_reverse, ← List.map_append]
      exact sweep_rename σ A own r _ 0
    · exact sweep_rename σ A own r _ 0
    · funext j
      obtain ⟨j, rfl⟩ := σ.surjective j
      simp only [localVmult, mem_rename, renameVec_apply, renameMatrix_apply]
  funext j
  obtain ⟨j, rfl⟩ := σ.surjective j
  rw [renameVec_apply]
  simp only [relaxVmult, renameProcs, List.map_map, Function.comp_def, h, renameVec_apply]

theorem iluFactor_rename (graph : Fin n → Fin n → Bool) (own : List (Fin n)) (F : Matrix (Fin n) (Fin n) K) :
    iluFactor (renameGraph σ graph) (own.map σ) (renameMatrix σ σ F)
      = renameMatrix σ σ (iluFactor graph own F) := by
  induction own generalizing F with
  | nil => rfl
  | cons k rest ih =>
    rw [List.map_cons, iluFactor, iluFactor, ← ih]
    congr 1
    ext i j
    obtain ⟨i, rfl⟩ := σ.surjective i
    obtain ⟨j, rfl⟩ := σ.surjective j
    rw [renameMatrix_apply]
    simp only [iluStep, Matrix.of_apply, mem_rename, renameMatrix_apply, renameGraph,
      Equiv.symm_apply_apply]

theorem iluForward_rename (F : Matrix (Fin n) (Fin n) K) (own : List (Fin n)) (r : Fin n → K) :
    iluForward (renameMatrix σ σ F) (own.map σ) (renameVec σ r) = renameVec σ (iluForward F own r) := by
  induction own generalizing r with
  | nil => rfl
  | cons k rest ih =>
    rw [List.map_cons, iluForward, iluForward, ← ih]
    congr 1
    funext i
    obtain ⟨i, rfl⟩ := σ.surjective i
    simp only [mem_rename, renameMatrix_apply, renameVec_apply]

theorem iluBackward_rename (F : Matrix (Fin n) (Fin n) K) (own : List (Fin n)) (y : Fin n → K) :
    iluBackward (renameMatrix σ σ F) (own.map σ) (renameVec σ y) = renameVec σ (iluBackward F own y) := by
  induction own with
  | nil => rfl
  | cons k rest ih =>
    simp only [List.map_cons, iluBackward]
    rw [ih, renameVec_update, List.map_map]
    simp only [Function.comp_def, renameMatrix_apply, renameVec_apply]

theorem iluVmult_rename (graph : Fin n → Fin n → Bool) (A : Matrix (Fin n) (Fin n) K)
    (procs : List (List (Fin n))) (r : Fin n → K) :
    iluVmult (renameGraph σ graph) (renameMatrix σ σ A) (renameProcs σ procs) (renameVec σ r)
      = renameVec σ (iluVmult graph A procs r) := by
  funext j
  obtain ⟨j, rfl⟩ := σ.surjective j
  rw [renameVec_apply]
  simp only [iluVmult, renameProcs, List.map_map, Function.comp_def, iluLocal, iluFactor_rename,
    iluForward_rename, iluBackward_rename, renameVec_apply]

theorem renameMatrix_mulVec {m : ℕ} (τ : Equiv.Perm (Fin m)) (M : Matrix (Fin m) (Fin n) K) (x : Fin n → K) :
    (renameMatrix τ σ M).mulVec (renameVec σ x) = renameVec τ (M.mulVec x) := by
  funext i
  simp only [Matrix.mulVec, dotProduct, renameMatrix, renameVec, Matrix.of_apply]
  exact Equiv.sum_comp σ.symm fun j => M (τ.symm i) j * x j

omit [Field K] in
theorem renameMatrix_transpose {m : ℕ} (τ : Equiv.Perm (Fin m)) (M : Matrix (Fin m) (Fin n) K) :
    (renameMatrix τ σ M).transpose = renameMatrix σ τ M.transpose := rfl

theorem renameMatrix_mul {m k : ℕ} (τ : Equiv.Perm (Fin m)) (ρ : Equiv.Perm (Fin k))
    (M : Matrix (Fin m) (Fin n) K) (N : Matrix (Fin n) (Fin k) K) :
    renameMatrix τ σ M * renameMatrix σ ρ N = renameMatrix τ ρ (M * N) := by
  ext i j
  simp only [Matrix.mul_apply, renameMatrix, Matrix.of_apply]
  exact Equiv.sum_comp σ.symm fun l => M (τ.symm i) l * N l (ρ.symm j)

theorem renameMatrix_inv (M : Matrix (Fin n) (Fin n) K) :
    (renameMatrix σ σ M)⁻¹ = renameMatrix σ σ M⁻¹ :=
  Matrix.inv_submatrix_equiv M σ.symm σ.symm

theorem renameVec_dot (u v : Fin n → K) : renameVec σ u ⬝ᵥ renameVec σ v = u ⬝ᵥ v :=
  Equiv.sum_comp σ.symm fun i => u i * v i

omit [Field K] in
theorem renameVec_surjective (x : Fin n → K) : ∃ y, renameVec σ y = x :=
  ⟨fun i => x (σ i), by funext i; simp [renameVec]⟩

theorem renameVec_eq_zero {x : Fin n → K} (h : renameVec σ x = 0) : x = 0 := by
  funext i
  rw [← renameVec_apply σ x, h]
  rfl

end

section

variable {K : Type} [Field K]

theorem coarseMatrix_rename (dims : ℕ → ℕ) (σ : ∀ l, Equiv.Perm (Fin (dims l)))
    (A : Matrix (Fin (dims 0)) (Fin (dims 0)) K)
    (R : ∀ l, Matrix (Fin (dims (l + 1))) (Fin (dims l)) K) (l : ℕ) :
    coarseMatrix dims (renameMatrix (σ 0) (σ 0) A) (fun l => renameMatrix (σ (l + 1)) (σ l) (R l)) l
      = renameMatrix (σ l) (σ l) (coarseMatrix dims A R l) := by
  induction l with
  | zero => rfl
  | succ l ih =>
    simp only [coarseMatrix, galerkin, ih, renameMatrix_transpose, renameMatrix_mul]

theorem independentRows_rename {m n : ℕ} (τ : Equiv.Perm (Fin m)) (σ : Equiv.Perm (Fin n))
    {R : Matrix (Fin m) (Fin n) K} (h : IndependentRows R) : IndependentRows (renameMatrix τ σ R) := by
  intro y hy
  obtain ⟨y, rfl⟩ := renameVec_surjective τ y
  rw [renameMatrix_transpose, renameMatrix_mulVec] at hy
  rw [h y (renameVec_eq_zero σ hy)]
  rfl

theorem spd_rename [LinearOrder K] {n : ℕ} (σ : Equiv.Perm (Fin n)) {A : Matrix (Fin n) (Fin n) K}
    (hA : IsSpd A) : IsSpd (renameMatrix σ σ A) := by
  refine ⟨by rw [renameMatrix_transpose, hA.1], ?_⟩
  intro x hx
  obtain ⟨x, rfl⟩ := renameVec_surjective σ x
  rw [renameMatrix_mulVec, renameVec_dot]
  apply hA.2
  rintro rfl
  exact hx rfl

end

section

variable {K : Type} [Field K] {n : ℕ}

/-- Division by the diagonal does not depend on the processes. -/
theorem relaxVmult_jacobi_all {procs : List (List (Fin n))} (h : ListsAll procs.flatten)
    (A : Matrix (Fin n) (Fin n) K) (r : Fin n → K) :
    relaxVmult .jacobi A procs r = fun i => r i / A i i := by
  funext i
  obtain ⟨own, ho, hi⟩ := List.mem_flatten.1 (h.2 i)
  rw [relaxVmult_own .jacobi A h r ho hi]
  simp [localVmult, hi]

theorem oneRowEach_all (n : ℕ) : ListsAll (oneRowEach n).flatten := by
  have : (oneRowEach n).flatten = List.finRange n := by
    unfold oneRowEach
    rw [← List.flatMap_def]
    simp
  rw [this]
  exact ⟨List.nodup_finRange n, List.mem_finRange⟩

/-- The equation of a row at the time it is relaxed. -/
theorem sweep_row (A : Matrix (Fin n) (Fin n) K) {own : List (Fin n)} (hown : own.Nodup) (r x : Fin n → K)
    (a b : List (Fin n)) (k : Fin n) (hk : k ∈ own) (hrows : (a ++ k :: b).Nodup) (hd : A k k ≠ 0) :
    (own.map fun j => A k j * (if j ∈ b then x j else (a ++ k :: b).foldl (relaxRow A own r) x j)).sum
      = r k := by
  have hab : ∀ j ∈ b, j ∉ a ∧ j ≠ k := by
    intro j hj
    rw [List.nodup_append, List.nodup_cons] at hrows
    exact ⟨fun ha => hrows.2.2 j ha j (by simp [hj]) rfl, fun e => hrows.2.1.1 (e ▸ hj)⟩
  rw [List.foldl_append, List.foldl_cons]
  generalize hu : a.foldl (relaxRow A own r) x = u
  have h1 : ∀ j, (if j ∈ b then x j else b.foldl (relaxRow A own r) (relaxRow A own r u k) j)
      = relaxRow A own r u k j := by
    intro j
    split_ifs with hj
    · have h2 : relaxRow A own r u k j = u j := Function.update_of_ne (hab j hj).2 _ _
      rw [h2, ← hu, sweep_off A own r a x (hab j hj).1]
    · rw [sweep_off A own r b _ hj]
  simp only [h1]
  have h3 : ∀ j, A k j * relaxRow A own r u k j = A k j * u j
      + if j = k then r k - (own.map fun j => A k j * u j).sum else 0 := by
    intro j
    by_cases hj : j = k
    · subst hj
      simp only [relaxRow, Function.update_self, if_true]
      field_simp
    · rw [if_neg hj, add_zero, relaxRow, Function.update_of_ne hj]
  simp only [h3]
  rw [List.sum_map_add]
  have h4 : (own.map fun j => if j = k then r k - (own.map fun j => A k j * u j).sum else 0).sum
      = r k - (own.map fun j => A k j * u j).sum := by
    rw [← List.sum_toFinset _ hown, Finset.sum_ite_eq' own.toFinset k]
    simp [hk]
  rw [h4]
  ring

end

end Mfmg
