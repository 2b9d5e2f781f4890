import Verif.Spec.Ilu
import Verif.Lemmas.Relaxation
import Mathlib.Tactic.FieldSimp
import Mathlib.Tactic.Ring
import Mathlib.Tactic.Linarith

/-!
# The algebra of the incomplete factorisation
-/

set_option autoImplicit false

namespace Mfmg

section

variable {K : Type} [Field K] {n : ℕ} {graph : Fin n → Fin n → Bool}

/-- The right-hand side after the elimination of the unknown `k`. -/
def elimRhs (F : Matrix (Fin n) (Fin n) K) (k : Fin n) (rest : List (Fin n)) (r : Fin n → K) :
    Fin n → K := fun i => if i ∈ rest then r i - F i k / F k k * r k else r i

/-- Factorisation and substitution in one recursion. -/
def iluSolve (graph : Fin n → Fin n → Bool) :
    List (Fin n) → Matrix (Fin n) (Fin n) K → (Fin n → K) → Fin n → K
  | [], _, _ => 0
  | k :: rest, F, r =>
    let x := iluSolve graph rest (iluStep graph k rest F) (elimRhs F k rest r)
    Function.update x k ((r k - (rest.map fun j => F k j * x j).sum) / F k k)

/-- The product of the factors. -/
def iluProd (graph : Fin n → Fin n → Bool) :
    List (Fin n) → Matrix (Fin n) (Fin n) K → Matrix (Fin n) (Fin n) K
  | [], _ => 0
  | k :: rest, F => Matrix.of fun i j =>
    if i = k ∨ j = k then F i j
    else F i k / F k k * F k j + iluProd graph rest (iluStep graph k rest F) i j

/-- No pivot is zero. -/
def NonzeroPivots (graph : Fin n → Fin n → Bool) :
    List (Fin n) → Matrix (Fin n) (Fin n) K → Prop
  | [], _ => True
  | k :: rest, F => F k k ≠ 0 ∧ NonzeroPivots graph rest (iluStep graph k rest F)

theorem iluStep_col (F : Matrix (Fin n) (Fin n) K) (k : Fin n) (rest : List (Fin n)) {j : Fin n}
    (hj : j ∉ rest) (i : Fin n) : iluStep graph k rest F i j = F i j := by
  simp [iluStep, hj]

theorem iluStep_row (F : Matrix (Fin n) (Fin n) K) (k : Fin n) (rest : List (Fin n)) {i : Fin n}
    (hi : i ∉ rest) (j : Fin n) : iluStep graph k rest F i j = F i j := by
  simp [iluStep, hi]

theorem iluStep_in (F : Matrix (Fin n) (Fin n) K) (k : Fin n) (rest : List (Fin n)) {i j : Fin n}
    (hi : i ∈ rest) (hj : j ∈ rest) (h : graph i j = true) :
    iluStep graph k rest F i j = F i j - F i k / F k k * F k j := by
  simp [iluStep, hi, hj, h]

theorem iluStep_off (F : Matrix (Fin n) (Fin n) K) (k : Fin n) (rest : List (Fin n)) {i j : Fin n}
    (h : graph i j = false) : iluStep graph k rest F i j = F i j := by
  simp [iluStep, h]

theorem iluFactor_col (l : List (Fin n)) (F : Matrix (Fin n) (Fin n) K) {j : Fin n} (hj : j ∉ l)
    (i : Fin n) : iluFactor graph l F i j = F i j := by
  induction l generalizing F with
  | nil => rfl
  | cons k rest ih =>
    rw [List.mem_cons, not_or] at hj
    rw [iluFactor, ih _ hj.2, iluStep_col F k rest hj.2]

theorem iluFactor_row (l : List (Fin n)) (F : Matrix (Fin n) (Fin n) K) {i : Fin n} (hi : i ∉ l)
    (j : Fin n) : iluFactor graph l F i j = F i j := by
  induction l generalizing F with
  | nil => rfl
  | cons k rest ih =>
    rw [List.mem_cons, not_or] at hi
    rw [iluFactor, ih _ hi.2, iluStep_row F k rest hi.2]

theorem iluFactor_off (l : List (Fin n)) (F : Matrix (Fin n) (Fin n) K) {i j : Fin n}
    (h : graph i j = false) : iluFactor graph l F i j = F i j := by
  induction l generalizing F with
  | nil => rfl
  | cons k rest ih => rw [iluFactor, ih, iluStep_off F k rest h]

theorem iluForward_off (F : Matrix (Fin n) (Fin n) K) (l : List (Fin n)) (r : Fin n → K) {i : Fin n}
    (hi : i ∉ l) : iluForward F l r i = r i := by
  induction l generalizing r with
  | nil => rfl
  | cons k rest ih =>
    rw [List.mem_cons, not_or] at hi
    rw [iluForward, ih _ hi.2, if_neg hi.2]

theorem iluSolve_off (l : List (Fin n)) (F : Matrix (Fin n) (Fin n) K) (r : Fin n → K) {i : Fin n}
    (hi : i ∉ l) : iluSolve graph l F r i = 0 := by
  induction l generalizing F r with
  | nil => rfl
  | cons k rest ih =>
    rw [List.mem_cons, not_or] at hi
    simp only [iluSolve]
    rw [Function.update_of_ne hi.1, ih _ _ hi.2]

/-- The preconditioner of one process is the recursion. -/
theorem iluLocal_eq (own : List (Fin n)) (hown : own.Nodup) (A : Matrix (Fin n) (Fin n) K)
    (r : Fin n → K) : iluLocal graph A own r = iluSolve graph own A r := by
  unfold iluLocal
  induction own generalizing A r with
  | nil => rfl
  | cons k rest ih =>
    rw [List.nodup_cons] at hown
    have hcol : ∀ i, iluFactor graph rest (iluStep graph k rest A) i k = A i k := fun i => by
      rw [iluFactor_col rest _ hown.1, iluStep_col A k rest hown.1]
    have hrow : ∀ j, iluFactor graph rest (iluStep graph k rest A) k j = A k j := fun j => by
      rw [iluFactor_row rest _ hown.1, iluStep_row A k rest hown.1]
    simp only [iluFactor, iluForward, iluBackward, iluSolve]
    have hr : (fun i => if i ∈ rest then r i - iluFactor graph rest (iluStep graph k rest A) i k
        / iluFactor graph rest (iluStep graph k rest A) k k * r k else r i) = elimRhs A k rest r := by
      funext i
      simp only [elimRhs, hcol]
    rw [hr, ih hown.2, iluForward_off _ _ _ hown.1]
    have hk : elimRhs A k rest r k = r k := by simp [elimRhs, hown.1]
    simp only [hrow, hk]

/-- The recursion depends only on the rows and columns of the list. -/
theorem iluSolve_congr (l : List (Fin n)) {g g' : Fin n → Fin n → Bool}
    {F F' : Matrix (Fin n) (Fin n) K} {r r' : Fin n → K} (hg : ∀ i ∈ l, ∀ j ∈ l, g i j = g' i j)
    (hF : ∀ i ∈ l, ∀ j ∈ l, F i j = F' i j) (hr : ∀ i ∈ l, r i = r' i) :
    iluSolve g l F r = iluSolve g' l F' r' := by
  induction l generalizing F F' r r' with
  | nil => rfl
  | cons k rest ih =>
    have hk : k ∈ k :: rest := by simp
    have hm : ∀ i, i ∈ rest → i ∈ k :: rest := fun i hi => by simp [hi]
    have h := ih (F := iluStep g k rest F) (F' := iluStep g' k rest F') (r := elimRhs F k rest r)
      (r' := elimRhs F' k rest r') (fun i hi j hj => hg i (hm i hi) j (hm j hj))
      (by
        intro i hi j hj
        simp only [iluStep, Matrix.of_apply, hg i (hm i hi) j (hm j hj), hF i (hm i hi) j (hm j hj),
          hF i (hm i hi) k hk, hF k hk j (hm j hj), hF k hk k hk])
      (by
        intro i hi
        simp only [elimRhs, hr i (hm i hi), hr k hk, hF i (hm i hi) k hk, hF k hk k hk])
    simp only [iluSolve]
    rw [h, hr k hk, hF k hk k hk]
    congr 4
    apply List.map_congr_left
    intro j hj
    rw [hF k hk j (hm j hj)]

/-- Two sets of rows without coupling. -/
def Uncoupled (graph : Fin n → Fin n → Bool) (F : Matrix (Fin n) (Fin n) K) (l₁ l₂ : List (Fin n)) :
    Prop :=
  ∀ i ∈ l₁, ∀ j ∈ l₂, i ≠ j ∧ F i j = 0 ∧ F j i = 0 ∧ graph i j = false ∧ graph j i = false

theorem iluStep_uncoupled {F : Matrix (Fin n) (Fin n) K} {k : Fin n} {rest l₂ : List (Fin n)}
    (h : Uncoupled graph F (k :: rest) l₂) :
    iluStep graph k (rest ++ l₂) F = iluStep graph k rest F := by
  have hk : ∀ j ∈ l₂, F k j = 0 ∧ F j k = 0 := fun j hj =>
    ⟨(h k (by simp) j hj).2.1, (h k (by simp) j hj).2.2.1⟩
  ext i j
  by_cases hij : graph i j = true
  swap
  · rw [iluStep_off _ _ _ (by simpa using hij), iluStep_off _ _ _ (by simpa using hij)]
  by_cases hi : i ∈ l₂
  · simp only [iluStep, Matrix.of_apply, (hk i hi).2]
    split_ifs <;> simp
  · by_cases hj : j ∈ l₂
    · simp only [iluStep, Matrix.of_apply, (hk j hj).1]
      split_ifs <;> simp
    · simp [iluStep, hi, hj]

theorem uncoupled_step {F : Matrix (Fin n) (Fin n) K} {k : Fin n} {rest l₂ : List (Fin n)}
    (h : Uncoupled graph F (k :: rest) l₂) :
    Uncoupled graph (iluStep graph k rest F) rest l₂ := by
  intro i hi j hj
  obtain ⟨h1, h2, h3, h4, h5⟩ := h i (by simp [hi]) j hj
  refine ⟨h1, ?_, ?_, h4, h5⟩
  · rw [iluStep_off _ _ _ h4, h2]
  · rw [iluStep_off _ _ _ h5, h3]

theorem uncoupled_notMem {F : Matrix (Fin n) (Fin n) K} {l₁ l₂ : List (Fin n)}
    (h : Uncoupled graph F l₁ l₂) {i : Fin n} (hi : i ∈ l₂) : i ∉ l₁ :=
  fun h1 => (h i h1 i hi).1 rfl

/-- Without coupling the two parts are solved independently. -/
theorem iluSolve_append (l₁ l₂ : List (Fin n)) (F : Matrix (Fin n) (Fin n) K)
    (h : Uncoupled graph F l₁ l₂) (r : Fin n → K) :
    iluSolve graph (l₁ ++ l₂) F r = iluSolve graph l₁ F r + iluSolve graph l₂ F r := by
  induction l₁ generalizing F r with
  | nil => simp [iluSolve]
  | cons k rest ih =>
    have hk : ∀ j ∈ l₂, F k j = 0 ∧ F j k = 0 := fun j hj =>
      ⟨(h k (by simp) j hj).2.1, (h k (by simp) j hj).2.2.1⟩
    have hr : elimRhs F k (rest ++ l₂) r = elimRhs F k rest r := by
      funext i
      by_cases hi : i ∈ l₂
      · simp only [elimRhs, (hk i hi).2]
        split_ifs <;> simp
      · simp [elimRhs, hi]
    have hc : iluSolve graph l₂ (iluStep graph k rest F) (elimRhs F k rest r)
        = iluSolve graph l₂ F r := by
      apply iluSolve_congr l₂ (fun _ _ _ _ => rfl)
      · intro i hi j _
        exact iluStep_row F k rest (fun hm => uncoupled_notMem h hi (by simp [hm])) j
      · intro i hi
        have : i ∉ rest := fun hm => uncoupled_notMem h hi (by simp [hm])
        simp [elimRhs, this]
    simp only [List.cons_append, iluSolve]
    rw [iluStep_uncoupled h, hr, ih _ (uncoupled_step h), hc]
    set x := iluSolve graph rest (iluStep graph k rest F) (elimRhs F k rest r)
    set y := iluSolve graph l₂ F r with hy
    have hkl : k ∉ l₂ := fun hm => uncoupled_notMem h hm (by simp)
    have hyk : y k = 0 := iluSolve_off l₂ F r hkl
    have hs : ((rest ++ l₂).map fun j => F k j * (x + y) j).sum = (rest.map fun j => F k j * x j).sum := by
      rw [List.map_append, List.sum_append]
      have h2 : (l₂.map fun j => F k j * (x + y) j).sum = 0 := by
        apply List.sum_eq_zero
        intro a ha
        obtain ⟨j, hj, rfl⟩ := List.mem_map.1 ha
        rw [(hk j hj).1, zero_mul]
      rw [h2, add_zero]
      congr 1
      apply List.map_congr_left
      intro j hj
      have : y j = 0 := iluSolve_off l₂ F r fun hm => uncoupled_notMem h hm (by simp [hj])
      rw [Pi.add_apply, this, add_zero]
    rw [hs]
    funext i
    by_cases hi : i = k
    · subst hi
      simp [hyk]
    · simp [hi]

theorem nonzeroPivots_append (l₁ l₂ : List (Fin n)) (F : Matrix (Fin n) (Fin n) K)
    (h : Uncoupled graph F l₁ l₂) (h1 : NonzeroPivots graph l₁ F)
    (h2 : ∀ F' : Matrix (Fin n) (Fin n) K, (∀ i ∈ l₂, ∀ j ∈ l₂, F' i j = F i j) →
      NonzeroPivots graph l₂ F') : NonzeroPivots graph (l₁ ++ l₂) F := by
  induction l₁ generalizing F with
  | nil => exact h2 F fun _ _ _ _ => rfl
  | cons k rest ih =>
    refine ⟨h1.1, ?_⟩
    change NonzeroPivots graph (rest ++ l₂) (iluStep graph k (rest ++ l₂) F)
    rw [iluStep_uncoupled h]
    refine ih _ (uncoupled_step h) h1.2 ?_
    intro F' hF'
    refine h2 F' ?_
    intro i hi j hj
    rw [hF' i hi j hj, iluStep_row F k rest fun hm => uncoupled_notMem h hi (by simp [hm])]

theorem nonzeroPivots_congr (l : List (Fin n)) {g g' : Fin n → Fin n → Bool}
    {F F' : Matrix (Fin n) (Fin n) K} (hg : ∀ i ∈ l, ∀ j ∈ l, g i j = g' i j)
    (hF : ∀ i ∈ l, ∀ j ∈ l, F i j = F' i j) (h : NonzeroPivots g l F) : NonzeroPivots g' l F' := by
  induction l generalizing F F' with
  | nil => trivial
  | cons k rest ih =>
    have hk : k ∈ k :: rest := by simp
    have hm : ∀ i, i ∈ rest → i ∈ k :: rest := fun i hi => by simp [hi]
    refine ⟨hF k hk k hk ▸ h.1, ih (fun i hi j hj => hg i (hm i hi) j (hm j hj)) ?_ h.2⟩
    intro i hi j hj
    simp only [iluStep, Matrix.of_apply, hg i (hm i hi) j (hm j hj), hF i (hm i hi) j (hm j hj),
      hF i (hm i hi) k hk, hF k hk j (hm j hj), hF k hk k hk]

theorem nonzeroPivots_iff (l : List (Fin n)) (hl : l.Nodup) (F : Matrix (Fin n) (Fin n) K) :
    NonzeroPivots graph l F ↔ ∀ k ∈ l, iluFactor graph l F k k ≠ 0 := by
  induction l generalizing F with
  | nil => simp [NonzeroPivots]
  | cons k rest ih =>
    rw [List.nodup_cons] at hl
    rw [NonzeroPivots, ih hl.2, List.forall_mem_cons, iluFactor, iluFactor_col _ _ hl.1,
      iluStep_col _ _ _ hl.1]

/-! ### Linearity -/

theorem iluForward_add (F : Matrix (Fin n) (Fin n) K) (l : List (Fin n)) (r s : Fin n → K) :
    iluForward F l (r + s) = iluForward F l r + iluForward F l s := by
  induction l generalizing r s with
  | nil => rfl
  | cons k rest ih =>
    simp only [iluForward]
    rw [← ih]
    congr 1
    funext i
    simp only [Pi.add_apply]
    split_ifs
    · ring
    · rfl

theorem iluForward_smul (F : Matrix (Fin n) (Fin n) K) (l : List (Fin n)) (c : K) (r : Fin n → K) :
    iluForward F l (c • r) = c • iluForward F l r := by
  induction l generalizing r with
  | nil => rfl
  | cons k rest ih =>
    simp only [iluForward]
    rw [← ih]
    congr 1
    funext i
    simp only [Pi.smul_apply, smul_eq_mul]
    split_ifs
    · ring
    · rfl

theorem iluBackward_add (F : Matrix (Fin n) (Fin n) K) (l : List (Fin n)) (r s : Fin n → K) :
    iluBackward F l (r + s) = iluBackward F l r + iluBackward F l s := by
  induction l with
  | nil => simp [iluBackward]
  | cons k rest ih =>
    simp only [iluBackward]
    rw [ih]
    have h : (rest.map fun j => F k j * (iluBackward F rest r + iluBackward F rest s) j).sum
        = (rest.map fun j => F k j * iluBackward F rest r j).sum
          + (rest.map fun j => F k j * iluBackward F rest s j).sum := by
      rw [← List.sum_map_add]
      simp only [Pi.add_apply, mul_add]
    rw [h]
    funext i
    by_cases hi : i = k
    · subst hi
      simp only [Function.update_self, Pi.add_apply]
      ring
    · simp [hi]

theorem iluBackward_smul (F : Matrix (Fin n) (Fin n) K) (l : List (Fin n)) (c : K) (r : Fin n → K) :
    iluBackward F l (c • r) = c • iluBackward F l r := by
  induction l with
  | nil => simp [iluBackward]
  | cons k rest ih =>
    simp only [iluBackward]
    rw [ih]
    have h : (rest.map fun j => F k j * (c • iluBackward F rest r) j).sum
        = c * (rest.map fun j => F k j * iluBackward F rest r j).sum := by
      rw [← List.sum_map_mul_left]
      simp only [Pi.smul_apply, smul_eq_mul, mul_left_comm]
    rw [h]
    funext i
    by_cases hi : i = k
    · subst hi
      simp only [Function.update_self, Pi.smul_apply, smul_eq_mul]
      ring
    · simp [hi]

/-- The preconditioner is linear. -/
def iluLin (graph : Fin n → Fin n → Bool) (A : Matrix (Fin n) (Fin n) K)
    (procs : List (List (Fin n))) : (Fin n → K) →ₗ[K] (Fin n → K) where
  toFun := iluVmult graph A procs
  map_add' := by
    intro r s
    funext i
    simp only [iluVmult, iluLocal, iluForward_add, iluBackward_add, Pi.add_apply, List.sum_map_add]
  map_smul' := by
    intro c r
    funext i
    simp only [iluVmult, iluLocal, iluForward_smul, iluBackward_smul, Pi.smul_apply, smul_eq_mul,
      List.sum_map_mul_left, RingHom.id_apply]

/-! ### The product of the factors -/

theorem iluProd_col (F : Matrix (Fin n) (Fin n) K) (k : Fin n) (rest : List (Fin n)) (i : Fin n) :
    iluProd graph (k :: rest) F i k = F i k := by
  simp [iluProd]

theorem iluProd_row (F : Matrix (Fin n) (Fin n) K) (k : Fin n) (rest : List (Fin n)) (j : Fin n) :
    iluProd graph (k :: rest) F k j = F k j := by
  simp [iluProd]

theorem iluProd_in (F : Matrix (Fin n) (Fin n) K) (k : Fin n) (rest : List (Fin n)) {i j : Fin n}
    (hi : i ≠ k) (hj : j ≠ k) : iluProd graph (k :: rest) F i j
      = F i k / F k k * F k j + iluProd graph rest (iluStep graph k rest F) i j := by
  simp [iluProd, hi, hj]

/-- The recursion solves the equations of the product. -/
theorem iluProd_solve (l : List (Fin n)) (hl : l.Nodup) (F : Matrix (Fin n) (Fin n) K)
    (h : NonzeroPivots graph l F) (r : Fin n → K) (i : Fin n) (hi : i ∈ l) :
    (l.map fun j => iluProd graph l F i j * iluSolve graph l F r j).sum = r i := by
  induction l generalizing F r i with
  | nil => simp at hi
  | cons k rest ih =>
    rw [List.nodup_cons] at hl
    obtain ⟨hk, h⟩ := h
    set x := iluSolve graph rest (iluStep graph k rest F) (elimRhs F k rest r) with hx
    have hsolve : iluSolve graph (k :: rest) F r
        = Function.update x k ((r k - (rest.map fun j => F k j * x j).sum) / F k k) := rfl
    have hne : ∀ j ∈ rest, j ≠ k := fun j hj e => hl.1 (e ▸ hj)
    rw [hsolve, List.map_cons, List.sum_cons, Function.update_self, iluProd_col]
    by_cases hik : i = k
    · subst hik
      have : (rest.map fun j => iluProd graph (i :: rest) F i j
          * Function.update x i ((r i - (rest.map fun j => F i j * x j).sum) / F i i) j)
          = rest.map fun j => F i j * x j := by
        apply List.map_congr_left
        intro j hj
        rw [iluProd_row, Function.update_of_ne (hne j hj)]
      rw [this]
      field_simp
      ring
    · have hi' : i ∈ rest := (List.mem_cons.1 hi).resolve_left hik
      have h1 : (rest.map fun j => iluProd graph (k :: rest) F i j
          * Function.update x k ((r k - (rest.map fun j => F k j * x j).sum) / F k k) j)
          = rest.map fun j => F i k / F k k * (F k j * x j)
              + iluProd graph rest (iluStep graph k rest F) i j * x j := by
        apply List.map_congr_left
        intro j hj
        rw [iluProd_in F k rest hik (hne j hj), Function.update_of_ne (hne j hj)]
        ring
      rw [h1, List.sum_map_add, List.sum_map_mul_left, ih hl.2 _ h _ i hi', elimRhs, if_pos hi']
      field_simp
      ring

/-- The product agrees with the matrix on the graph. -/
theorem iluProd_graph (l : List (Fin n)) (F : Matrix (Fin n) (Fin n) K) {i j : Fin n} (hi : i ∈ l)
    (hj : j ∈ l) (h : graph i j = true) : iluProd graph l F i j = F i j := by
  induction l generalizing F with
  | nil => simp at hi
  | cons k rest ih =>
    by_cases hik : i = k
    · rw [hik, iluProd_row]
    · by_cases hjk : j = k
      · rw [hjk, iluProd_col]
      · have hi' := (List.mem_cons.1 hi).resolve_left hik
        have hj' := (List.mem_cons.1 hj).resolve_left hjk
        rw [iluProd_in F k rest hik hjk, ih _ hi' hj', iluStep_in F k rest hi' hj' h]
        ring

theorem iluStep_symm {F : Matrix (Fin n) (Fin n) K} (hF : ∀ i j, F i j = F j i)
    (hg : ∀ i j, graph i j = graph j i) (k : Fin n) (rest : List (Fin n)) (i j : Fin n) :
    iluStep graph k rest F i j = iluStep graph k rest F j i := by
  by_cases hi : i ∈ rest
  · by_cases hj : j ∈ rest
    · cases h : graph i j
      · rw [iluStep_off _ _ _ h, iluStep_off _ _ _ (hg i j ▸ h), hF]
      · rw [iluStep_in _ _ _ hi hj h, iluStep_in _ _ _ hj hi (hg i j ▸ h), hF i j, hF i k, hF j k]
        ring
    · rw [iluStep_col _ _ _ hj, iluStep_row _ _ _ hj, hF]
  · rw [iluStep_col _ _ _ hi, iluStep_row _ _ _ hi, hF]

theorem iluProd_symm (l : List (Fin n)) {F : Matrix (Fin n) (Fin n) K} (hF : ∀ i j, F i j = F j i)
    (hg : ∀ i j, graph i j = graph j i) (i j : Fin n) :
    iluProd graph l F i j = iluProd graph l F j i := by
  induction l generalizing F with
  | nil => rfl
  | cons k rest ih =>
    by_cases hik : i = k
    · rw [hik, iluProd_row, iluProd_col, hF]
    · by_cases hjk : j = k
      · rw [hjk, iluProd_row, iluProd_col, hF]
      · rw [iluProd_in F k rest hik hjk, iluProd_in F k rest hjk hik,
          ih (iluStep_symm hF hg k rest), hF i k, hF j k]
        ring

/-- The quadratic form on the rows of a list. -/
def listForm (l : List (Fin n)) (F : Matrix (Fin n) (Fin n) K) (x : Fin n → K) : K :=
  (l.map fun i => x i * (l.map fun j => F i j * x j).sum).sum

theorem listForm_cons (k : Fin n) (rest : List (Fin n)) (F : Matrix (Fin n) (Fin n) K)
    (hF : ∀ i, F i k = F k i) (x : Fin n → K) :
    listForm (k :: rest) F x = F k k * x k * x k + 2 * x k * (rest.map fun j => F k j * x j).sum
      + listForm rest F x := by
  unfold listForm
  simp only [List.map_cons, List.sum_cons]
  have h : (rest.map fun i => x i * (F i k * x k + (rest.map fun j => F i j * x j).sum))
      = rest.map fun i => x k * (F k i * x i) + x i * (rest.map fun j => F i j * x j).sum := by
    apply List.map_congr_left
    intro i _
    rw [hF]
    ring
  rw [h, List.sum_map_add, List.sum_map_mul_left]
  ring

theorem listForm_congr (l : List (Fin n)) {F F' : Matrix (Fin n) (Fin n) K} {x x' : Fin n → K}
    (hF : ∀ i ∈ l, ∀ j ∈ l, F i j = F' i j) (hx : ∀ i ∈ l, x i = x' i) :
    listForm l F x = listForm l F' x' := by
  unfold listForm
  congr 1
  apply List.map_congr_left
  intro i hi
  rw [hx i hi]
  congr 2
  apply List.map_congr_left
  intro j hj
  rw [hF i hi j hj, hx j hj]

theorem listForm_add (l : List (Fin n)) (F G : Matrix (Fin n) (Fin n) K) (x : Fin n → K) :
    listForm l (F + G) x = listForm l F x + listForm l G x := by
  unfold listForm
  rw [← List.sum_map_add]
  congr 1
  apply List.map_congr_left
  intro i _
  rw [← mul_add, ← List.sum_map_add]
  simp only [Matrix.add_apply, add_mul]

theorem listForm_outer (l : List (Fin n)) (u v : Fin n → K) (x : Fin n → K) :
    listForm l (Matrix.of fun i j => u i * v j) x
      = (l.map fun j => u j * x j).sum * (l.map fun j => v j * x j).sum := by
  unfold listForm
  rw [← List.sum_map_mul_right]
  congr 1
  apply List.map_congr_left
  intro i _
  simp only [Matrix.of_apply, mul_assoc, List.sum_map_mul_left]
  ring

/-- Completion of the square. -/
theorem listForm_square (k : Fin n) (rest : List (Fin n)) (G G' : Matrix (Fin n) (Fin n) K)
    (hk : G k k ≠ 0) (hG : ∀ i, G i k = G k i)
    (h : ∀ i ∈ rest, ∀ j ∈ rest, G i j = G i k / G k k * G k j + G' i j) (x : Fin n → K) :
    listForm (k :: rest) G x
      = G k k * (x k + (rest.map fun j => G k j * x j).sum / G k k)
          * (x k + (rest.map fun j => G k j * x j).sum / G k k) + listForm rest G' x := by
  rw [listForm_cons k rest G hG]
  have h1 : listForm rest G x
      = listForm rest ((Matrix.of fun i j => (G k i / G k k) * G k j) + G') x := by
    refine listForm_congr rest ?_ fun _ _ => rfl
    intro i hi j hj
    rw [h i hi j hj, Matrix.add_apply, Matrix.of_apply, hG]
  have h2 : (rest.map fun j => G k j / G k k * x j).sum = (rest.map fun j => G k j * x j).sum / G k k := by
    rw [div_eq_mul_inv, ← List.sum_map_mul_right]
    congr 1
    apply List.map_congr_left
    intro j _
    ring
  rw [h1, listForm_add, listForm_outer, h2]
  field_simp
  ring

theorem precedes_cons {k : Fin n} {rest : List (Fin n)} (hk : k ∉ rest) {i j : Fin n}
    (h : Precedes rest i j) : Precedes (k :: rest) i j := by
  obtain ⟨hi, hj, h⟩ := h
  refine ⟨by simp [hi], by simp [hj], ?_⟩
  have h1 : k ≠ i := fun e => hk (e ▸ hi)
  have h2 : k ≠ j := fun e => hk (e ▸ hj)
  rw [List.idxOf_cons_ne _ h1, List.idxOf_cons_ne _ h2]
  omega

theorem precedes_head {k : Fin n} {rest : List (Fin n)} (hk : k ∉ rest) {i : Fin n} (h : i ∈ rest) :
    Precedes (k :: rest) k i := by
  refine ⟨by simp, by simp [h], ?_⟩
  have h1 : k ≠ i := fun e => hk (e ▸ h)
  rw [List.idxOf_cons_self, List.idxOf_cons_ne _ h1]
  omega

theorem noFill_tail {k : Fin n} {rest : List (Fin n)} (hk : k ∉ rest)
    (h : NoFill graph (k :: rest)) : NoFill graph rest :=
  fun i j m h1 h2 => h i j m (precedes_cons hk h1) (precedes_cons hk h2)

theorem step_zero {k : Fin n} {rest : List (Fin n)} {F : Matrix (Fin n) (Fin n) K}
    (hF : ∀ i ∈ k :: rest, ∀ j ∈ k :: rest, graph i j = false → F i j = 0) :
    ∀ i ∈ rest, ∀ j ∈ rest, graph i j = false → iluStep graph k rest F i j = 0 := by
  intro i hi j hj h
  rw [iluStep_off F k rest h, hF i (by simp [hi]) j (by simp [hj]) h]

theorem noFill_zero {k : Fin n} {rest : List (Fin n)} (hk : k ∉ rest)
    (hfill : NoFill graph (k :: rest)) {F : Matrix (Fin n) (Fin n) K}
    (hF : ∀ i ∈ k :: rest, ∀ j ∈ k :: rest, graph i j = false → F i j = 0) {i j : Fin n}
    (hi : i ∈ rest) (hj : j ∈ rest) (h : graph i j = false) : F i k / F k k * F k j = 0 := by
  cases h1 : graph i k with
  | false => rw [hF i (by simp [hi]) k (by simp) h1]; simp
  | true =>
    cases h2 : graph k j with
    | false => rw [hF k (by simp) j (by simp [hj]) h2]; simp
    | true =>
      have := hfill i j k (precedes_head hk hi) (precedes_head hk hj) h1 h2
      rw [h] at this
      cases this

/-- Without fill the product is the matrix. -/
theorem iluProd_noFill (l : List (Fin n)) (hl : l.Nodup) (hfill : NoFill graph l)
    (F : Matrix (Fin n) (Fin n) K) (hF : ∀ i ∈ l, ∀ j ∈ l, graph i j = false → F i j = 0)
    {i j : Fin n} (hi : i ∈ l) (hj : j ∈ l) : iluProd graph l F i j = F i j := by
  cases h : graph i j with
  | true => exact iluProd_graph l F hi hj h
  | false =>
    induction l generalizing F with
    | nil => simp at hi
    | cons k rest ih =>
      rw [List.nodup_cons] at hl
      by_cases hik : i = k
      · rw [hik, iluProd_row]
      · by_cases hjk : j = k
        · rw [hjk, iluProd_col]
        · have hi' := (List.mem_cons.1 hi).resolve_left hik
          have hj' := (List.mem_cons.1 hj).resolve_left hjk
          rw [iluProd_in F k rest hik hjk, ih hl.2 (noFill_tail hl.1 hfill) _ (step_zero hF) hi' hj',
            iluStep_off F k rest h, noFill_zero hl.1 hfill hF hi' hj' h]
          ring

end

end Mfmg
