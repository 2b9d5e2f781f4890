import Verif.Spec.Uncoupled
import Verif.Lemmas.Numbering
import Verif.Lemmas.Prescribed

/-!
# Lemmas about parts that are not coupled
-/

set_option autoImplicit false

namespace Mfmg

open Spec Matrix

section matrices

variable {K : Type} [Field K] {m n : ℕ} {S : Set (Fin m)} {T : Set (Fin n)}

theorem AgreeOn.add {x x' y y' : Fin n → K} (h : AgreeOn T x x') (h' : AgreeOn T y y') : AgreeOn T (x + y) (x' + y') := by
  intro i hi
  rw [Pi.add_apply, Pi.add_apply, h i hi, h' i hi]

theorem AgreeOn.sub {x x' y y' : Fin n → K} (h : AgreeOn T x x') (h' : AgreeOn T y y') : AgreeOn T (x - y) (x' - y') := by
  intro i hi
  rw [Pi.sub_apply, Pi.sub_apply, h i hi, h' i hi]

theorem Separates.transpose {M : Matrix (Fin m) (Fin n) K} (h : Separates M S T) : Separates M.transpose T S :=
  fun i j hij => (h j i hij).symm

omit [Field K] in
theorem SamePart.transpose {M M' : Matrix (Fin m) (Fin n) K} (h : SamePart S T M M') :
    SamePart T S M.transpose M'.transpose := fun i hi j hj => h j hj i hi

/-- An entry in a row of the part times a vector. -/
theorem uncoupled_term {M M' : Matrix (Fin m) (Fin n) K} (h : Separates M S T) (h' : Separates M' S T)
    (hs : SamePart S T M M') {x x' : Fin n → K} (hx : AgreeOn T x x') {i : Fin m} (hi : i ∈ S) (j : Fin n) :
    M i j * x j = M' i j * x' j := by
  by_cases hj : j ∈ T
  · rw [hs i hi j hj, hx j hj]
  · have e : M i j = 0 := by
      by_contra e
      exact hj ((h i j e).1 hi)
    have e' : M' i j = 0 := by
      by_contra e
      exact hj ((h' i j e).1 hi)
    rw [e, e', zero_mul, zero_mul]

theorem mulVec_agree {M M' : Matrix (Fin m) (Fin n) K} (h : Separates M S T) (h' : Separates M' S T)
    (hs : SamePart S T M M') {x x' : Fin n → K} (hx : AgreeOn T x x') : AgreeOn S (M.mulVec x) (M'.mulVec x') :=
  fun i hi => by
    simp only [Matrix.mulVec, dotProduct]
    exact Finset.sum_congr rfl fun j _ => uncoupled_term h h' hs hx hi j

theorem Separates.mul {p : ℕ} {U : Set (Fin p)} {M : Matrix (Fin m) (Fin n) K} {N : Matrix (Fin n) (Fin p) K}
    (h : Separates M S T) (h' : Separates N T U) : Separates (M * N) S U := by
  intro i j hij
  rw [Matrix.mul_apply] at hij
  obtain ⟨k, -, hk⟩ := Finset.exists_ne_zero_of_sum_ne_zero hij
  exact (h i k (left_ne_zero_of_mul hk)).trans (h' k j (right_ne_zero_of_mul hk))

theorem SamePart.mul {p : ℕ} {U : Set (Fin p)} {M M' : Matrix (Fin m) (Fin n) K} {N N' : Matrix (Fin n) (Fin p) K}
    (h : Separates M S T) (h' : Separates M' S T) (hs : SamePart S T M M') (ht : SamePart T U N N') :
    SamePart S U (M * N) (M' * N') := by
  intro i hi j hj
  rw [Matrix.mul_apply, Matrix.mul_apply]
  exact Finset.sum_congr rfl fun k _ =>
    uncoupled_term h h' hs (x := fun k => N k j) (x' := fun k => N' k j) (fun k hk => ht k hk j hj) hi k

theorem coarse_uncoupled {dims : ℕ → ℕ} {S : ∀ l, Set (Fin (dims l))} {A A' : Matrix (Fin (dims 0)) (Fin (dims 0)) K}
    {R R' : ∀ l, Matrix (Fin (dims (l + 1))) (Fin (dims l)) K} (hA : Separates A (S 0) (S 0))
    (hA' : Separates A' (S 0) (S 0)) (hR : ∀ l, Separates (R l) (S (l + 1)) (S l))
    (hR' : ∀ l, Separates (R' l) (S (l + 1)) (S l)) (hs : SamePart (S 0) (S 0) A A')
    (ht : ∀ l, SamePart (S (l + 1)) (S l) (R l) (R' l)) (l : ℕ) :
    Separates (coarseMatrix dims A R l) (S l) (S l) ∧ Separates (coarseMatrix dims A' R' l) (S l) (S l) ∧
      SamePart (S l) (S l) (coarseMatrix dims A R l) (coarseMatrix dims A' R' l) := by
  induction l with
  | zero => exact ⟨hA, hA', hs⟩
  | succ l ih =>
    obtain ⟨i1, i2, i3⟩ := ih
    simp only [coarseMatrix, galerkin, Matrix.mul_assoc]
    exact ⟨(hR l).mul (i1.mul (hR l).transpose), (hR' l).mul (i2.mul (hR' l).transpose),
      SamePart.mul (hR l) (hR' l) (ht l) (SamePart.mul i1 i2 i3 (ht l).transpose)⟩

end matrices

section smoothers

variable {K : Type} [Field K] {n : ℕ} {S : Set (Fin n)} {M M' : Matrix (Fin n) (Fin n) K}

theorem relaxRow_agree (h : Separates M S S) (h' : Separates M' S S) (hs : SamePart S S M M') (own : List (Fin n))
    {b b' x x' : Fin n → K} (hb : AgreeOn S b b') (hx : AgreeOn S x x') (i : Fin n) :
    AgreeOn S (relaxRow M own b x i) (relaxRow M' own b' x' i) := by
  intro k hk
  simp only [relaxRow]
  by_cases hki : k = i
  · subst hki
    rw [Function.update_self, Function.update_self, hx k hk, hb k hk, hs k hk k hk,
      List.map_congr_left fun j _ => uncoupled_term h h' hs hx hk j]
  · rw [Function.update_of_ne hki, Function.update_of_ne hki, hx k hk]

theorem sweep_agree (h : Separates M S S) (h' : Separates M' S S) (hs : SamePart S S M M') (own : List (Fin n))
    {b b' : Fin n → K} (hb : AgreeOn S b b') (rows : List (Fin n)) {x x' : Fin n → K} (hx : AgreeOn S x x') :
    AgreeOn S (rows.foldl (relaxRow M own b) x) (rows.foldl (relaxRow M' own b') x') := by
  induction rows generalizing x x' with
  | nil => exact hx
  | cons i rows ih => exact ih (relaxRow_agree h h' hs own hb hx i)

theorem relaxVmult_agree (kind : Relaxation) (h : Separates M S S) (h' : Separates M' S S) (hs : SamePart S S M M')
    (procs : List (List (Fin n))) {r r' : Fin n → K} (hr : AgreeOn S r r') :
    AgreeOn S (relaxVmult kind M procs r) (relaxVmult kind M' procs r') := by
  intro i hi
  simp only [relaxVmult]
  congr 1
  refine List.map_congr_left fun own _ => ?_
  cases kind
  · exact sweep_agree h h' hs own hr _ (fun _ _ => rfl) i hi
  · exact sweep_agree h h' hs own hr _ (fun _ _ => rfl) i hi
  · simp only [localVmult, hr i hi, hs i hi i hi]

theorem iluFactor_agree {graph graph' : Fin n → Fin n → Bool} (hg : ∀ i j, i ∈ S → j ∈ S → graph i j = graph' i j)
    (own : List (Fin n)) (h : Separates M S S) (h' : Separates M' S S) (hs : SamePart S S M M') :
    Separates (iluFactor graph own M) S S ∧ Separates (iluFactor graph' own M') S S ∧
      SamePart S S (iluFactor graph own M) (iluFactor graph' own M') := by
  induction own generalizing M M' with
  | nil => exact ⟨h, h', hs⟩
  | cons k rest ih =>
    have hstep : ∀ (graph : Fin n → Fin n → Bool) {F : Matrix (Fin n) (Fin n) K}, Separates F S S →
        Separates (iluStep graph k rest F) S S := by
      intro graph F hF i j hij
      simp only [iluStep, Matrix.of_apply] at hij
      split_ifs at hij
      · by_cases e : F i j = 0
        · rw [e, zero_sub, neg_ne_zero] at hij
          have e1 := left_ne_zero_of_mul hij
          rw [div_ne_zero_iff] at e1
          exact (hF i k e1.1).trans (hF k j (right_ne_zero_of_mul hij))
        · exact hF i j e
      · exact hF i j hij
    refine ih (hstep graph h) (hstep graph' h') ?_
    intro i hi j hj
    simp only [iluStep, Matrix.of_apply, hg i j hi hj, hs i hi j hj]
    by_cases hk : k ∈ S
    · rw [hs i hi k hk, hs k hk k hk, hs k hk j hj]
    · have e : M i k = 0 := by
        by_contra e
        exact hk ((h i k e).1 hi)
      have e' : M' i k = 0 := by
        by_contra e
        exact hk ((h' i k e).1 hi)
      rw [e, e', zero_div, zero_div, zero_mul, zero_mul]

theorem iluForward_agree (h : Separates M S S) (h' : Separates M' S S) (hs : SamePart S S M M') (own : List (Fin n))
    {r r' : Fin n → K} (hr : AgreeOn S r r') : AgreeOn S (iluForward M own r) (iluForward M' own r') := by
  induction own generalizing r r' with
  | nil => exact hr
  | cons k rest ih =>
    refine ih ?_
    intro i hi
    simp only []
    by_cases hk : k ∈ S
    · rw [hr i hi, hr k hk, hs i hi k hk, hs k hk k hk]
    · have e : M i k = 0 := by
        by_contra e
        exact hk ((h i k e).1 hi)
      have e' : M' i k = 0 := by
        by_contra e
        exact hk ((h' i k e).1 hi)
      rw [e, e', zero_div, zero_div, zero_mul, zero_mul, hr i hi]

theorem iluBackward_agree (h : Separates M S S) (h' : Separates M' S S) (hs : SamePart S S M M') (own : List (Fin n))
    {y y' : Fin n → K} (hy : AgreeOn S y y') : AgreeOn S (iluBackward M own y) (iluBackward M' own y') := by
  induction own with
  | nil => exact fun _ _ => rfl
  | cons k rest ih =>
    intro i hi
    simp only [iluBackward]
    by_cases hik : i = k
    · subst hik
      rw [Function.update_self, Function.update_self, hy i hi, hs i hi i hi,
        List.map_congr_left fun j _ => uncoupled_term h h' hs ih hi j]
    · rw [Function.update_of_ne hik, Function.update_of_ne hik, ih i hi]

theorem iluVmult_agree {graph graph' : Fin n → Fin n → Bool} (hg : ∀ i j, i ∈ S → j ∈ S → graph i j = graph' i j)
    (h : Separates M S S) (h' : Separates M' S S) (hs : SamePart S S M M')
    (procs : List (List (Fin n))) {r r' : Fin n → K} (hr : AgreeOn S r r') :
    AgreeOn S (iluVmult graph M procs r) (iluVmult graph' M' procs r') := by
  intro i hi
  simp only [iluVmult]
  congr 1
  refine List.map_congr_left fun own _ => ?_
  obtain ⟨h1, h2, h3⟩ := iluFactor_agree hg own h h' hs
  exact iluBackward_agree h1 h2 h3 own (iluForward_agree h1 h2 h3 own hr) i hi

/-- Solutions of two systems that are the same in the part. -/
theorem solution_agree [LinearOrder K] (h : Separates M S S) (h' : Separates M' S S) (hs : SamePart S S M M')
    (hM : IsSpd M) {z z' : Fin n → K} (hz : AgreeOn S (M.mulVec z) (M'.mulVec z')) : AgreeOn S z z' := by
  classical
  have h0 : (fun i => if i ∈ S then z i - z' i else 0) = 0 := by
    by_contra hw
    have h1 := hM.2 _ hw
    have h2 : (fun i => if i ∈ S then z i - z' i else 0) ⬝ᵥ M.mulVec (fun i => if i ∈ S then z i - z' i else 0) = 0 := by
      refine Finset.sum_eq_zero fun i _ => ?_
      by_cases hi : i ∈ S
      · have e1 : M.mulVec (fun i => if i ∈ S then z i - z' i else 0) i = M.mulVec (z - z') i :=
          mulVec_agree h h (fun _ _ _ _ => rfl) (fun j hj => by simp only [if_pos hj, Pi.sub_apply]) i hi
        have e2 : M.mulVec z' i = M'.mulVec z' i := mulVec_agree h h' hs (fun _ _ => rfl) i hi
        rw [e1, Matrix.mulVec_sub, Pi.sub_apply, e2, hz i hi, sub_self, mul_zero]
      · simp only [if_neg hi, zero_mul]
    rw [h2] at h1
    exact lt_irrefl _ h1
  intro i hi
  have := congrFun h0 i
  simp only [if_pos hi, Pi.zero_apply] at this
  exact sub_eq_zero.1 this

end smoothers

section cycles

variable {K : Type} [Field K] {dims : ℕ → ℕ}

/-- Cycles of two hierarchies whose components are the same in the part. -/
theorem cycle_agree (S : ∀ l, Set (Fin (dims l))) (D D' : Data K (fun l => Fin (dims l) → K))
    (hA : ∀ l x x', AgreeOn (S l) x x' → AgreeOn (S l) (D.A l x) (D'.A l x'))
    (hB : ∀ l x x', AgreeOn (S l) x x' → AgreeOn (S l) (D.B l x) (D'.B l x'))
    (hR : ∀ l x x', AgreeOn (S l) x x' → AgreeOn (S (l + 1)) (D.R l x) (D'.R l x'))
    (hP : ∀ l x x', AgreeOn (S (l + 1)) x x' → AgreeOn (S l) (D.P l x) (D'.P l x'))
    (hC : ∀ l x x', AgreeOn (S l) x x' → AgreeOn (S l) (D.C l x) (D'.C l x')) (n d l : ℕ)
    {b b' x x' : Fin (dims l) → K} (hb : AgreeOn (S l) b b') (hx : AgreeOn (S l) x x') :
    AgreeOn (S l) (cycle D n d l b x) (cycle D' n d l b' x') := by
  induction d generalizing l with
  | zero => exact hC l _ _ hb
  | succ d ih =>
    have hsm : ∀ k (x x' : Fin (dims l) → K), AgreeOn (S l) x x' →
        AgreeOn (S l) ((richardson D l b)^[k] x) ((richardson D' l b')^[k] x') := by
      intro k
      induction k with
      | zero => exact fun x x' h => h
      | succ k ihk =>
        intro x x' h
        rw [Function.iterate_succ_apply, Function.iterate_succ_apply]
        exact ihk _ _ (h.add (hB l _ _ (hb.sub (hA l _ _ h))))
    simp only [cycle]
    have h1 := hsm n x x' hx
    exact hsm n _ _ (h1.add (hP l _ _ (ih (l + 1) (hR l _ _ (hb.sub (hA l _ _ h1))) (fun _ _ => rfl))))

end cycles

end Mfmg
