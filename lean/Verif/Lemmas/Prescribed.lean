import Verif.Spec.Prescribed
import Verif.Spec.Relaxation
import Verif.Lemmas.Restriction
import Verif.Model.Ilu
import Verif.Model.Chebyshev
import Mathlib.Algebra.BigOperators.Fin
import Mathlib.LinearAlgebra.Matrix.NonsingularInverse

/-!
# Smoothers and coarse matrices respect unknowns that are not coupled to the others
-/

set_option autoImplicit false

namespace Mfmg

open Finset

section

variable {K : Type} [Field K] {m n : ℕ}

open Classical in
/-- The part of a vector on `S`. -/
noncomputable def partOn (S : Set (Fin n)) : (Fin n → K) →ₗ[K] (Fin n → K) where
  toFun := fun v i => if i ∈ S then v i else 0
  map_add' := by
    intro v w
    funext i
    by_cases h : i ∈ S <;> simp [h]
  map_smul' := by
    intro c v
    funext i
    by_cases h : i ∈ S <;> simp [h]

theorem partOn_mem {S : Set (Fin n)} {i : Fin n} (h : i ∈ S) (v : Fin n → K) : partOn S v i = v i := by
  classical
  exact if_pos h

theorem partOn_not_mem {S : Set (Fin n)} {i : Fin n} (h : i ∉ S) (v : Fin n → K) : partOn S v i = 0 := by
  classical
  exact if_neg h

theorem partOn_eq_iff {S : Set (Fin n)} (v w : Fin n → K) : partOn S v = partOn S w ↔ AgreeOn S v w := by
  constructor
  · intro h i hi
    have := congrFun h i
    rwa [partOn_mem hi, partOn_mem hi] at this
  · intro h
    funext i
    by_cases hi : i ∈ S
    · rw [partOn_mem hi, partOn_mem hi, h i hi]
    · rw [partOn_not_mem hi, partOn_not_mem hi]

theorem partOn_update {S : Set (Fin n)} (v : Fin n → K) (i : Fin n) (a : K) :
    partOn S (Function.update v i a) = Function.update (partOn S v) i (partOn S (fun _ => a) i) := by
  funext j
  by_cases hj : j ∈ S
  · rw [partOn_mem hj]
    by_cases h : j = i
    · subst h; simp [partOn_mem hj]
    · simp [h, partOn_mem hj]
  · rw [partOn_not_mem hj]
    by_cases h : j = i
    · subst h; simp [partOn_not_mem hj]
    · simp [h, partOn_not_mem hj]

/-- Rows of `M` inside `S'` see only `S`, rows outside only the rest. -/
theorem partOn_mulVec {M : Matrix (Fin m) (Fin n) K} {S' : Set (Fin m)} {S : Set (Fin n)}
    (h : Separates M S' S) (v : Fin n → K) : M.mulVec (partOn S v) = partOn S' (M.mulVec v) := by
  funext j
  by_cases hj : j ∈ S'
  · rw [partOn_mem hj]
    simp only [Matrix.mulVec, dotProduct]
    refine Finset.sum_congr rfl fun x _ => ?_
    by_cases hx : x ∈ S
    · rw [partOn_mem hx]
    · rw [partOn_not_mem hx]
      by_cases h0 : M j x = 0
      · rw [h0, zero_mul, zero_mul]
      · exact absurd ((h j x h0).1 hj) hx
  · rw [partOn_not_mem hj]
    simp only [Matrix.mulVec, dotProduct]
    refine Finset.sum_eq_zero fun x _ => ?_
    by_cases hx : x ∈ S
    · by_cases h0 : M j x = 0
      · rw [h0, zero_mul]
      · exact absurd ((h j x h0).2 hx) hj
    · rw [partOn_not_mem hx, mul_zero]

theorem separates_of_notCoupled {A : Matrix (Fin n) (Fin n) K} {S : Set (Fin n)} (h : NotCoupled A S) :
    Separates A S S := by
  intro i j h0
  constructor
  · intro hi
    by_contra hj
    exact h0 (h i hi j hj).1
  · intro hj
    by_contra hi
    exact h0 (h j hj i hi).2

theorem notCoupled_of_separates {A : Matrix (Fin n) (Fin n) K} {S : Set (Fin n)} (h : Separates A S S) :
    NotCoupled A S := by
  intro i hi j hj
  constructor
  · by_contra h0
    exact hj ((h i j h0).1 hi)
  · by_contra h0
    exact hj ((h j i h0).2 hi)

theorem separates_transpose {M : Matrix (Fin m) (Fin n) K} {S' : Set (Fin m)} {S : Set (Fin n)}
    (h : Separates M S' S) : Separates M.transpose S S' := fun x j h0 => (h j x h0).symm

theorem separates_mul {k : ℕ} {M : Matrix (Fin k) (Fin m) K} {N : Matrix (Fin m) (Fin n) K}
    {S'' : Set (Fin k)} {S' : Set (Fin m)} {S : Set (Fin n)} (h : Separates M S'' S') (h' : Separates N S' S) :
    Separates (M * N) S'' S := by
  intro i j h0
  rw [Matrix.mul_apply] at h0
  obtain ⟨x, _, hx⟩ := Finset.exists_ne_zero_of_sum_ne_zero h0
  exact (h i x (left_ne_zero_of_mul hx)).trans (h' x j (right_ne_zero_of_mul hx))

theorem coarseMatrix_notCoupled (dims : ℕ → ℕ) (A : Matrix (Fin (dims 0)) (Fin (dims 0)) K)
    (R : ∀ l, Matrix (Fin (dims (l + 1))) (Fin (dims l)) K) (S : ∀ l, Set (Fin (dims l)))
    (hA : NotCoupled A (S 0)) (hR : ∀ l, Separates (R l) (S (l + 1)) (S l)) (l : ℕ) :
    NotCoupled (coarseMatrix dims A R l) (S l) := by
  induction l with
  | zero => exact hA
  | succ l ih =>
    apply notCoupled_of_separates
    exact separates_mul (separates_mul (hR l) (separates_of_notCoupled ih)) (separates_transpose (hR l))

theorem partOn_inv {A : Matrix (Fin n) (Fin n) K} {S : Set (Fin n)} (h : NotCoupled A S) (hdet : A.det ≠ 0)
    (v : Fin n → K) : A⁻¹.mulVec (partOn S v) = partOn S (A⁻¹.mulVec v) := by
  have hu : IsUnit A.det := isUnit_iff_ne_zero.2 hdet
  have h1 : A.mulVec (partOn S (A⁻¹.mulVec v)) = partOn S v := by
    rw [partOn_mulVec (separates_of_notCoupled h), Matrix.mulVec_mulVec, Matrix.mul_nonsing_inv _ hu,
      Matrix.one_mulVec]
  rw [← h1, Matrix.mulVec_mulVec, Matrix.nonsing_inv_mul _ hu, Matrix.one_mulVec]

/-- A sum over a row of the matrix. -/
theorem partOn_rowSum {A : Matrix (Fin n) (Fin n) K} {S : Set (Fin n)} (h : NotCoupled A S)
    (own : List (Fin n)) (x : Fin n → K) (i : Fin n) :
    (own.map fun j => A i j * partOn S x j).sum = partOn S (fun i => (own.map fun j => A i j * x j).sum) i := by
  have hs := separates_of_notCoupled h
  by_cases hi : i ∈ S
  · rw [partOn_mem hi]
    congr 1
    apply List.map_congr_left
    intro j _
    by_cases hj : j ∈ S
    · rw [partOn_mem hj]
    · rw [(h i hi j hj).1, zero_mul, zero_mul]
  · rw [partOn_not_mem hi]
    apply List.sum_eq_zero
    intro a ha
    obtain ⟨j, _, rfl⟩ := List.mem_map.1 ha
    by_cases hj : j ∈ S
    · rw [(h j hj i hi).2, zero_mul]
    · rw [partOn_not_mem hj, mul_zero]

theorem relaxRow_partOn {A : Matrix (Fin n) (Fin n) K} {S : Set (Fin n)} (h : NotCoupled A S)
    (own : List (Fin n)) (b x : Fin n → K) (i : Fin n) :
    relaxRow A own (partOn S b) (partOn S x) i = partOn S (relaxRow A own b x i) := by
  simp only [relaxRow]
  rw [partOn_update, partOn_rowSum h]
  congr 1
  by_cases hi : i ∈ S
  · simp only [partOn_mem hi]
  · simp only [partOn_not_mem hi]
    simp

theorem sweep_partOn {A : Matrix (Fin n) (Fin n) K} {S : Set (Fin n)} (h : NotCoupled A S)
    (own : List (Fin n)) (b : Fin n → K) (rows : List (Fin n)) (x : Fin n → K) :
    rows.foldl (relaxRow A own (partOn S b)) (partOn S x) = partOn S (rows.foldl (relaxRow A own b) x) := by
  induction rows generalizing x with
  | nil => rfl
  | cons i rows ih => rw [List.foldl_cons, List.foldl_cons, relaxRow_partOn h, ih]

theorem partOn_sum {S : Set (Fin n)} {ι : Type} (l : List ι) (f : ι → Fin n → K) (i : Fin n) :
    (l.map fun o => partOn S (f o) i).sum = partOn S (fun i => (l.map fun o => f o i).sum) i := by
  by_cases hi : i ∈ S
  · simp only [partOn_mem hi]
  · simp only [partOn_not_mem hi]
    simp

theorem relaxVmult_partOn {A : Matrix (Fin n) (Fin n) K} {S : Set (Fin n)} (h : NotCoupled A S)
    (kind : Relaxation) (procs : List (List (Fin n))) (r : Fin n → K) :
    relaxVmult kind A procs (partOn S r) = partOn S (relaxVmult kind A procs r) := by
  have hl : ∀ own, localVmult kind A own (partOn S r) = partOn S (localVmult kind A own r) := by
    intro own
    cases kind
    · have := sweep_partOn h own r (own ++ own.reverse) 0
      rw [map_zero] at this
      exact this
    · have := sweep_partOn h own r own 0
      rw [map_zero] at this
      exact this
    · funext i
      simp only [localVmult]
      by_cases hi : i ∈ S
      · simp only [partOn_mem hi]
      · simp only [partOn_not_mem hi, zero_div, ite_self]
  funext i
  simp only [relaxVmult, hl]
  exact partOn_sum procs (fun own => localVmult kind A own r) i

theorem iluFactor_notCoupled {S : Set (Fin n)} (graph : Fin n → Fin n → Bool) (own : List (Fin n))
    {F : Matrix (Fin n) (Fin n) K} (h : NotCoupled F S) : NotCoupled (iluFactor graph own F) S := by
  induction own generalizing F with
  | nil => exact h
  | cons k rest ih =>
    apply ih
    intro i hi j hj
    simp only [iluStep, Matrix.of_apply, (h i hi j hj).1, (h i hi j hj).2]
    by_cases hk : k ∈ S
    · rw [(h k hk j hj).1, (h k hk j hj).2]
      simp
    · rw [(h i hi k hk).1, (h i hi k hk).2]
      simp

theorem iluForward_partOn {F : Matrix (Fin n) (Fin n) K} {S : Set (Fin n)} (h : NotCoupled F S)
    (own : List (Fin n)) (r : Fin n → K) :
    iluForward F own (partOn S r) = partOn S (iluForward F own r) := by
  induction own generalizing r with
  | nil => rfl
  | cons k rest ih =>
    rw [iluForward, iluForward, ← ih]
    congr 1
    funext i
    by_cases hi : i ∈ S
    · rw [partOn_mem hi, partOn_mem hi]
      by_cases hk : k ∈ S
      · rw [partOn_mem hk]
      · rw [(h i hi k hk).1]
        simp
    · rw [partOn_not_mem hi, partOn_not_mem hi]
      by_cases hk : k ∈ S
      · rw [(h k hk i hi).2]
        simp
      · rw [partOn_not_mem hk]
        simp

theorem iluBackward_partOn {F : Matrix (Fin n) (Fin n) K} {S : Set (Fin n)} (h : NotCoupled F S)
    (own : List (Fin n)) (y : Fin n → K) :
    iluBackward F own (partOn S y) = partOn S (iluBackward F own y) := by
  induction own with
  | nil => exact (map_zero _).symm
  | cons k rest ih =>
    simp only [iluBackward]
    rw [ih, partOn_update, partOn_rowSum h]
    congr 1
    by_cases hk : k ∈ S
    · simp only [partOn_mem hk]
    · simp only [partOn_not_mem hk]
      simp

theorem iluVmult_partOn {A : Matrix (Fin n) (Fin n) K} {S : Set (Fin n)} (h : NotCoupled A S)
    (graph : Fin n → Fin n → Bool) (procs : List (List (Fin n))) (r : Fin n → K) :
    iluVmult graph A procs (partOn S r) = partOn S (iluVmult graph A procs r) := by
  funext i
  refine Eq.trans ?_ (partOn_sum procs (fun own => iluLocal graph A own r) i)
  simp only [iluVmult, iluLocal]
  congr 1
  apply List.map_congr_left
  intro own _
  have hF := iluFactor_notCoupled graph own h
  rw [iluForward_partOn hF, iluBackward_partOn hF]

theorem chebyshevVmult_partOn [LinearOrder K] {A : Matrix (Fin n) (Fin n) K} {S : Set (Fin n)}
    (h : NotCoupled A S) (s : ChebyshevSettings K) (auto : ℕ) (ritz : List K) (dinv r : Fin n → K) :
    chebyshevVmult s auto ritz A.mulVec dinv (partOn S r)
      = partOn S (chebyshevVmult s auto ritz A.mulVec dinv r) := by
  have hP : ∀ v : Fin n → K, (fun i => dinv i * partOn S v i) = partOn S (fun i => dinv i * v i) := by
    intro v
    funext i
    by_cases hi : i ∈ S
    · simp only [partOn_mem hi]
    · simp only [partOn_not_mem hi, mul_zero]
  have hloop : ∀ (delta sigma : K) k xold x rho,
      chebyshevLoop A.mulVec (fun v i => dinv i * v i) (partOn S r) delta sigma k
          (partOn S xold) (partOn S x) rho
        = partOn S (chebyshevLoop A.mulVec (fun v i => dinv i * v i) r delta sigma k xold x rho) := by
    intro delta sigma k
    induction k with
    | zero => intros; rfl
    | succ k ih =>
      intro xold x rho
      simp only [chebyshevLoop]
      rw [partOn_mulVec (separates_of_notCoupled h), ← ih, ← map_sub, ← map_sub, hP, ← map_smul, ← map_smul,
        ← map_add, ← map_add]
  simp only [chebyshevVmult, hP]
  rw [← map_smul]
  split_ifs <;> first | rfl | (rw [← hloop, map_zero])

theorem extend_getElem {dofs : List ℕ} {v : List K} (hn : dofs.Nodup) (hl : v.length = dofs.length) {i x : ℕ}
    (hi : dofs[i]? = some x) : extend dofs v x = v.getD i 0 := by
  induction dofs generalizing v i with
  | nil => simp at hi
  | cons d ds ih =>
    cases v with
    | nil => simp at hl
    | cons a v =>
      rw [extend_cons]
      cases i with
      | zero =>
        simp only [List.getElem?_cons_zero, Option.some.injEq] at hi
        simp [hi]
      | succ i =>
        rw [List.getElem?_cons_succ] at hi
        have hne : x ≠ d := by
          rintro rfl
          exact (List.nodup_cons.1 hn).1 (List.mem_of_getElem? hi)
        rw [if_neg hne, ih (List.nodup_cons.1 hn).2 (by simpa using hl) hi]
        simp

/-! ## A single unknown -/

theorem alone_rowSum {A : Matrix (Fin n) (Fin n) K} {c : Fin n} (h : Alone A c) {own : List (Fin n)}
    (hn : own.Nodup) (x : Fin n → K) :
    (own.map fun j => A c j * x j).sum = if c ∈ own then A c c * x c else 0 := by
  induction own with
  | nil => simp
  | cons k rest ih =>
    rw [List.map_cons, List.sum_cons, ih (List.nodup_cons.1 hn).2]
    by_cases hk : k = c
    · subst hk
      rw [if_neg (List.nodup_cons.1 hn).1, if_pos List.mem_cons_self, add_zero]
    · rw [(h k hk).1, zero_mul, zero_add]
      have : c ∈ k :: rest ↔ c ∈ rest := by
        rw [List.mem_cons]
        exact ⟨fun h => h.resolve_left (fun h => hk h.symm), Or.inr⟩
      by_cases hc : c ∈ rest
      · rw [if_pos hc, if_pos (this.2 hc)]
      · rw [if_neg hc, if_neg (fun h => hc (this.1 h))]

theorem sweep_alone {A : Matrix (Fin n) (Fin n) K} {c : Fin n} (h : Alone A c) (h0 : A c c ≠ 0)
    {own : List (Fin n)} (hn : own.Nodup) (r : Fin n → K) (rows : List (Fin n)) (hrows : ∀ i ∈ rows, i ∈ own)
    (x : Fin n → K) :
    rows.foldl (relaxRow A own r) x c = if c ∈ rows then r c / A c c else x c := by
  induction rows generalizing x with
  | nil => simp
  | cons i rows ih =>
    rw [List.foldl_cons, ih (fun j hj => hrows j (List.mem_cons_of_mem _ hj))]
    by_cases hi : i = c
    · subst hi
      rw [if_pos List.mem_cons_self]
      simp only [relaxRow, Function.update_self]
      rw [alone_rowSum h hn, if_pos (hrows i List.mem_cons_self)]
      split_ifs
      · rfl
      · field_simp
        ring
    · have h1 : relaxRow A own r x i c = x c := by
        simp only [relaxRow]
        rw [Function.update_of_ne (fun h => hi h.symm)]
      have h2 : c ∈ i :: rows ↔ c ∈ rows := by
        rw [List.mem_cons]
        exact ⟨fun h => h.resolve_left (fun h => hi h.symm), Or.inr⟩
      rw [h1]
      simp only [h2]

theorem sum_single_proc {procs : List (List (Fin n))} (hp : ListsAll procs.flatten) (c : Fin n) (a : K)
    (f : List (Fin n) → K) (hf : ∀ own ∈ procs, f own = if c ∈ own then a else 0) :
    (procs.map f).sum = a := by
  obtain ⟨hnd, hall⟩ := hp
  have hc := hall c
  clear hall
  induction procs with
  | nil => simp at hc
  | cons own procs ih =>
    rw [List.map_cons, List.sum_cons, hf own List.mem_cons_self]
    rw [List.flatten_cons] at hnd hc
    have hd := List.disjoint_of_nodup_append hnd
    by_cases ho : c ∈ own
    · rw [if_pos ho]
      have : (procs.map f).sum = 0 := by
        apply List.sum_eq_zero
        intro x hx
        obtain ⟨o, ho', rfl⟩ := List.mem_map.1 hx
        rw [hf o (List.mem_cons_of_mem _ ho'), if_neg]
        intro hco
        exact hd ho (List.mem_flatten.2 ⟨o, ho', hco⟩)
      rw [this, add_zero]
    · rw [if_neg ho, zero_add]
      refine ih (fun o h => hf o (List.mem_cons_of_mem _ h)) (List.Nodup.of_append_right hnd) ?_
      exact (List.mem_append.1 hc).resolve_left ho

theorem nodup_of_mem {procs : List (List (Fin n))} (hp : ListsAll procs.flatten) {own : List (Fin n)}
    (h : own ∈ procs) : own.Nodup :=
  (List.nodup_flatten.1 hp.1).1 own h

theorem relaxVmult_alone {A : Matrix (Fin n) (Fin n) K} {c : Fin n} (h : Alone A c) (h0 : A c c ≠ 0)
    (kind : Relaxation) {procs : List (List (Fin n))} (hp : ListsAll procs.flatten) (r : Fin n → K) :
    relaxVmult kind A procs r c = r c / A c c := by
  refine sum_single_proc hp c _ _ fun own ho => ?_
  have hn := nodup_of_mem hp ho
  cases kind
  · change (own ++ own.reverse).foldl (relaxRow A own r) 0 c = _
    rw [sweep_alone h h0 hn r _ (by simp)]
    simp
  · change own.foldl (relaxRow A own r) 0 c = _
    rw [sweep_alone h h0 hn r _ (by simp)]
    simp
  · rfl

theorem iluFactor_alone {c : Fin n} (graph : Fin n → Fin n → Bool) (own : List (Fin n)) (hn : own.Nodup)
    {F : Matrix (Fin n) (Fin n) K} (h : Alone F c) :
    Alone (iluFactor graph own F) c ∧ iluFactor graph own F c c = F c c := by
  induction own generalizing F with
  | nil => exact ⟨h, rfl⟩
  | cons k rest ih =>
    have hstep : ∀ j, iluStep graph k rest F c j = F c j ∧ iluStep graph k rest F j c = F j c := by
      intro j
      simp only [iluStep, Matrix.of_apply]
      by_cases hk : k = c
      · subst hk
        have := (List.nodup_cons.1 hn).1
        simp [this]
      · rw [(h k hk).1, (h k hk).2]
        simp
    have h' : Alone (iluStep graph k rest F) c := by
      intro j hj
      rw [(hstep j).1, (hstep j).2]
      exact h j hj
    obtain ⟨h1, h2⟩ := ih (List.nodup_cons.1 hn).2 h'
    exact ⟨h1, h2.trans (hstep c).1⟩

theorem iluForward_alone {F : Matrix (Fin n) (Fin n) K} {c : Fin n} (h : Alone F c) (own : List (Fin n))
    (hn : own.Nodup) (r : Fin n → K) : iluForward F own r c = r c := by
  induction own generalizing r with
  | nil => rfl
  | cons k rest ih =>
    rw [iluForward, ih (List.nodup_cons.1 hn).2]
    by_cases hk : k = c
    · subst hk
      rw [if_neg (List.nodup_cons.1 hn).1]
    · rw [(h k hk).1]
      simp

theorem iluBackward_alone {F : Matrix (Fin n) (Fin n) K} {c : Fin n} (h : Alone F c) (own : List (Fin n))
    (hn : own.Nodup) (y : Fin n → K) :
    iluBackward F own y c = if c ∈ own then y c / F c c else 0 := by
  induction own with
  | nil => rfl
  | cons k rest ih =>
    simp only [iluBackward]
    by_cases hk : k = c
    · subst hk
      rw [Function.update_self, alone_rowSum h (List.nodup_cons.1 hn).2, if_neg (List.nodup_cons.1 hn).1,
        if_pos List.mem_cons_self, sub_zero]
    · rw [Function.update_of_ne (fun h => hk h.symm), ih (List.nodup_cons.1 hn).2]
      have : c ∈ k :: rest ↔ c ∈ rest := by
        rw [List.mem_cons]
        exact ⟨fun h => h.resolve_left (fun h => hk h.symm), Or.inr⟩
      simp only [this]

theorem iluVmult_alone {A : Matrix (Fin n) (Fin n) K} {c : Fin n} (h : Alone A c)
    (graph : Fin n → Fin n → Bool) {procs : List (List (Fin n))} (hp : ListsAll procs.flatten) (r : Fin n → K) :
    iluVmult graph A procs r c = r c / A c c := by
  refine sum_single_proc hp c _ _ fun own ho => ?_
  have hn := nodup_of_mem hp ho
  obtain ⟨h1, h2⟩ := iluFactor_alone graph own hn h
  rw [iluLocal, iluBackward_alone h1 own hn, iluForward_alone h1 own hn, h2]

theorem alone_mulVec {A : Matrix (Fin n) (Fin n) K} {c : Fin n} (h : Alone A c) (x : Fin n → K) :
    A.mulVec x c = A c c * x c := by
  rw [Matrix.mulVec, dotProduct, Finset.sum_eq_single c]
  · intro j _ hj
    rw [(h j hj).1, zero_mul]
  · simp

end

end Mfmg
