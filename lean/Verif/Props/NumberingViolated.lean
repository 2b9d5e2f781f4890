import Verif.Props.Numbering

/-!
# Which smoothers depend on the processes and on the order of the unknowns (C90)
-/

set_option autoImplicit false

namespace Mfmg

section

variable {K : Type} [Field K] {n : ℕ}

theorem split_map_sum {a b : List (Fin n)} {k : Fin n} (f : Fin n → K) :
    ((a ++ k :: b).map f).sum = f k + (a.map f).sum + (b.map f).sum := by
  simp only [List.map_append, List.map_cons, List.sum_append, List.sum_cons]
  ring

/-- A forward sweep from zero solves with the lower triangle. -/
theorem gs_equation (A : Matrix (Fin n) (Fin n) K) (a b : List (Fin n)) (k : Fin n)
    (hown : (a ++ k :: b).Nodup) (hd : A k k ≠ 0) (r : Fin n → K) :
    A k k * localVmult .gaussSeidel A (a ++ k :: b) r k
      + (a.map fun j => A k j * localVmult .gaussSeidel A (a ++ k :: b) r j).sum = r k := by
  have h := sweep_row A hown r 0 a b k (by simp) hown hd
  simp only [localVmult]
  generalize (a ++ k :: b).foldl (relaxRow A (a ++ k :: b) r) 0 = y at h ⊢
  rw [split_map_sum] at h
  have hmem := List.nodup_append.1 hown
  have hcons := List.nodup_cons.1 hmem.2.1
  have hb : (b.map fun j => A k j * if j ∈ b then (0 : Fin n → K) j else y j)
      = b.map fun _ => (0 : K) := by
    apply List.map_congr_left
    intro j hj
    simp [hj]
  have ha : (a.map fun j => A k j * if j ∈ b then (0 : Fin n → K) j else y j)
      = a.map fun j => A k j * y j := by
    apply List.map_congr_left
    intro j hj
    rw [if_neg fun h' => hmem.2.2 j hj j (by simp [h']) rfl]
  rw [ha, hb, if_neg hcons.1] at h
  simpa using h

/-- A forward and a backward sweep. -/
theorem sgs_equation (A : Matrix (Fin n) (Fin n) K) (a b : List (Fin n)) (k : Fin n)
    (hown : (a ++ k :: b).Nodup) (hd : A k k ≠ 0) (r : Fin n → K) :
    A k k * localVmult .symmetricGaussSeidel A (a ++ k :: b) r k
      + (a.map fun j => A k j * localVmult .gaussSeidel A (a ++ k :: b) r j).sum
      + (b.map fun j => A k j * localVmult .symmetricGaussSeidel A (a ++ k :: b) r j).sum = r k := by
  simp only [localVmult]
  rw [List.foldl_append]
  generalize (a ++ k :: b).foldl (relaxRow A (a ++ k :: b) r) 0 = y
  have hrev : (a ++ k :: b).reverse = b.reverse ++ k :: a.reverse := by simp
  rw [hrev]
  have hnd : (b.reverse ++ k :: a.reverse).Nodup := by rw [← hrev]; exact List.nodup_reverse.2 hown
  have h := sweep_row A hown r y b.reverse a.reverse k (by simp) hnd hd
  generalize (b.reverse ++ k :: a.reverse).foldl (relaxRow A (a ++ k :: b) r) y = z at h ⊢
  rw [split_map_sum] at h
  have hmem := List.nodup_append.1 hown
  have hka : k ∉ a := fun h' => hmem.2.2 k h' k (by simp) rfl
  have ha : (a.map fun j => A k j * if j ∈ a.reverse then y j else z j) = a.map fun j => A k j * y j := by
    apply List.map_congr_left
    intro j hj
    simp [hj]
  have hb : (b.map fun j => A k j * if j ∈ a.reverse then y j else z j) = b.map fun j => A k j * z j := by
    apply List.map_congr_left
    intro j hj
    rw [if_neg]
    rw [List.mem_reverse]
    exact fun h' => hmem.2.2 j h' j (by simp [hj]) rfl
  rw [ha, hb, if_neg (by simpa using hka)] at h
  exact h

/-- If the result of the two sweeps is a unit vector, the right-hand side is known in that row. -/
theorem sgs_single (A : Matrix (Fin n) (Fin n) K) (hA : A.transpose = A) (hd : ∀ i, A i i ≠ 0)
    (a b : List (Fin n)) (k : Fin n) (hown : (a ++ k :: b).Nodup) (r : Fin n → K)
    (hz : ∀ i ∈ a ++ k :: b, localVmult .symmetricGaussSeidel A (a ++ k :: b) r i = if i = k then 1 else 0) :
    r k = A k k + (a.map fun j => A k j * A k j / A j j).sum := by
  have hsym : ∀ i j, A i j = A j i := fun i j => by
    conv_lhs => rw [← hA]
    rfl
  have hy : ∀ a' b' i, a' ++ i :: b' = a ++ k :: b →
      A i i * localVmult .gaussSeidel A (a ++ k :: b) r i
        = A i i * (if i = k then 1 else 0) + (b'.map fun j => A i j * if j = k then 1 else 0).sum := by
    intro a' b' i he
    have hnd : (a' ++ i :: b').Nodup := by rw [he]; exact hown
    have h1 := gs_equation A a' b' i hnd (hd i) r
    have h2 := sgs_equation A a' b' i hnd (hd i) r
    rw [he] at h1 h2
    have hb : (b'.map fun j => A i j * localVmult .symmetricGaussSeidel A (a ++ k :: b) r j)
        = b'.map fun j => A i j * if j = k then 1 else 0 := by
      apply List.map_congr_left
      intro j hj
      rw [hz j (by rw [← he]; simp [hj])]
    rw [hb, hz i (by rw [← he]; simp)] at h2
    linear_combination h1 - h2
  have hmem := List.nodup_append.1 hown
  have hcons := List.nodup_cons.1 hmem.2.1
  have hyk : localVmult .gaussSeidel A (a ++ k :: b) r k = 1 := by
    have h := hy a b k rfl
    have hb : (b.map fun j => A k j * if j = k then (1 : K) else 0) = b.map fun _ => (0 : K) := by
      apply List.map_congr_left
      intro j hj
      have hjk : j ≠ k := fun e => hcons.1 (e ▸ hj)
      rw [if_neg hjk, mul_zero]
    rw [hb] at h
    simp only [if_true, mul_one, List.map_const', List.sum_replicate, smul_zero, add_zero] at h
    exact mul_left_cancel₀ (hd k) (h.trans (mul_one _).symm)
  have hya : ∀ j ∈ a, localVmult .gaussSeidel A (a ++ k :: b) r j = A j k / A j j := by
    intro j hj
    obtain ⟨a₁, a₂, rfl⟩ := List.append_of_mem hj
    have h := hy a₁ (a₂ ++ k :: b) j (by simp)
    have hjk : j ≠ k := fun e => hmem.2.2 j hj k (by simp) e
    have hnot : ∀ i ∈ a₂ ++ b, i ≠ k := by
      intro i hi e
      subst e
      rcases List.mem_append.1 hi with hi | hi
      · exact hmem.2.2 i (by simp [hi]) i (by simp) rfl
      · exact hcons.1 hi
    have hs : ((a₂ ++ k :: b).map fun i => A j i * if i = k then (1 : K) else 0).sum = A j k := by
      rw [split_map_sum]
      have h1 : (a₂.map fun i => A j i * if i = k then (1 : K) else 0) = a₂.map fun _ => (0 : K) :=
        List.map_congr_left fun i hi => by rw [if_neg (hnot i (by simp [hi])), mul_zero]
      have h2 : (b.map fun i => A j i * if i = k then (1 : K) else 0) = b.map fun _ => (0 : K) :=
        List.map_congr_left fun i hi => by rw [if_neg (hnot i (by simp [hi])), mul_zero]
      rw [h1, h2]
      simp
    rw [hs, if_neg hjk, mul_zero, zero_add] at h
    rw [eq_div_iff (hd j), mul_comm]
    exact h
  have h := gs_equation A a b k hown (hd k) r
  rw [hyk, mul_one] at h
  rw [← h]
  congr 2
  apply List.map_congr_left
  intro j hj
  rw [hya j hj, hsym j k, mul_div_assoc]

/-- The preconditioner of one process with symmetric Gauss-Seidel or Gauss-Seidel loses nothing. -/
theorem local_zero (A : Matrix (Fin n) (Fin n) K) (hd : ∀ i, A i i ≠ 0) (own : List (Fin n))
    (hown : own.Nodup) (kind : Relaxation) (r : Fin n → K)
    (hz : ∀ i ∈ own, localVmult kind A own r i = 0) : ∀ i ∈ own, r i = 0 := by
  intro i hi
  have hgs : (∀ i ∈ own, localVmult .gaussSeidel A own r i = 0) → r i = 0 := by
    intro hy
    obtain ⟨a, b, rfl⟩ := List.append_of_mem hi
    have h := gs_equation A a b i hown (hd i) r
    have ha : (a.map fun j => A i j * localVmult .gaussSeidel A (a ++ i :: b) r j) = a.map fun _ => (0 : K) :=
      List.map_congr_left fun j hj => by rw [hy j (by simp [hj]), mul_zero]
    rw [ha, hy i (by simp)] at h
    simpa using h.symm
  cases kind
  · apply hgs
    intro j hj
    obtain ⟨a, b, rfl⟩ := List.append_of_mem hj
    have h1 := gs_equation A a b j hown (hd j) r
    have h2 := sgs_equation A a b j hown (hd j) r
    have hb : (b.map fun i => A j i * localVmult .symmetricGaussSeidel A (a ++ j :: b) r i)
        = b.map fun _ => (0 : K) :=
      List.map_congr_left fun i hi => by rw [hz i (by simp [hi]), mul_zero]
    rw [hb, hz j (by simp)] at h2
    simp only [mul_zero, List.map_const', List.sum_replicate, smul_zero, add_zero, zero_add] at h2
    rw [h2, add_eq_right] at h1
    exact (mul_eq_zero.1 h1).resolve_left (hd j)
  · exact hgs hz
  · have := hz i hi
    simp only [localVmult, if_pos hi] at this
    exact (div_eq_zero_iff.1 this).resolve_right (hd i)

/-- Every vector is a result of the preconditioner. -/
theorem relax_surjective (A : Matrix (Fin n) (Fin n) K) (hd : ∀ i, A i i ≠ 0)
    {procs : List (List (Fin n))} (hprocs : ListsAll procs.flatten) (kind : Relaxation) (z : Fin n → K) :
    ∃ r, relaxVmult kind A procs r = z := by
  have hinj : Function.Injective (relaxLin kind A procs) := by
    rw [injective_iff_map_eq_zero]
    intro r hr
    funext i
    obtain ⟨own, ho, hi⟩ := List.mem_flatten.1 (hprocs.2 i)
    refine local_zero A hd own (procs_nodup hprocs ho) kind r (fun j hj => ?_) i hi
    rw [← relaxVmult_own kind A hprocs r ho hj]
    exact congrFun hr j
  exact LinearMap.surjective_of_injective hinj z

end

section

variable {K : Type} [Field K] [LinearOrder K] [IsStrictOrderedRing K] {n : ℕ}

/-- A vanishing sum of squares. -/
theorem weighted_squares {A : Matrix (Fin n) (Fin n) K} (hA : IsSpd A) (k : Fin n) (a : List (Fin n))
    (h : (a.map fun j => A k j * A k j / A j j).sum = 0) : ∀ j ∈ a, A k j = 0 := by
  have hnn : ∀ x ∈ a.map fun j => A k j * A k j / A j j, 0 ≤ x := by
    intro x hx
    obtain ⟨j, -, rfl⟩ := List.mem_map.1 hx
    exact div_nonneg (mul_self_nonneg _) (diag_pos hA j).le
  intro j hj
  have := List.all_zero_of_le_zero_le_of_sum_eq_zero hnn h (List.mem_map_of_mem hj)
  rw [div_eq_zero_iff] at this
  exact mul_self_eq_zero.1 (this.resolve_right (diag_pos hA j).ne')

omit [IsStrictOrderedRing K] in
theorem spd_symm {A : Matrix (Fin n) (Fin n) K} (hA : IsSpd A) (i j : Fin n) : A i j = A j i := by
  conv_lhs => rw [← hA.1]
  rfl

omit [IsStrictOrderedRing K] in
/-- Coupling between the rows of a list, from coupling with earlier rows. -/
theorem uncoupled_of_earlier {A : Matrix (Fin n) (Fin n) K} (hA : IsSpd A) (own : List (Fin n))
    (h : ∀ a k b, own = a ++ k :: b → ∀ j ∈ a, A k j = 0) :
    ∀ i ∈ own, ∀ j ∈ own, i ≠ j → A i j = 0 := by
  intro i hi j hj hij
  obtain ⟨a, b, rfl⟩ := List.append_of_mem hi
  rcases List.mem_append.1 hj with hj | hj
  · exact h a i b rfl j hj
  · obtain ⟨b₁, b₂, rfl⟩ := List.append_of_mem ((List.mem_cons.1 hj).resolve_left fun e => hij e.symm)
    rw [spd_symm hA]
    exact h (a ++ i :: b₁) j b₂ (by simp) i (by simp)

omit [LinearOrder K] [IsStrictOrderedRing K] in
/-- Without coupling every smoother divides by the diagonal. -/
theorem relax_uncoupled {A : Matrix (Fin n) (Fin n) K} (hd : ∀ i, A i i ≠ 0)
    {procs : List (List (Fin n))} (hprocs : ListsAll procs.flatten) (hun : UncoupledInside procs A)
    (kind : Relaxation) (r : Fin n → K) : relaxVmult kind A procs r = fun i => r i / A i i := by
  funext i
  obtain ⟨own, ho, hi⟩ := List.mem_flatten.1 (hprocs.2 i)
  rw [relaxVmult_own kind A hprocs r ho hi]
  have hnd := procs_nodup hprocs ho
  have hun' := hun own ho
  clear ho
  obtain ⟨a, b, rfl⟩ := List.append_of_mem hi
  have hmem := List.nodup_append.1 hnd
  have hcons := List.nodup_cons.1 hmem.2.1
  have ha : ∀ y : Fin n → K, (a.map fun j => A i j * y j) = a.map fun _ => (0 : K) := fun y =>
    List.map_congr_left fun j hj => by
      rw [hun' i (by simp) j (by simp [hj]) fun e => hmem.2.2 j hj i (by simp) e.symm, zero_mul]
  have hb : ∀ y : Fin n → K, (b.map fun j => A i j * y j) = b.map fun _ => (0 : K) := fun y =>
    List.map_congr_left fun j hj => by
      rw [hun' i (by simp) j (by simp [hj]) fun e => hcons.1 (e ▸ hj), zero_mul]
  rw [eq_div_iff (hd i), mul_comm]
  cases kind
  · have h := sgs_equation A a b i hnd (hd i) r
    rw [ha, hb] at h
    simpa using h
  · have h := gs_equation A a b i hnd (hd i) r
    rw [ha] at h
    simpa using h
  · simp only [localVmult, if_pos hi]
    rw [mul_div_cancel₀ _ (hd i)]

/-- **C90** is false for the smoothers that relax one row after the other: a smoothing step with a given
distribution gives what it gives with one row on each process only if no process owns two coupled rows. -/
theorem C90_processes_violated {A : Matrix (Fin n) (Fin n) K} (hA : IsSpd A) {procs : List (List (Fin n))}
    (hprocs : ListsAll procs.flatten) (kind : Relaxation) (hkind : kind ≠ .jacobi) :
    (∀ b x, dealiiSmootherApply kind procs (matrixOp A) b x
      = dealiiSmootherApply kind (oneRowEach n) (matrixOp A) b x) ↔ UncoupledInside procs A := by
  have hd := fun i => (diag_pos hA i).ne'
  have hone : UncoupledInside (oneRowEach n) A := by
    intro own ho i hi j hj hij
    obtain ⟨k, -, rfl⟩ := List.mem_map.1 ho
    rw [List.mem_singleton] at hi hj
    exact absurd (hi.trans hj.symm) hij
  have hent : entriesOf (matrixOp A) = A := by
    ext i j
    simp [entriesOf, matrixOp]
  have hfwd : (matrixOp A).fwd 0 = 0 := Matrix.mulVec_zero A
  constructor
  · intro h
    have hr : ∀ r, relaxVmult kind A procs r = fun i => r i / A i i := by
      intro r
      have h0 := h (-r) 0
      simp only [dealiiSmootherApply, hent, hfwd, sub_neg_eq_add, zero_add, zero_sub,
        neg_inj] at h0
      rw [h0]
      exact relax_uncoupled hd (oneRowEach_all n) hone kind r
    intro own ho
    have hnd := procs_nodup hprocs ho
    apply uncoupled_of_earlier hA
    rintro a k b rfl j hj
    have hunit : ∀ i ∈ a ++ k :: b, localVmult kind A (a ++ k :: b) (Pi.single k (A k k)) i
        = if i = k then 1 else 0 := by
      intro i hi
      rw [← relaxVmult_own kind A hprocs _ ho hi, hr]
      by_cases hik : i = k
      · subst hik
        simp [hd]
      · simp [hik]
    cases kind
    · have h1 := sgs_single A hA.1 hd a b k hnd _ hunit
      rw [Pi.single_eq_same, left_eq_add] at h1
      exact weighted_squares hA k a h1 j hj
    · have hunit' : ∀ i ∈ a ++ k :: b, localVmult .gaussSeidel A (a ++ k :: b) (Pi.single j (A j j)) i
          = if i = j then 1 else 0 := by
        intro i hi
        rw [← relaxVmult_own .gaussSeidel A hprocs _ ho hi, hr]
        by_cases hij : i = j
        · subst hij
          simp [hd]
        · simp [hij]
      have hmem := List.nodup_append.1 hnd
      have hkj : k ≠ j := fun e => hmem.2.2 j hj k (by simp) e.symm
      have h1 := gs_equation A a b k hnd (hd k) (Pi.single j (A j j))
      have ha : (a.map fun i => A k i * localVmult .gaussSeidel A (a ++ k :: b) (Pi.single j (A j j)) i)
          = a.map fun i => if i = j then A k j else 0 := by
        apply List.map_congr_left
        intro i hi
        rw [hunit' i (by simp [hi])]
        by_cases hij : i = j
        · subst hij; simp
        · simp [hij]
      rw [ha, hunit' k (by simp), if_neg hkj, mul_zero, zero_add, Pi.single_eq_of_ne hkj,
        ← List.sum_toFinset _ hmem.1, Finset.sum_ite_eq' a.toFinset j] at h1
      simpa [hj] using h1
    · exact absurd rfl hkind
  · intro hun b x
    simp only [dealiiSmootherApply, hent]
    rw [relax_uncoupled hd hprocs hun, relax_uncoupled hd (oneRowEach_all n) hone]

/-- **C90** is false for the order of the unknowns, too: if every process goes through its rows in the
reverse order, a smoothing step changes unless no process owns two coupled rows. -/
theorem C90_order_violated {A : Matrix (Fin n) (Fin n) K} (hA : IsSpd A) {procs : List (List (Fin n))}
    (hprocs : ListsAll procs.flatten) (kind : Relaxation) (hkind : kind ≠ .jacobi) :
    (∀ b x, dealiiSmootherApply kind procs (matrixOp A) b x
      = dealiiSmootherApply kind (procs.map List.reverse) (matrixOp A) b x) ↔ UncoupledInside procs A := by
  have hd := fun i => (diag_pos hA i).ne'
  have hrev : ListsAll (procs.map List.reverse).flatten := by
    constructor
    · rw [List.nodup_flatten]
      obtain ⟨h1, h2⟩ := List.nodup_flatten.1 hprocs.1
      refine ⟨?_, ?_⟩
      · intro l hl
        obtain ⟨own, ho, rfl⟩ := List.mem_map.1 hl
        exact List.nodup_reverse.2 (h1 own ho)
      · rw [List.pairwise_map]
        refine h2.imp ?_
        intro l l' h i hi hi'
        exact h (List.mem_reverse.1 hi) (List.mem_reverse.1 hi')
    · intro i
      obtain ⟨own, ho, hi⟩ := List.mem_flatten.1 (hprocs.2 i)
      exact List.mem_flatten.2 ⟨own.reverse, List.mem_map_of_mem ho, List.mem_reverse.2 hi⟩
  have hent : entriesOf (matrixOp A) = A := by
    ext i j
    simp [entriesOf, matrixOp]
  have hfwd : (matrixOp A).fwd 0 = 0 := Matrix.mulVec_zero A
  constructor
  · intro h
    have hr : ∀ r, relaxVmult kind A procs r = relaxVmult kind A (procs.map List.reverse) r := by
      intro r
      have h0 := h (-r) 0
      simp only [dealiiSmootherApply, hent, hfwd, sub_neg_eq_add, zero_add, zero_sub,
        neg_inj] at h0
      exact h0
    intro own ho
    have hnd := procs_nodup hprocs ho
    have ho' : own.reverse ∈ procs.map List.reverse := List.mem_map_of_mem ho
    have hunit : ∀ k, ∃ r, (∀ i ∈ own, localVmult kind A own r i = if i = k then 1 else 0) ∧
        ∀ i ∈ own, localVmult kind A own.reverse r i = if i = k then 1 else 0 := by
      intro k
      obtain ⟨r, hz⟩ := relax_surjective A hd hprocs kind (fun i => if i = k then 1 else 0)
      refine ⟨r, fun i hi => ?_, fun i hi => ?_⟩
      · rw [← relaxVmult_own kind A hprocs r ho hi, hz]
      · rw [← relaxVmult_own kind A hrev r ho' (List.mem_reverse.2 hi), ← hr, hz]
    cases kind
    · -- by induction over the list, every row is coupled neither with earlier nor with later rows
      have hrow : ∀ a k b, own = a ++ k :: b →
          (a.map fun j => A k j * A k j / A j j).sum = (b.map fun j => A k j * A k j / A j j).sum := by
        rintro a k b rfl
        obtain ⟨r, h1, h2⟩ := hunit k
        have e : (a ++ k :: b).reverse = b.reverse ++ k :: a.reverse := by simp
        have g1 := sgs_single A hA.1 hd a b k hnd r h1
        have g2 := sgs_single A hA.1 hd b.reverse a.reverse k (by rw [← e]; exact List.nodup_reverse.2 hnd) r
          (by
            intro i hi
            rw [← e]
            exact h2 i (by rw [← e] at hi; exact List.mem_reverse.1 hi))
        rw [List.map_reverse, List.sum_reverse] at g2
        exact add_left_cancel (g1.symm.trans g2)
      have hind : ∀ m, ∀ a k b, a.length = m → own = a ++ k :: b → ∀ j ∈ a, A k j = 0 := by
        intro m
        induction m using Nat.strong_induction_on with
        | _ m ih =>
          rintro a k b rfl he j hj
          obtain ⟨a₁, a₂, rfl⟩ := List.append_of_mem hj
          have he' : own = a₁ ++ j :: (a₂ ++ k :: b) := by rw [he]; simp
          have h1 := hrow a₁ j _ he'
          have h2 : (a₁.map fun i => A j i * A j i / A i i) = a₁.map fun _ => (0 : K) :=
            List.map_congr_left fun i hi => by
              rw [ih a₁.length (by simp) a₁ j _ rfl he' i hi]
              simp
          rw [h2] at h1
          have h3 : ((a₂ ++ k :: b).map fun i => A j i * A j i / A i i).sum = 0 := by
            rw [← h1]
            simp
          rw [spd_symm hA]
          exact weighted_squares hA j _ h3 k (by simp)
      exact uncoupled_of_earlier hA own fun a k b he => hind a.length a k b rfl he
    · apply uncoupled_of_earlier hA
      rintro a k b rfl j hj
      obtain ⟨r, h1, h2⟩ := hunit j
      have hmem := List.nodup_append.1 hnd
      have hkj : k ≠ j := fun e => hmem.2.2 j hj k (by simp) e.symm
      have hcons := List.nodup_cons.1 hmem.2.1
      have e : (a ++ k :: b).reverse = b.reverse ++ k :: a.reverse := by simp
      have g1 := gs_equation A a b k hnd (hd k) r
      have g2 := gs_equation A b.reverse a.reverse k (by rw [← e]; exact List.nodup_reverse.2 hnd) (hd k) r
      rw [← e] at g2
      have ha : (a.map fun i => A k i * localVmult .gaussSeidel A (a ++ k :: b) r i)
          = a.map fun i => if i = j then A k j else 0 := by
        apply List.map_congr_left
        intro i hi
        rw [h1 i (by simp [hi])]
        by_cases hij : i = j
        · subst hij; simp
        · simp [hij]
      have hb : (b.reverse.map fun i => A k i * localVmult .gaussSeidel A (a ++ k :: b).reverse r i)
          = b.reverse.map fun _ => (0 : K) := by
        apply List.map_congr_left
        intro i hi
        have hi' := List.mem_reverse.1 hi
        rw [h2 i (by simp [hi']), if_neg fun e => hmem.2.2 j hj i (by simp [hi']) e.symm, mul_zero]
      rw [ha, h1 k (by simp), if_neg hkj, mul_zero, zero_add, ← List.sum_toFinset _ hmem.1,
        Finset.sum_ite_eq' a.toFinset j, if_pos (List.mem_toFinset.2 hj)] at g1
      rw [hb, h2 k (by simp), if_neg hkj, mul_zero, zero_add] at g2
      rw [g1, ← g2]
      simp
    · exact absurd rfl hkind
  · intro hun b x
    have hun' : UncoupledInside (procs.map List.reverse) A := by
      intro own ho i hi j hj hij
      obtain ⟨own, ho', rfl⟩ := List.mem_map.1 ho
      exact hun own ho' i (List.mem_reverse.1 hi) j (List.mem_reverse.1 hj) hij
    simp only [dealiiSmootherApply, hent]
    rw [relax_uncoupled hd hprocs hun, relax_uncoupled hd hrev hun']

omit [LinearOrder K] [IsStrictOrderedRing K] in
/-- **C90** is false for incomplete factorisation: with a given distribution a smoothing step gives what it
gives with one row on each process only if no process owns two coupled rows. -/
theorem C90_ilu_violated {A : Matrix (Fin n) (Fin n) K} (hd : ∀ i, A i i ≠ 0) {procs : List (List (Fin n))}
    (hprocs : ListsAll procs.flatten) (graph : Fin n → Fin n → Bool) (hg : IsGraph graph A)
    (hpiv : ∀ own ∈ procs, ∀ k ∈ own, iluFactor graph own A k k ≠ 0)
    (h : ∀ b x, iluSmootherApply graph procs (matrixOp A) b x
      = iluSmootherApply graph (oneRowEach n) (matrixOp A) b x) : UncoupledInside procs A := by
  have hent : entriesOf (matrixOp A) = A := by
    ext i j
    simp [entriesOf, matrixOp]
  have hfwd : (matrixOp A).fwd 0 = 0 := Matrix.mulVec_zero A
  have hone : ∀ r, iluVmult graph A (oneRowEach n) r = fun i => r i / A i i := by
    intro r
    funext i
    simp only [iluVmult, oneRowEach, List.map_map, Function.comp_def, iluLocal, iluFactor, iluForward,
      iluBackward, List.map_nil, List.sum_nil, sub_zero]
    rw [← List.sum_toFinset _ (List.nodup_finRange n), Finset.sum_eq_single i]
    · simp [iluStep]
    · intro j _ hj
      rw [Function.update_of_ne hj.symm]
      rfl
    · intro hi
      exact absurd (List.mem_toFinset.2 (List.mem_finRange i)) hi
  obtain ⟨L, U, hLU, hsol⟩ := C88_factors graph procs hprocs A hg hpiv
  intro own ho i hi j hj hij
  by_contra hne
  have h1 := hLU.agrees own ho i hi j hj (hg.entry i j hne)
  have h2 := hsol (Pi.single j (A j j))
  have h3 : iluVmult graph A procs (Pi.single j (A j j)) = Pi.single j 1 := by
    have h0 := h (-(Pi.single j (A j j))) 0
    simp only [iluSmootherApply, hent, hfwd, sub_neg_eq_add, zero_add, zero_sub,
      neg_inj] at h0
    rw [h0, hone]
    funext k
    by_cases hk : k = j
    · subst hk; simp [hd]
    · simp [hk]
  rw [h3] at h2
  have h4 := congrFun h2 i
  rw [mulVec_single', mul_one, Pi.single_eq_of_ne hij] at h4
  exact hne (h1.symm.trans h4)

end

/-! ## A cycle that depends on the processes -/

/-- `[[2, -1], [-1, 2]]`. -/
def exCoupled : Matrix (Fin (twoDims 2 0)) (Fin (twoDims 2 0)) ℚ := Matrix.of fun i j => if i = j then 2 else -1

theorem exCoupled_spd : IsSpd exCoupled := by
  constructor
  · ext i j
    simp [exCoupled, eq_comm]
  · intro x hx
    have h : x ⬝ᵥ exCoupled.mulVec x
        = x (0 : Fin 2) ^ 2 + x (1 : Fin 2) ^ 2 + (x (0 : Fin 2) - x (1 : Fin 2)) ^ 2 := by
      change ∑ i : Fin 2, x i * ∑ j : Fin 2, exCoupled i j * x j = _
      simp only [Fin.sum_univ_two]
      have e0 : exCoupled (0 : Fin 2) (0 : Fin 2) = 2 := rfl
      have e1 : exCoupled (0 : Fin 2) (1 : Fin 2) = -1 := rfl
      have e2 : exCoupled (1 : Fin 2) (0 : Fin 2) = -1 := rfl
      have e3 : exCoupled (1 : Fin 2) (1 : Fin 2) = 2 := rfl
      rw [e0, e1, e2, e3]
      ring
    rw [h]
    by_contra hle
    apply hx
    have h0 : x (0 : Fin 2) = 0 := by
      generalize x (0 : Fin 2) = u at hle
      generalize x (1 : Fin 2) = v at hle
      nlinarith [sq_nonneg u, sq_nonneg v, sq_nonneg (u - v)]
    have h1 : x (1 : Fin 2) = 0 := by
      generalize x (0 : Fin 2) = u at hle
      generalize x (1 : Fin 2) = v at hle
      nlinarith [sq_nonneg u, sq_nonneg v, sq_nonneg (u - v)]
    funext i
    have : i = (0 : Fin 2) ∨ i = (1 : Fin 2) := by
      rcases i with ⟨i, hi⟩
      change i < 2 at hi
      rcases (by omega : i = 0 ∨ i = 1) with rfl | rfl
      · exact Or.inl rfl
      · exact Or.inr rfl
    rcases this with rfl | rfl
    · exact h0
    · exact h1

/-- The row `(1, 1)`. -/
def exAverage : ∀ l, Matrix (Fin (twoDims 2 (l + 1))) (Fin (twoDims 2 l)) ℚ := fun _ => Matrix.of fun _ _ => 1

theorem exAverage_independent (l : ℕ) : IndependentRows (exAverage l) := by
  intro y hy
  have hpos : 0 < twoDims 2 l := by cases l <;> simp [twoDims]
  funext i
  have h := congrFun hy ⟨0, hpos⟩
  change ∑ j : Fin 1, (1 : ℚ) * y j = 0 at h
  rw [Fin.sum_univ_one, one_mul] at h
  have : i = (0 : Fin 1) := Subsingleton.elim (α := Fin 1) _ _
  rw [this]
  exact h

/-- One process with all unknowns. -/
def exOneProc : ∀ l, List (List (Fin (twoDims 2 l))) := fun l => [List.finRange (twoDims 2 l)]

/-- The cycle with two levels for this problem, with preconditioner `B` of the smoother. -/
def exCycle (B : (Fin (twoDims 2 0) → ℚ) → Fin (twoDims 2 0) → ℚ) (b : Fin (twoDims 2 0) → ℚ) :
    Fin (twoDims 2 0) → ℚ :=
  let r := fun x => b - exCoupled.mulVec x
  let x := B b
  let x := x + fun _ => (r x (0 : Fin 2) + r x (1 : Fin 2)) / 2
  x + B (r x)

theorem exCycle_eq (D : Spec.Data ℚ (fun l => Fin (twoDims 2 l) → ℚ)) (hA : D.A 0 = exCoupled.mulVecLin)
    (hR : D.R 0 = (exAverage 0).mulVecLin) (hP : D.P 0 = (exAverage 0).transpose.mulVecLin)
    (hC : D.C 1 = (coarseMatrix (twoDims 2) exCoupled exAverage 1)⁻¹.mulVecLin) (b : Fin (twoDims 2 0) → ℚ) :
    Spec.cycle D 1 1 0 b 0 = exCycle (D.B 0) b := by
  have hinv : (coarseMatrix (twoDims 2) exCoupled exAverage 1)⁻¹
      = (Matrix.of fun _ _ => 1 / 2 : Matrix (Fin 1) (Fin 1) ℚ) := by
    apply Matrix.inv_eq_right_inv
    decide +kernel
  have hcoarse : ∀ r : Fin (twoDims 2 0) → ℚ, D.P 0 (D.C 1 (D.R 0 r))
      = fun _ => (r (0 : Fin 2) + r (1 : Fin 2)) / 2 := by
    intro r
    rw [hP, hC, hR, hinv]
    funext i
    change ∑ j : Fin 1, (1 : ℚ) * ∑ k : Fin 1, (1 / 2 : ℚ) * ∑ m : Fin 2, (1 : ℚ) * r m = _
    simp only [Fin.sum_univ_one, Fin.sum_univ_two]
    ring
  simp only [Spec.cycle, Function.iterate_one, Spec.richardson, map_zero, sub_zero, zero_add]
  rw [hcoarse, hA]
  rfl

/-- **C90** is false for whole cycles: with every smoother but Jacobi and the default parameters there is a
problem with two unknowns for which one process and two processes give different results. -/
theorem C90_cycle_violated (debug timer : Bool) (type : Option (List Char)) (k : SmootherKind)
    (hk : dealiiSmoother debug true type = .ok k) (hjacobi : k ≠ .jacobi)
    (solve : ∀ l, Matrix (Fin (twoDims 2 l)) (Fin (twoDims 2 l)) ℚ → (Fin (twoDims 2 l) → ℚ) →
      Fin (twoDims 2 l) → ℚ) (hsolve : ∀ l, SolvesExactly (solve l)) :
    ∃ H H' : Hierarchy (fun l => Fin (twoDims 2 l) → ℚ),
      (buildHierarchy debug timer (some {}) (.ok (fullHelpers debug type (twoDims 2) exOneProc
        (fun _ _ _ => true) exCoupled exAverage solve))).result = .ok H ∧
      (buildHierarchy debug timer (some {}) (.ok (fullHelpers debug type (twoDims 2)
        (fun l => oneRowEach (twoDims 2 l)) (fun _ _ _ => true) exCoupled exAverage solve))).result = .ok H' ∧
      ∃ b : Fin (twoDims 2 0) → ℚ, ∀ fresh fresh' x x', ∃ y y' : Fin (twoDims 2 0) → ℚ, (H.vmult fresh x b).result = .ok y ∧
        (H'.vmult fresh' x' b).result = .ok y' ∧ y ≠ y' := by
  cases hrel : k.relaxation with
  | some kind =>
    rw [fullHelpers_relaxation debug type k kind hk hrel, fullHelpers_relaxation debug type k kind hk hrel]
    obtain ⟨H, e, h1, h2, h3, h4⟩ := matrixHelpers_build debug timer {} type k kind hk hrel (twoDims 2) exOneProc
      exCoupled exCoupled_spd exAverage exAverage_independent solve hsolve (by decide) rfl
    obtain ⟨H', e', h1', h2', h3', h4'⟩ := matrixHelpers_build debug timer {} type k kind hk hrel (twoDims 2)
      (fun l => oneRowEach (twoDims 2 l)) exCoupled exCoupled_spd exAverage exAverage_independent solve hsolve
      (by decide) rfl
    refine ⟨H, H', e, e', fun i => if i.val = 0 then 2 else 0, fun fresh fresh' x x' => ⟨_, _,
      C04_cycle_is_textbook H _ h1 fresh x _ (Or.inl h3), C04_cycle_is_textbook H' _ h1' fresh' x' _ (Or.inl h3'),
      ?_⟩⟩
    rw [h2, h3, h4, h2', h3', h4']
    change Spec.cycle _ 1 1 0 _ 0 ≠ Spec.cycle _ 1 1 0 _ 0
    rw [exCycle_eq _ rfl rfl rfl rfl, exCycle_eq _ rfl rfl rfl rfl]
    change exCycle (relaxVmult kind exCoupled (exOneProc 0)) _
      ≠ exCycle (relaxVmult kind exCoupled (oneRowEach (twoDims 2 0))) _
    cases kind
    · decide +kernel
    · decide +kernel
    · exact absurd (by cases k <;> simp_all [SmootherKind.relaxation]) hjacobi
  | none =>
    obtain rfl : k = .ilu := by cases k <;> simp_all [SmootherKind.relaxation]
    obtain ⟨H, e, h1, h2, h3, h4⟩ := fullHelpers_build debug timer {} type hk (twoDims 2) exOneProc
      (fun _ _ _ => true) exCoupled exCoupled_spd exAverage exAverage_independent solve hsolve (by decide) rfl
    obtain ⟨H', e', h1', h2', h3', h4'⟩ := fullHelpers_build debug timer {} type hk (twoDims 2)
      (fun l => oneRowEach (twoDims 2 l)) (fun _ _ _ => true) exCoupled exCoupled_spd exAverage
      exAverage_independent solve hsolve (by decide) rfl
    refine ⟨H, H', e, e', fun i => if i.val = 0 then 2 else 0, fun fresh fresh' x x' => ⟨_, _,
      C04_cycle_is_textbook H _ h1 fresh x _ (Or.inl h3), C04_cycle_is_textbook H' _ h1' fresh' x' _ (Or.inl h3'),
      ?_⟩⟩
    rw [h2, h3, h4, h2', h3', h4']
    change Spec.cycle _ 1 1 0 _ 0 ≠ Spec.cycle _ 1 1 0 _ 0
    rw [exCycle_eq _ rfl rfl rfl rfl, exCycle_eq _ rfl rfl rfl rfl]
    change exCycle (iluVmult (fun _ _ => true) exCoupled (exOneProc 0)) _
      ≠ exCycle (iluVmult (fun _ _ => true) exCoupled (oneRowEach (twoDims 2 0))) _
    decide +kernel

/-! ## Examples -/

/-- Rows 3 and 0 on the first process, rows 2 and 1 on the second. -/
def exRingProcs : List (List (Fin 4)) := [[3, 0], [2, 1]]

theorem exRingProcs_all : ListsAll exRingProcs.flatten := ⟨by decide, by decide⟩

/-- The ring of four unknowns on two processes, each of which owns two neighbours. -/
example (kind : Relaxation) (hkind : kind ≠ .jacobi) :
    (∃ b x, dealiiSmootherApply kind exRingProcs (matrixOp exRing) b x
      ≠ dealiiSmootherApply kind (oneRowEach 4) (matrixOp exRing) b x) ∧
    ∃ b x, dealiiSmootherApply kind exRingProcs (matrixOp exRing) b x
      ≠ dealiiSmootherApply kind (exRingProcs.map List.reverse) (matrixOp exRing) b x := by
  have hc : ¬ UncoupledInside exRingProcs exRing := by
    intro h
    have := h [3, 0] (by simp [exRingProcs]) 3 (by simp) 0 (by simp)
      (by decide)
    revert this
    decide +kernel
  constructor
  · by_contra h
    push Not at h
    exact hc ((C90_processes_violated exRing_stieltjes.1 exRingProcs_all kind hkind).1 h)
  · by_contra h
    push Not at h
    exact hc ((C90_order_violated exRing_stieltjes.1 exRingProcs_all kind hkind).1 h)

example : ∃ b x, iluSmootherApply ringGraph exRingProcs (matrixOp exRing) b x
    ≠ iluSmootherApply ringGraph (oneRowEach 4) (matrixOp exRing) b x := by
  by_contra h
  push Not at h
  have := C90_ilu_violated (fun i => (diag_pos exRing_stieltjes.1 i).ne') exRingProcs_all ringGraph
    exRing_graph (by decide +kernel) h [3, 0] (by simp [exRingProcs]) 3 (by simp)
    0 (by simp) (by decide)
  revert this
  decide +kernel

/-- The default smoother and exact coarse solves. -/
example := C90_cycle_violated true false none .symmetricGaussSeidel rfl (by decide) (fun l => exInvSolve l (twoDims 2))
  (fun l => exInvSolve_exact _ l)

end Mfmg
