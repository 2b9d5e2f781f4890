import Verif.Lemmas.Ilu
import Verif.Lemmas.Splitting
import Verif.Lemmas.RelaxationProcs

/-!
# The incomplete factorisation of Stieltjes matrices
-/

set_option autoImplicit false

namespace Mfmg

section

variable {K : Type} [Field K] [LinearOrder K] [IsStrictOrderedRing K] {n : ℕ}
  {graph : Fin n → Fin n → Bool}

/-- What elimination preserves. -/
structure ListM (graph : Fin n → Fin n → Bool) (l : List (Fin n)) (F : Matrix (Fin n) (Fin n) K) :
    Prop where
  z : ∀ i ∈ l, ∀ j ∈ l, i ≠ j → F i j ≤ 0
  off : ∀ i ∈ l, ∀ j ∈ l, graph i j = false → F i j = 0
  v : ∃ v : Fin n → K, ∀ i ∈ l, 0 < v i ∧ 0 < (l.map fun j => F i j * v j).sum

theorem listSum_nonpos (l : List (Fin n)) (f : Fin n → K) (h : ∀ i ∈ l, f i ≤ 0) :
    (l.map f).sum ≤ 0 := by
  induction l with
  | nil => simp
  | cons k rest ih =>
    rw [List.map_cons, List.sum_cons]
    have := ih fun i hi => h i (by simp [hi])
    linarith [h k (by simp)]

theorem listSum_le (l : List (Fin n)) (f g : Fin n → K) (h : ∀ i ∈ l, f i ≤ g i) :
    (l.map f).sum ≤ (l.map g).sum := by
  induction l with
  | nil => simp
  | cons k rest ih =>
    rw [List.map_cons, List.sum_cons, List.map_cons, List.sum_cons]
    have := ih fun i hi => h i (by simp [hi])
    linarith [h k (by simp)]

theorem ListM.pivot {k : Fin n} {rest : List (Fin n)} {F : Matrix (Fin n) (Fin n) K} (hk : k ∉ rest)
    (h : ListM graph (k :: rest) F) : 0 < F k k := by
  obtain ⟨v, hv⟩ := h.v
  obtain ⟨h1, h2⟩ := hv k (by simp)
  rw [List.map_cons, List.sum_cons] at h2
  have h3 : (rest.map fun j => F k j * v j).sum ≤ 0 := listSum_nonpos rest _ fun j hj =>
    mul_nonpos_of_nonpos_of_nonneg (h.z k (by simp) j (by simp [hj]) fun e => hk (e ▸ hj))
      (hv j (by simp [hj])).1.le
  have h4 : 0 < F k k * v k := by linarith
  exact pos_of_mul_pos_left h4 h1.le

/-- The eliminated part is nonnegative. -/
theorem ListM.fill {k : Fin n} {rest : List (Fin n)} {F : Matrix (Fin n) (Fin n) K} (hk : k ∉ rest)
    (h : ListM graph (k :: rest) F) {i j : Fin n} (hi : i ∈ rest) (hj : j ∈ rest) :
    0 ≤ F i k / F k k * F k j := by
  have h1 : F i k ≤ 0 := h.z i (by simp [hi]) k (by simp) fun e => hk (e ▸ hi)
  have h2 : F k j ≤ 0 := h.z k (by simp) j (by simp [hj]) fun e => hk (e ▸ hj)
  exact mul_nonneg_of_nonpos_of_nonpos (div_nonpos_of_nonpos_of_nonneg h1 (h.pivot hk).le) h2

theorem ListM.step {k : Fin n} {rest : List (Fin n)} {F : Matrix (Fin n) (Fin n) K} (hk : k ∉ rest)
    (h : ListM graph (k :: rest) F) : ListM graph rest (iluStep graph k rest F) := by
  have hp := h.pivot hk
  refine ⟨?_, step_zero h.off, ?_⟩
  · intro i hi j hj hij
    have h1 := h.z i (by simp [hi]) j (by simp [hj]) hij
    cases hg : graph i j with
    | true =>
      rw [iluStep_in F k rest hi hj hg]
      linarith [h.fill hk hi hj]
    | false => rwa [iluStep_off F k rest hg]
  · obtain ⟨v, hv⟩ := h.v
    refine ⟨v, fun i hi => ⟨(hv i (by simp [hi])).1, ?_⟩⟩
    have h1 : (rest.map fun j => F i j * v j + -(F i k / F k k) * (F k j * v j)).sum
        ≤ (rest.map fun j => iluStep graph k rest F i j * v j).sum := by
      apply listSum_le
      intro j hj
      have h2 : F i j - F i k / F k k * F k j ≤ iluStep graph k rest F i j := by
        cases hg : graph i j with
        | true => rw [iluStep_in F k rest hi hj hg]
        | false =>
          rw [iluStep_off F k rest hg]
          linarith [h.fill hk hi hj]
      have := mul_le_mul_of_nonneg_right h2 (hv j (by simp [hj])).1.le
      linarith
    rw [List.sum_map_add, List.sum_map_mul_left] at h1
    have h3 := (hv i (by simp [hi])).2
    have h4 := (hv k (by simp)).2
    rw [List.map_cons, List.sum_cons] at h3 h4
    have h5 : F i k / F k k ≤ 0 := div_nonpos_of_nonpos_of_nonneg
      (h.z i (by simp [hi]) k (by simp) fun e => hk (e ▸ hi)) hp.le
    have h6 := mul_nonpos_of_nonpos_of_nonneg h5 h4.le
    have h7 : F i k / F k k * (F k k * v k) = F i k * v k := by field_simp
    rw [mul_add, h7] at h6
    linarith

theorem ListM.pivots (l : List (Fin n)) (hl : l.Nodup) {F : Matrix (Fin n) (Fin n) K}
    (h : ListM graph l F) : NonzeroPivots graph l F := by
  induction l generalizing F with
  | nil => trivial
  | cons k rest ih =>
    rw [List.nodup_cons] at hl
    exact ⟨(h.pivot hl.1).ne', ih hl.2 (h.step hl.1)⟩

/-- The product of the factors is not less than the matrix. -/
theorem ListM.le_prod (l : List (Fin n)) (hl : l.Nodup) {F : Matrix (Fin n) (Fin n) K}
    (h : ListM graph l F) {i j : Fin n} (hi : i ∈ l) (hj : j ∈ l) : F i j ≤ iluProd graph l F i j := by
  induction l generalizing F with
  | nil => simp at hi
  | cons k rest ih =>
    rw [List.nodup_cons] at hl
    by_cases hik : i = k
    · rw [hik, iluProd_row]
    · by_cases hjk : j = k
      · rw [hjk, iluProd_col]
      · have hi' := (List.mem_cons.1 hi).resolve_left hik
        have hj' := (List.mem_cons.1 hj).resolve_left hjk
        rw [iluProd_in F k rest hik hjk]
        have h1 := ih hl.2 (h.step hl.1) hi' hj'
        cases hg : graph i j with
        | true =>
          rw [iluStep_in F k rest hi' hj' hg] at h1
          linarith
        | false =>
          rw [iluStep_off F k rest hg] at h1
          linarith [h.fill hl.1 hi' hj']

/-- The preconditioner maps nonnegative vectors to nonnegative vectors. -/
theorem ListM.solve_nonneg (l : List (Fin n)) (hl : l.Nodup) {F : Matrix (Fin n) (Fin n) K}
    (h : ListM graph l F) {r : Fin n → K} (hr : ∀ i ∈ l, 0 ≤ r i) (i : Fin n) :
    0 ≤ iluSolve graph l F r i := by
  induction l generalizing F r i with
  | nil => exact le_refl _
  | cons k rest ih =>
    rw [List.nodup_cons] at hl
    have hp := h.pivot hl.1
    have hx : ∀ i, 0 ≤ iluSolve graph rest (iluStep graph k rest F) (elimRhs F k rest r) i := by
      intro i
      refine ih hl.2 (h.step hl.1) ?_ i
      intro i hi
      rw [elimRhs, if_pos hi]
      have h5 : F i k / F k k ≤ 0 := div_nonpos_of_nonpos_of_nonneg
        (h.z i (by simp [hi]) k (by simp) fun e => hl.1 (e ▸ hi)) hp.le
      have := mul_nonpos_of_nonpos_of_nonneg h5 (hr k (by simp))
      linarith [hr i (by simp [hi])]
    simp only [iluSolve]
    by_cases hik : i = k
    · subst hik
      rw [Function.update_self]
      refine div_nonneg ?_ hp.le
      have : (rest.map fun j => F i j
          * iluSolve graph rest (iluStep graph i rest F) (elimRhs F i rest r) j).sum ≤ 0 :=
        listSum_nonpos rest _ fun j hj => mul_nonpos_of_nonpos_of_nonneg
          (h.z i (by simp) j (by simp [hj]) fun e => hl.1 (e ▸ hj)) (hx j)
      linarith [hr i (by simp)]
    · rw [Function.update_of_ne hik]
      exact hx i

/-- All pivots are positive. -/
def PosPivots (graph : Fin n → Fin n → Bool) : List (Fin n) → Matrix (Fin n) (Fin n) K → Prop
  | [], _ => True
  | k :: rest, F => 0 < F k k ∧ PosPivots graph rest (iluStep graph k rest F)

omit [IsStrictOrderedRing K] in
theorem PosPivots.nonzero (l : List (Fin n)) {F : Matrix (Fin n) (Fin n) K}
    (h : PosPivots graph l F) : NonzeroPivots graph l F := by
  induction l generalizing F with
  | nil => trivial
  | cons k rest ih => exact ⟨h.1.ne', ih h.2⟩

theorem ListM.posPivots (l : List (Fin n)) (hl : l.Nodup) {F : Matrix (Fin n) (Fin n) K}
    (h : ListM graph l F) : PosPivots graph l F := by
  induction l generalizing F with
  | nil => trivial
  | cons k rest ih =>
    rw [List.nodup_cons] at hl
    exact ⟨h.pivot hl.1, ih hl.2 (h.step hl.1)⟩

/-- With positive pivots the product is positive definite. -/
theorem iluProd_pos (l : List (Fin n)) (hl : l.Nodup) {F : Matrix (Fin n) (Fin n) K}
    (hF : ∀ i j, F i j = F j i) (hg : ∀ i j, graph i j = graph j i) (h : PosPivots graph l F)
    (x : Fin n → K) : 0 ≤ listForm l (iluProd graph l F) x ∧
      (listForm l (iluProd graph l F) x = 0 → ∀ i ∈ l, x i = 0) := by
  induction l generalizing F with
  | nil => simp [listForm]
  | cons k rest ih =>
    rw [List.nodup_cons] at hl
    obtain ⟨h1, h2⟩ := ih hl.2 (iluStep_symm hF hg k rest) h.2
    have hkk : iluProd graph (k :: rest) F k k = F k k := iluProd_row F k rest k
    have hsq := listForm_square k rest (iluProd graph (k :: rest) F)
      (iluProd graph rest (iluStep graph k rest F)) (by rw [hkk]; exact h.1.ne')
      (fun i => iluProd_symm (k :: rest) hF hg i k) (by
        intro i hi j hj
        rw [iluProd_in F k rest (fun e => hl.1 (e ▸ hi)) (fun e => hl.1 (e ▸ hj)), iluProd_col,
          iluProd_row, iluProd_row]) x
    set t := x k + (rest.map fun j => iluProd graph (k :: rest) F k j * x j).sum
      / iluProd graph (k :: rest) F k k with ht
    rw [hkk] at hsq
    have h3 : 0 ≤ F k k * t * t := by
      rw [mul_assoc]
      exact mul_nonneg h.1.le (mul_self_nonneg t)
    refine ⟨by rw [hsq]; linarith, ?_⟩
    intro h0
    rw [hsq] at h0
    have h4 := h2 (by linarith)
    have h5 : F k k * t * t = 0 := by linarith
    have h6 : t = 0 := by
      rw [mul_assoc] at h5
      exact mul_self_eq_zero.1 ((mul_eq_zero.1 h5).resolve_left h.1.ne')
    have h7 : (rest.map fun j => iluProd graph (k :: rest) F k j * x j).sum = 0 := by
      apply List.sum_eq_zero
      intro a ha
      obtain ⟨j, hj, rfl⟩ := List.mem_map.1 ha
      rw [h4 j hj, mul_zero]
    rw [h7, zero_div, add_zero] at ht
    intro i hi
    rcases List.mem_cons.1 hi with rfl | hi
    · rw [← ht, h6]
    · exact h4 i hi

/-- Without fill the pivots of a positive definite matrix are positive. -/
theorem noFill_posPivots (l : List (Fin n)) (hl : l.Nodup) (hfill : NoFill graph l)
    {F : Matrix (Fin n) (Fin n) K} (hF : ∀ i j, F i j = F j i) (hg : ∀ i j, graph i j = graph j i)
    (hoff : ∀ i ∈ l, ∀ j ∈ l, graph i j = false → F i j = 0)
    (hpd : ∀ x : Fin n → K, (∃ i ∈ l, x i ≠ 0) → 0 < listForm l F x) : PosPivots graph l F := by
  induction l generalizing F with
  | nil => trivial
  | cons k rest ih =>
    rw [List.nodup_cons] at hl
    have hp : 0 < F k k := by
      have h := hpd (Pi.single k 1) ⟨k, by simp, by simp⟩
      rw [listForm_cons k rest F (fun i => hF i k)] at h
      have h1 : (rest.map fun j => F k j * (Pi.single k (1 : K) : Fin n → K) j).sum = 0 := by
        apply List.sum_eq_zero
        intro a ha
        obtain ⟨j, hj, rfl⟩ := List.mem_map.1 ha
        have hne : j ≠ k := fun e => hl.1 (e ▸ hj)
        rw [Pi.single_eq_of_ne hne, mul_zero]
      have h2 : listForm rest F (Pi.single k (1 : K) : Fin n → K) = 0 := by
        unfold listForm
        apply List.sum_eq_zero
        intro a ha
        obtain ⟨j, hj, rfl⟩ := List.mem_map.1 ha
        have hne : j ≠ k := fun e => hl.1 (e ▸ hj)
        rw [Pi.single_eq_of_ne hne, zero_mul]
      rw [h1, h2] at h
      simpa using h
    refine ⟨hp, ih hl.2 (noFill_tail hl.1 hfill) (iluStep_symm hF hg k rest) (step_zero hoff) ?_⟩
    rintro x ⟨i, hi, hx⟩
    set s := (rest.map fun j => F k j * x j).sum with hs
    set y := Function.update x k (-s / F k k) with hy
    have hyr : ∀ j ∈ rest, y j = x j := fun j hj => by
      have hne : j ≠ k := fun e => hl.1 (e ▸ hj)
      rw [hy, Function.update_of_ne hne]
    have h := hpd y ⟨i, by simp [hi], by rw [hyr i hi]; exact hx⟩
    rw [listForm_square k rest F (iluStep graph k rest F) hp.ne' (fun i => hF i k) (by
      intro i hi j hj
      cases hgr : graph i j with
      | true => rw [iluStep_in F k rest hi hj hgr]; ring
      | false => rw [iluStep_off F k rest hgr, noFill_zero hl.1 hfill hoff hi hj hgr, zero_add])] at h
    have h1 : (rest.map fun j => F k j * y j).sum = s := by
      rw [hs]
      congr 1
      apply List.map_congr_left
      intro j hj
      rw [hyr j hj]
    have h2 : y k + s / F k k = 0 := by
      rw [hy, Function.update_self]
      ring
    rw [h1, h2, mul_zero, zero_add, listForm_congr rest (fun _ _ _ _ => rfl) hyr] at h
    exact h

end

/-! ### All processes -/

section

variable {K : Type} [Field K] {n : ℕ}

/-- Whether two rows belong to the same process. -/
def sameProc (procs : List (List (Fin n))) (i j : Fin n) : Bool :=
  procs.any fun own => decide (i ∈ own) && decide (j ∈ own)

theorem sameProc_iff {procs : List (List (Fin n))} {i j : Fin n} :
    sameProc procs i j = true ↔ ∃ own ∈ procs, i ∈ own ∧ j ∈ own := by
  simp [sameProc]

theorem sameProc_symm (procs : List (List (Fin n))) (i j : Fin n) :
    sameProc procs i j = sameProc procs j i := by
  simp only [sameProc, Bool.and_comm]

/-- The matrix without the coupling between the processes. -/
def uncouple (procs : List (List (Fin n))) (A : Matrix (Fin n) (Fin n) K) : Matrix (Fin n) (Fin n) K :=
  Matrix.of fun i j => if sameProc procs i j = true then A i j else 0

/-- The graph without the coupling between the processes. -/
def uncoupleGraph (procs : List (List (Fin n))) (graph : Fin n → Fin n → Bool) (i j : Fin n) : Bool :=
  graph i j && sameProc procs i j

variable {graph : Fin n → Fin n → Bool}

theorem sameProc_disjoint {procs : List (List (Fin n))} (h : procs.flatten.Nodup)
    {p q : List (List (Fin n))} {own : List (Fin n)} (e : procs = p ++ own :: q) {i j : Fin n}
    (hi : i ∈ own) (hj : j ∉ own) : sameProc procs i j = false := by
  rw [Bool.eq_false_iff]
  intro hs
  obtain ⟨o, ho, hio, hjo⟩ := sameProc_iff.1 hs
  rw [e, List.flatten_append, List.flatten_cons, List.nodup_append, List.nodup_append] at h
  obtain ⟨-, ⟨-, -, h2⟩, h3⟩ := h
  rw [e, List.mem_append, List.mem_cons] at ho
  rcases ho with ho | rfl | ho
  · exact h3 i (List.mem_flatten.2 ⟨o, ho, hio⟩) i (by simp [hi]) rfl
  · exact hj hjo
  · exact h2 i hi i (List.mem_flatten.2 ⟨o, ho, hio⟩) rfl

theorem uncoupled_procs {procs : List (List (Fin n))} (h : procs.flatten.Nodup)
    {p q : List (List (Fin n))} {own : List (Fin n)} (e : procs = p ++ own :: q)
    (A : Matrix (Fin n) (Fin n) K) :
    Uncoupled (uncoupleGraph procs graph) (uncouple procs A) own q.flatten := by
  intro i hi j hj
  have hj' : j ∉ own := by
    intro hjo
    rw [e, List.flatten_append, List.flatten_cons, List.nodup_append, List.nodup_append] at h
    exact h.2.1.2.2 j hjo j hj rfl
  have hs := sameProc_disjoint h e hi hj'
  have hs' : sameProc procs j i = false := by rw [sameProc_symm, hs]
  refine ⟨fun e => hj' (e ▸ hi), ?_, ?_, ?_, ?_⟩
  · simp [uncouple, hs]
  · simp [uncouple, hs']
  · simp [uncoupleGraph, hs]
  · simp [uncoupleGraph, hs']

theorem uncouple_own {procs : List (List (Fin n))} {own : List (Fin n)} (ho : own ∈ procs)
    (A : Matrix (Fin n) (Fin n) K) {i j : Fin n} (hi : i ∈ own) (hj : j ∈ own) :
    uncouple procs A i j = A i j ∧ uncoupleGraph procs graph i j = graph i j := by
  have : sameProc procs i j = true := sameProc_iff.2 ⟨own, ho, hi, hj⟩
  simp [uncouple, uncoupleGraph, this]

/-- All processes together solve with the matrix without the coupling between them. -/
theorem iluVmult_eq {procs : List (List (Fin n))} (h : procs.flatten.Nodup)
    (A : Matrix (Fin n) (Fin n) K) (r : Fin n → K) :
    iluVmult graph A procs r
      = iluSolve (uncoupleGraph procs graph) procs.flatten (uncouple procs A) r := by
  have key : ∀ p q, procs = p ++ q → (fun i => (q.map fun own => iluLocal graph A own r i).sum)
      = iluSolve (uncoupleGraph procs graph) q.flatten (uncouple procs A) r := by
    intro p q
    induction q generalizing p with
    | nil =>
      intro _
      simp only [List.map_nil, List.sum_nil, List.flatten_nil, iluSolve]
      rfl
    | cons own q ih =>
      intro e
      have ho : own ∈ procs := by rw [e]; simp
      have hnd : own.Nodup := (List.nodup_flatten.1 h).1 own ho
      rw [List.flatten_cons, iluSolve_append _ _ _ (uncoupled_procs h e A),
        ← ih (p ++ [own]) (by rw [e]; simp)]
      funext i
      simp only [List.map_cons, List.sum_cons, Pi.add_apply]
      rw [iluLocal_eq own hnd]
      rw [iluSolve_congr own (g' := uncoupleGraph procs graph) (F' := uncouple procs A) (r' := r)
        (fun i hi j hj => (uncouple_own ho A hi hj).2.symm)
        (fun i hi j hj => (uncouple_own (graph := graph) ho A hi hj).1.symm) fun _ _ => rfl]
  exact key [] procs rfl

theorem nonzeroPivots_procs {procs : List (List (Fin n))} (h : procs.flatten.Nodup)
    (A : Matrix (Fin n) (Fin n) K)
    (hp : ∀ own ∈ procs, ∀ k ∈ own, iluFactor graph own A k k ≠ 0) :
    NonzeroPivots (uncoupleGraph procs graph) procs.flatten (uncouple procs A) := by
  have key : ∀ p q, procs = p ++ q → ∀ F : Matrix (Fin n) (Fin n) K,
      (∀ i ∈ q.flatten, ∀ j ∈ q.flatten, F i j = uncouple procs A i j) →
      NonzeroPivots (uncoupleGraph procs graph) q.flatten F := by
    intro p q
    induction q generalizing p with
    | nil => intro _ F _; exact trivial
    | cons own q ih =>
      intro e F hF
      have ho : own ∈ procs := by rw [e]; simp
      have hnd : own.Nodup := (List.nodup_flatten.1 h).1 own ho
      rw [List.flatten_cons] at hF ⊢
      refine nonzeroPivots_append own q.flatten F ?_ ?_ ?_
      · intro i hi j hj
        obtain ⟨h1, h2, h3, h4, h5⟩ := uncoupled_procs (graph := graph) h e A i hi j hj
        have hi' : i ∈ own ++ q.flatten := List.mem_append_left _ hi
        have hj' : j ∈ own ++ q.flatten := List.mem_append_right _ hj
        exact ⟨h1, by rw [hF i hi' j hj', h2], by rw [hF j hj' i hi', h3], h4, h5⟩
      · refine nonzeroPivots_congr own (g := graph) (F := A) ?_ ?_
          ((nonzeroPivots_iff own hnd A).2 (hp own ho))
        · intro i hi j hj
          exact (uncouple_own ho A hi hj).2.symm
        · intro i hi j hj
          rw [hF i (List.mem_append_left _ hi) j (List.mem_append_left _ hj)]
          exact (uncouple_own (graph := graph) ho A hi hj).1.symm
      · intro F' hF'
        refine ih (p ++ [own]) (by rw [e]; simp) F' ?_
        intro i hi j hj
        rw [hF' i hi j hj, hF i (List.mem_append_right _ hi) j (List.mem_append_right _ hj)]
  exact key [] procs rfl _ fun _ _ _ _ => rfl

/-- The matrix of which the preconditioner is the inverse. -/
def iluMatrix (graph : Fin n → Fin n → Bool) (procs : List (List (Fin n)))
    (A : Matrix (Fin n) (Fin n) K) : Matrix (Fin n) (Fin n) K :=
  iluProd (uncoupleGraph procs graph) procs.flatten (uncouple procs A)

theorem iluMatrix_vmult {procs : List (List (Fin n))} (h : ListsAll procs.flatten)
    (A : Matrix (Fin n) (Fin n) K)
    (hp : NonzeroPivots (uncoupleGraph procs graph) procs.flatten (uncouple procs A))
    (r : Fin n → K) : (iluMatrix graph procs A).mulVec (iluVmult graph A procs r) = r := by
  funext i
  rw [iluVmult_eq h.1]
  have := iluProd_solve procs.flatten h.1 (uncouple procs A) hp r i (h.2 i)
  rw [sum_listsAll h] at this
  exact this

theorem uncouple_symm {procs : List (List (Fin n))} {A : Matrix (Fin n) (Fin n) K}
    (hA : A.transpose = A) (i j : Fin n) : uncouple procs A i j = uncouple procs A j i := by
  have : A i j = A j i := by
    conv_lhs => rw [← hA]
    rfl
  simp only [uncouple, Matrix.of_apply, sameProc_symm procs i j, this]

theorem uncoupleGraph_symm {procs : List (List (Fin n))} (hg : ∀ i j, graph i j = graph j i)
    (i j : Fin n) : uncoupleGraph procs graph i j = uncoupleGraph procs graph j i := by
  simp only [uncoupleGraph, sameProc_symm procs i j, hg i j]

theorem iluMatrix_symm {procs : List (List (Fin n))} {A : Matrix (Fin n) (Fin n) K}
    (hA : A.transpose = A) (hg : ∀ i j, graph i j = graph j i) :
    (iluMatrix graph procs A).transpose = iluMatrix graph procs A := by
  ext i j
  exact iluProd_symm _ (uncouple_symm hA) (uncoupleGraph_symm hg) j i

theorem listForm_all {l : List (Fin n)} (h : ListsAll l) (F : Matrix (Fin n) (Fin n) K)
    (x : Fin n → K) : listForm l F x = x ⬝ᵥ F.mulVec x := by
  unfold listForm
  rw [sum_listsAll h]
  apply Finset.sum_congr rfl
  intro i _
  rw [sum_listsAll h]
  rfl

theorem uncouple_off {procs : List (List (Fin n))} {A : Matrix (Fin n) (Fin n) K}
    (hg : IsGraph graph A) (i j : Fin n) (h : uncoupleGraph procs graph i j = false) :
    uncouple procs A i j = 0 := by
  rw [uncoupleGraph, Bool.and_eq_false_iff] at h
  rcases h with h | h
  · have : A i j = 0 := by
      by_contra h0
      rw [hg.entry i j h0] at h
      cases h
    simp [uncouple, this]
  · simp [uncouple, h]

end

section

variable {K : Type} [Field K] [LinearOrder K] [IsStrictOrderedRing K] {n : ℕ}
  {graph : Fin n → Fin n → Bool}

theorem sameProc_self {procs : List (List (Fin n))} (h : ListsAll procs.flatten) (i : Fin n) :
    sameProc procs i i = true := by
  obtain ⟨own, ho, hi⟩ := List.mem_flatten.1 (h.2 i)
  exact sameProc_iff.2 ⟨own, ho, hi, hi⟩

omit [IsStrictOrderedRing K] in
theorem uncouple_le {procs : List (List (Fin n))} (h : ListsAll procs.flatten)
    {A : Matrix (Fin n) (Fin n) K} (hz : ∀ i j, i ≠ j → A i j ≤ 0) (i j : Fin n) :
    A i j ≤ uncouple procs A i j := by
  by_cases hs : sameProc procs i j = true
  · simp [uncouple, hs]
  · have hij : i ≠ j := fun e => hs (e ▸ sameProc_self h i)
    simp [uncouple, hs, hz i j hij]

theorem uncouple_listM {procs : List (List (Fin n))} (h : ListsAll procs.flatten)
    {A : Matrix (Fin n) (Fin n) K} (hA : IsStieltjes A) (hg : IsGraph graph A) :
    ListM (uncoupleGraph procs graph) procs.flatten (uncouple procs A) := by
  refine ⟨?_, fun i _ j _ => uncouple_off hg i j, ?_⟩
  · intro i _ j _ hij
    unfold uncouple
    rw [Matrix.of_apply]
    split_ifs
    · exact hA.2 i j hij
    · exact le_refl _
  · obtain ⟨v, hv⟩ := stieltjes_vector hA
    refine ⟨v, fun i _ => ⟨(hv i).1, ?_⟩⟩
    rw [sum_listsAll h]
    refine lt_of_lt_of_le (b := ∑ j, A i j * v j) (hv i).2 (Finset.sum_le_sum fun j _ => ?_)
    exact mul_le_mul_of_nonneg_right (uncouple_le h hA.2 i j) (hv j).1.le

theorem iluMatrix_spd {procs : List (List (Fin n))} (h : ListsAll procs.flatten)
    {A : Matrix (Fin n) (Fin n) K} (hA : A.transpose = A) (hg : ∀ i j, graph i j = graph j i)
    (hp : PosPivots (uncoupleGraph procs graph) procs.flatten (uncouple procs A)) :
    IsSpd (iluMatrix graph procs A) := by
  refine ⟨iluMatrix_symm hA hg, ?_⟩
  intro x hx
  obtain ⟨h1, h2⟩ := iluProd_pos procs.flatten h.1 (uncouple_symm hA) (uncoupleGraph_symm hg) hp x
  rw [listForm_all h] at h1 h2
  refine lt_of_le_of_ne h1 ?_
  intro h0
  exact hx (funext fun i => h2 h0.symm i (h.2 i))

/-- For a Stieltjes matrix the preconditioner is a regular splitting, hence smaller than twice the
matrix. -/
theorem iluMatrix_stieltjes [Archimedean K] {procs : List (List (Fin n))}
    (h : ListsAll procs.flatten) {A : Matrix (Fin n) (Fin n) K} (hA : IsStieltjes A)
    (hg : IsGraph graph A) (hgs : ∀ i j, graph i j = graph j i) :
    IsSpd (iluMatrix graph procs A) ∧
      (∀ r, (iluMatrix graph procs A).mulVec (iluVmult graph A procs r) = r) ∧
      ∀ w, w ≠ 0 → w ⬝ᵥ A.mulVec w < 2 * (w ⬝ᵥ (iluMatrix graph procs A).mulVec w) := by
  have hM := uncouple_listM h hA hg
  have hspd := iluMatrix_spd h hA.1.1 hgs (hM.posPivots _ h.1)
  have hsolve := iluMatrix_vmult h A (hM.pivots _ h.1)
  refine ⟨hspd, hsolve, ?_⟩
  refine regular_splitting hA.1.1 hspd ?_ ?_ (stieltjes_vector hA)
  · intro x hx i
    have hx' : x = iluVmult graph A procs ((iluMatrix graph procs A).mulVec x) :=
      mulVec_injective hspd (hsolve _).symm
    rw [hx', iluVmult_eq h.1]
    exact hM.solve_nonneg _ h.1 (fun i _ => hx i) i
  · intro i j
    exact (uncouple_le h hA.2 i j).trans (hM.le_prod _ h.1 (h.2 i) (h.2 j))

end

end Mfmg
