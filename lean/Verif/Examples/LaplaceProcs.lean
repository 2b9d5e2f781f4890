import Verif.Examples.Laplace
import Verif.Lemmas.ProcsRate
import Verif.Lemmas.Numbering

/-!
# Example: the difference matrix on several processes
-/

set_option autoImplicit false

namespace Mfmg

open Spec

section

variable {K : Type} [Field K] [LinearOrder K] [IsStrictOrderedRing K]

/-! ### Neighbouring rows on every process -/

/-- The energy on the processes, and what connects them. -/
theorem energy_le_parts {n : ℕ} {A : Matrix (Fin n) (Fin n) K} (hA : A.transpose = A)
    {procs : List (List (Fin n))} (hprocs : ListsAll procs.flatten) (w : Fin n → K) :
    energyOf A w ≤ (procs.map fun own => energyOf A (restrictTo own w)).sum
      + ∑ i, (∑ j, if ∃ own ∈ procs, i ∈ own ∧ j ∈ own then 0 else |A i j|) * (w i * w i) := by
  classical
  rw [sum_parts hprocs.1]
  set same : Fin n → Fin n → Prop := fun i j => ∃ own ∈ procs, i ∈ own ∧ j ∈ own with hsame
  have hsymm : ∀ i j, same i j ↔ same j i := fun i j =>
    ⟨fun ⟨o, h, a, b⟩ => ⟨o, h, b, a⟩, fun ⟨o, h, a, b⟩ => ⟨o, h, b, a⟩⟩
  have hterm : ∀ i j, w i * (A i j * w j) ≤ (if same i j then w i * (A i j * w j) else 0)
      + ((if same i j then 0 else |A i j|) * (w i * w i) / 2
        + (if same j i then 0 else |A j i|) * (w j * w j) / 2) := by
    intro i j
    have hij : A j i = A i j := congrFun (congrFun hA i) j
    rw [hij]
    by_cases h : same i j
    · rw [if_pos h, if_pos h, if_pos ((hsymm i j).1 h)]
      simp
    · rw [if_neg h, if_neg h, if_neg fun h' => h ((hsymm i j).2 h')]
      have h1 : A i j * (w i * w j) ≤ |A i j| * ((w i * w i + w j * w j) / 2) := by
        rcases le_total 0 (A i j) with ha | ha
        · rw [abs_of_nonneg ha]
          apply mul_le_mul_of_nonneg_left _ ha
          nlinarith [mul_self_nonneg (w i - w j)]
        · rw [abs_of_nonpos ha]
          have : 0 ≤ -A i j * ((w i * w i + w j * w j) / 2 + w i * w j) := by
            apply mul_nonneg (by linarith)
            nlinarith [mul_self_nonneg (w i + w j)]
          linarith
      linarith
  have h1 : energyOf A w = ∑ i, ∑ j, w i * (A i j * w j) := by
    unfold energyOf dotProduct Matrix.mulVec dotProduct
    simp only [Finset.mul_sum]
  rw [h1]
  refine (Finset.sum_le_sum fun i _ => Finset.sum_le_sum fun j _ => hterm i j).trans (le_of_eq ?_)
  simp only [Finset.sum_add_distrib]
  congr 1
  have h2 : ∑ i, ∑ j, (if same j i then 0 else |A j i|) * (w j * w j) / 2
      = ∑ i, ∑ j, (if same i j then 0 else |A i j|) * (w i * w i) / 2 := Finset.sum_comm
  rw [h2, ← two_mul, Finset.mul_sum]
  apply Finset.sum_congr rfl
  intro i _
  rw [Finset.sum_mul, Finset.mul_sum]
  apply Finset.sum_congr rfl
  intro j _
  ring

omit [LinearOrder K] [IsStrictOrderedRing K] in
/-- Neighbouring rows: every row but the last is coupled to the one that follows. -/
theorem laplace_followers {n : ℕ} (w : Fin n → K) (own : List (Fin n)) (first count : ℕ)
    (h : own.map Fin.val = List.range' first (count + 1)) :
    followers (pairMatrix n (0 : K)) w own
      = ∑ t ∈ Finset.range count, withEnds w (first + 2 + t) * withEnds w (first + 2 + t) / 2 := by
  induction count generalizing own first with
  | zero =>
    match own, h with
    | [i], _ => simp [followers]
  | succ count ih =>
    match own, h with
    | i :: rest, h =>
      rw [List.range'_succ, List.map_cons, List.cons.injEq] at h
      obtain ⟨hi, hrest⟩ := h
      have ih' := ih rest (first + 1) hrest
      rw [followers, ih', Finset.sum_range_succ']
      have hsum : (rest.map fun j => pairMatrix n (0 : K) i j * w j).sum = - withEnds w (first + 2) := by
        match rest, hrest with
        | k :: rest', hrest =>
          rw [List.range'_succ, List.map_cons, List.cons.injEq] at hrest
          obtain ⟨hk, hrest'⟩ := hrest
          rw [List.map_cons, List.sum_cons, List.sum_eq_zero, add_zero]
          · have hik : ¬ i = k := by
              rintro rfl
              omega
            have : pairMatrix n (0 : K) i k = -1 := by
              simp only [pairMatrix, Matrix.of_apply]
              rw [if_neg hik, if_pos (Or.inl (by omega))]
            rw [this, show first + 2 = k.val + 1 by omega, withEnds_val]
            ring
          · intro y hy
            obtain ⟨j, hj, rfl⟩ := List.mem_map.1 hy
            have hj' : j.val ∈ List.range' (first + 1 + 1) count := by
              rw [← hrest']
              exact List.mem_map.2 ⟨j, hj, rfl⟩
            rw [List.mem_range'_1] at hj'
            have hij : ¬ i = j := by
              rintro rfl
              omega
            have : pairMatrix n (0 : K) i j = 0 := by
              simp only [pairMatrix, Matrix.of_apply]
              rw [if_neg hij, if_neg (by omega)]
            rw [this, zero_mul]
      rw [hsum]
      have hd : pairMatrix n (0 : K) i i = 2 := by simp [pairMatrix]
      rw [hd, add_comm]
      congr 1
      · apply Finset.sum_congr rfl
        intro t _
        rw [show first + 1 + 2 + t = first + 2 + (t + 1) by ring]
      · rw [add_zero, neg_mul_neg]

/-- With at least two neighbouring rows on every process the processes are coupled with the factor `7/4`. -/
theorem laplace_coupled {n : ℕ} {procs : List (List (Fin n))} (hprocs : ListsAll procs.flatten)
    (hrows : NeighbouringRows procs) : CoupledAtMost (pairMatrix n (0 : K)) procs (7 / 4) := by
  classical
  intro w
  set A := pairMatrix n (0 : K) with hA
  refine (energy_le_parts (pair_symm n 0) hprocs w).trans ?_
  rw [sum_procs hprocs, ← List.sum_map_add, processEnergy, ← List.sum_map_mul_left]
  apply List.sum_le_sum
  intro own ho
  obtain ⟨first, count, hcount, hown⟩ := hrows own ho
  obtain ⟨k, rfl⟩ : ∃ k, count = k + 2 := ⟨count - 2, by omega⟩
  have hnd := procs_nodup hprocs ho
  have hmem : ∀ i : Fin n, i ∈ own ↔ first ≤ i.val ∧ i.val < first + (k + 2) := by
    intro i
    rw [← List.mem_range'_1, ← hown]
    constructor
    · intro h
      exact List.mem_map.2 ⟨i, h, rfl⟩
    · intro h
      obtain ⟨j, hj, hij⟩ := List.mem_map.1 h
      rwa [← Fin.ext hij]
  have hlen : own.length = k + 2 := by
    have := congrArg List.length hown
    simpa using this
  have hn : first + (k + 2) ≤ n := by
    have : (first + (k + 1)) ∈ own.map Fin.val := by
      rw [hown, List.mem_range'_1]
      omega
    obtain ⟨j, _, hj⟩ := List.mem_map.1 this
    have := j.isLt
    omega
  set f := withEnds w with hf
  -- the part on this process
  set g := withEnds (restrictTo own w) with hg
  have hgf : ∀ t, first + 1 ≤ t → t ≤ first + (k + 2) → g t = f t := by
    intro t h1 h2
    obtain ⟨t', rfl⟩ : ∃ t', t = t' + 1 := ⟨t - 1, by omega⟩
    have ht : t' < n := by omega
    rw [hg, hf, withEnds_val (restrictTo own w) ⟨t', ht⟩, withEnds_val w ⟨t', ht⟩, restrictTo, if_pos]
    rw [hmem]
    exact ⟨by simp only []; omega, by simp only []; omega⟩
  have hg0 : ∀ t, t < first + 1 ∨ first + (k + 2) < t → g t = 0 := by
    intro t h
    rcases t with _ | t
    · rfl
    · by_cases ht : t < n
      · rw [hg, withEnds_val (restrictTo own w) ⟨t, ht⟩, restrictTo, if_neg]
        rw [hmem]
        simp only []
        omega
      · simp [hg, withEnds, ht]
  have hE : f (first + 1) * f (first + 1) + (f (first + 2) - f (first + 1)) * (f (first + 2) - f (first + 1))
      + f (first + (k + 2)) * f (first + (k + 2)) ≤ energyOf A (restrictTo own w) := by
    rw [hA, laplace_energy]
    have hsub : ({first, first + 1, first + (k + 2)} : Finset ℕ) ⊆ Finset.range (n + 1) := by
      intro t ht
      simp only [Finset.mem_insert, Finset.mem_singleton] at ht
      rw [Finset.mem_range]
      omega
    refine le_trans (le_of_eq ?_) (Finset.sum_le_sum_of_subset_of_nonneg hsub fun t _ _ => mul_self_nonneg _)
    rw [Finset.sum_insert (by simp), Finset.sum_insert (by simp), Finset.sum_singleton, ← hg,
      hgf (first + 1) (by omega) (by omega), hgf (first + 1 + 1) (by omega) (by omega),
      hgf (first + (k + 2)) (by omega) (by omega), hg0 first (by omega), hg0 (first + (k + 2) + 1) (by omega)]
    ring
  have hF : f (first + 2) * f (first + 2) / 2
      + (if k = 0 then 0 else f (first + (k + 2)) * f (first + (k + 2)) / 2) ≤ followers A w own := by
    rw [hA, laplace_followers w own first (k + 1) hown, ← hf]
    by_cases hk : k = 0
    · subst hk
      simp
    · rw [if_neg hk]
      have hsub : ({0, k} : Finset ℕ) ⊆ Finset.range (k + 1) := by
        intro t ht
        simp only [Finset.mem_insert, Finset.mem_singleton] at ht
        rw [Finset.mem_range]
        omega
      refine le_trans (le_of_eq ?_) (Finset.sum_le_sum_of_subset_of_nonneg hsub fun t _ _ =>
        div_nonneg (mul_self_nonneg _) (by norm_num))
      rw [Finset.sum_insert (by simpa using fun h => hk h.symm), Finset.sum_singleton, add_zero,
        show first + 2 + k = first + (k + 2) by ring]
  -- what connects this process to others
  have hO : (own.map fun i => (∑ j, if ∃ own ∈ procs, i ∈ own ∧ j ∈ own then 0 else |A i j|) * (w i * w i)).sum
      ≤ f (first + 1) * f (first + 1) + f (first + (k + 2)) * f (first + (k + 2)) := by
    have hterm : ∀ i ∈ own, (∑ j, if ∃ own ∈ procs, i ∈ own ∧ j ∈ own then 0 else |A i j|) * (w i * w i)
        ≤ (if i.val = first then f (first + 1) * f (first + 1) else 0)
          + (if i.val = first + (k + 1) then f (first + (k + 2)) * f (first + (k + 2)) else 0) := by
      intro i hi
      have hi' := (hmem i).1 hi
      have hwf : w i = f (i.val + 1) := (withEnds_val w i).symm
      have hle : (∑ j, if ∃ own ∈ procs, i ∈ own ∧ j ∈ own then 0 else |A i j|)
          ≤ (if i.val = first then 1 else 0) + (if i.val = first + (k + 1) then 1 else 0) := by
        have hj : ∀ j, (if ∃ own ∈ procs, i ∈ own ∧ j ∈ own then 0 else |A i j|)
            ≤ (if i.val = first ∧ j.val + 1 = i.val then 1 else 0)
              + (if i.val = first + (k + 1) ∧ i.val + 1 = j.val then 1 else (0 : K)) := by
          intro j
          by_cases hs : ∃ own ∈ procs, i ∈ own ∧ j ∈ own
          · rw [if_pos hs]
            split_ifs <;> norm_num
          · rw [if_neg hs]
            have hjo : ¬ (first ≤ j.val ∧ j.val < first + (k + 2)) := fun h =>
              hs ⟨own, ho, hi, (hmem j).2 h⟩
            have hij : ¬ i = j := by
              rintro rfl
              exact hjo hi'
            simp only [hA, pairMatrix, Matrix.of_apply]
            rw [if_neg hij]
            by_cases hadj : i.val + 1 = j.val ∨ j.val + 1 = i.val
            · rw [if_pos hadj, abs_neg, abs_one]
              rcases hadj with h | h
              · rw [if_pos (show i.val = first + (k + 1) ∧ i.val + 1 = j.val by omega)]
                split_ifs <;> norm_num
              · rw [if_pos (show i.val = first ∧ j.val + 1 = i.val by omega)]
                split_ifs <;> norm_num
            · rw [if_neg hadj, abs_zero]
              split_ifs <;> norm_num
        refine (Finset.sum_le_sum fun j _ => hj j).trans ?_
        rw [Finset.sum_add_distrib]
        have honce : ∀ (P : Prop) [Decidable P] (q : Fin n → Prop) [DecidablePred q],
            (∀ a b, q a → q b → a = b) → (∑ j, if P ∧ q j then (1 : K) else 0) ≤ if P then 1 else 0 := by
          intro P _ q _ hq
          by_cases hP : P
          · simp only [hP, true_and, if_true]
            by_cases hex : ∃ j, q j
            · obtain ⟨j, hj⟩ := hex
              rw [Finset.sum_eq_single j (fun a _ ha => if_neg fun h => ha (hq a j h hj))
                (fun h => absurd (Finset.mem_univ j) h), if_pos hj]
            · rw [Finset.sum_eq_zero fun j _ => if_neg fun h => hex ⟨j, h⟩]
              exact zero_le_one
          · simp [hP]
        exact add_le_add (honce _ (fun j : Fin n => j.val + 1 = i.val) fun a b ha hb => Fin.ext (by omega))
          (honce _ (fun j : Fin n => i.val + 1 = j.val) fun a b ha hb => Fin.ext (by omega))
      refine (mul_le_mul_of_nonneg_right hle (mul_self_nonneg (w i))).trans (le_of_eq ?_)
      rw [add_mul]
      congr 1
      · split_ifs with h
        · rw [one_mul, hwf, h]
        · rw [zero_mul]
      · split_ifs with h
        · rw [one_mul, hwf, h, add_assoc]
        · rw [zero_mul]
    refine (List.sum_le_sum hterm).trans ?_
    rw [List.sum_map_add, ← List.sum_toFinset _ hnd, ← List.sum_toFinset _ hnd]
    have honce : ∀ (a : ℕ) (c : K), 0 ≤ c → (∑ i ∈ own.toFinset, if i.val = a then c else 0) ≤ c := by
      intro a c hc
      by_cases hex : ∃ i ∈ own.toFinset, i.val = a
      · obtain ⟨i, hi, hia⟩ := hex
        rw [Finset.sum_eq_single i (fun b _ hb => if_neg fun h => hb (Fin.ext (h.trans hia.symm)))
          (fun h => absurd hi h), if_pos hia]
      · rw [Finset.sum_eq_zero fun i hi => if_neg fun h => hex ⟨i, hi, h⟩]
        exact hc
    exact add_le_add (honce _ _ (mul_self_nonneg _)) (honce _ _ (mul_self_nonneg _))
  set a := f (first + 1) with ha
  set b := f (first + 2) with hb
  set c := f (first + (k + 2)) with hc
  have hab : a * a ≤ 2 * ((b - a) * (b - a)) + 2 * (b * b) := by nlinarith [mul_self_nonneg (2 * b - a)]
  have hbb := mul_self_nonneg b
  have hcc := mul_self_nonneg c
  have hba := mul_self_nonneg (b - a)
  by_cases hk : k = 0
  · have hcb : c = b := by rw [hc, hb, hk]
    rw [if_pos hk] at hF
    rw [hcb] at hE hO
    linarith
  · rw [if_neg hk] at hF
    linarith

/-! ### Rows dominated by the diagonal -/

/-- Dominated rows: the processes are coupled with the factor `1 + theta`, whatever the distribution. -/
theorem dominated_coupled {n : ℕ} {A : Matrix (Fin n) (Fin n) K} (hA : IsSpd A) {theta : K}
    (h0 : 0 ≤ theta) (h1 : theta ≤ 1) (hdom : RowsDominated A theta) {procs : List (List (Fin n))}
    (hprocs : ListsAll procs.flatten) : CoupledAtMost A procs (1 + theta) := by
  classical
  intro w
  have hfol : (procs.map fun own => energyOf A (restrictTo own w)).sum ≤ processEnergy A procs w := by
    apply List.sum_le_sum
    intro own _
    have := followers_nonneg hA w own
    linarith
  refine le_trans ?_ (mul_le_mul_of_nonneg_left hfol (by linarith))
  rw [sum_parts hprocs.1]
  set same : Fin n → Fin n → Prop := fun i j => ∃ own ∈ procs, i ∈ own ∧ j ∈ own with hsame
  have hrefl : ∀ i, same i i := by
    intro i
    obtain ⟨own, ho, hi⟩ := List.mem_flatten.1 (hprocs.2 i)
    exact ⟨own, ho, hi, hi⟩
  have hterm : ∀ i j, w i * (A i j * w j) + (if i = j then theta * (A i i * (w i * w i)) else 0)
      ≤ (1 + theta) * (if same i j then w i * (A i j * w j) else 0)
      + ((if i = j then 0 else |A i j|) * (w i * w i) / 2
        + (if j = i then 0 else |A j i|) * (w j * w j) / 2) := by
    intro i j
    have hij : A j i = A i j := congrFun (congrFun hA.1 i) j
    rw [hij]
    by_cases h : i = j
    · subst h
      rw [if_pos rfl, if_pos (hrefl i), if_pos rfl]
      have : w i * (A i i * w i) = A i i * (w i * w i) := by ring
      rw [this]
      simp only [zero_mul, zero_div, add_zero]
      linarith
    · have h' : ¬ j = i := fun h' => h h'.symm
      rw [if_neg h, if_neg h, if_neg h', add_zero]
      have hp : |A i j * (w i * w j)| ≤ |A i j| * ((w i * w i + w j * w j) / 2) := by
        rw [abs_mul]
        apply mul_le_mul_of_nonneg_left _ (abs_nonneg _)
        rw [abs_le]
        constructor
        · nlinarith [mul_self_nonneg (w i + w j)]
        · nlinarith [mul_self_nonneg (w i - w j)]
      have hnn : 0 ≤ |A i j| * ((w i * w i + w j * w j) / 2) := (abs_nonneg _).trans hp
      obtain ⟨hp1, hp2⟩ := abs_le.1 hp
      have hx : w i * (A i j * w j) = A i j * (w i * w j) := by ring
      rw [hx]
      by_cases hs : same i j
      · rw [if_pos hs]
        nlinarith [mul_le_mul_of_nonneg_left hp1 h0, mul_le_mul_of_nonneg_right h1 hnn]
      · rw [if_neg hs, mul_zero, zero_add]
        linarith
  have hE : energyOf A w = ∑ i, ∑ j, w i * (A i j * w j) := by
    unfold energyOf dotProduct Matrix.mulVec dotProduct
    simp only [Finset.mul_sum]
  have hsum := Finset.sum_le_sum fun i (_ : i ∈ Finset.univ) => Finset.sum_le_sum fun j (_ : j ∈ Finset.univ) =>
    hterm i j
  simp only [Finset.sum_add_distrib, Finset.sum_ite_eq, Finset.mem_univ, if_true] at hsum
  have h2 : ∑ i, ∑ j, (if j = i then 0 else |A j i|) * (w j * w j) / 2
      = ∑ i, ∑ j, (if i = j then 0 else |A i j|) * (w i * w i) / 2 := Finset.sum_comm
  rw [h2, ← hE] at hsum
  have h3 : ∑ i, ∑ j, (if i = j then 0 else |A i j|) * (w i * w i) / 2
      ≤ ∑ i, theta * (A i i * (w i * w i)) / 2 := by
    apply Finset.sum_le_sum
    intro i _
    rw [← Finset.sum_div, ← Finset.sum_mul]
    have := mul_le_mul_of_nonneg_right (hdom i) (mul_self_nonneg (w i))
    linarith
  have h4 : ∑ i, theta * (A i i * (w i * w i)) / 2 = (∑ i, theta * (A i i * (w i * w i))) / 2 := by
    rw [Finset.sum_div]
  simp only [← Finset.mul_sum] at hsum h4
  rw [h4] at h3
  linarith

end

end Mfmg
