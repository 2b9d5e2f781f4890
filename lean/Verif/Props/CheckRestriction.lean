import Verif.Model.CheckRestriction
import Verif.Lemmas.Restriction
import Mathlib.Algebra.Order.Field.Basic
import Mathlib.Algebra.Order.Field.Rat
import Mathlib.Tactic.NormNum
import Mathlib.Tactic.Linarith
import Mathlib.Tactic.IntervalCases

/-!
# Properties of the debug check of the restriction matrix (C64)
-/

set_option autoImplicit false

namespace Mfmg

section

variable {K : Type} [Field K] [LinearOrder K]

omit [Field K] [LinearOrder K] in
/-- The element loop on an agglomerate whose dof map and diagonal are long enough. -/
theorem checkElems_ok {S : Type} (step : S → ℕ → K → S) (s : Collected K) (i : ℕ) (dofs : List ℕ)
    (diag : List K) (hd : s.dofMaps[i]? = some dofs) (hg : s.diag[i]? = some diag) :
    ∀ (n j : ℕ) (a : S), j + n ≤ dofs.length → j + n ≤ diag.length →
      checkElems step s i n j a =
        .ok ((((dofs.drop j).zip (diag.drop j)).take n).foldl (fun a e => step a e.1 e.2) a) := by
  intro n
  induction n with
  | zero => intro j a _ _; simp [checkElems]
  | succ n ih =>
    intro j a h1 h2
    have hj : j < dofs.length := by omega
    have hj' : j < diag.length := by omega
    simp only [checkElems, Outcome.get_eq hd, Outcome.get_eq hg,
      Outcome.get_eq (List.getElem?_eq_getElem hj), Outcome.get_eq (List.getElem?_eq_getElem hj'),
      Outcome.ok_bind]
    rw [ih _ _ (by omega) (by omega), List.drop_eq_getElem_cons hj, List.drop_eq_getElem_cons hj']
    simp only [List.zip_cons_cons, List.take_succ_cons, List.foldl_cons]

omit [Field K] [LinearOrder K] in
/-- Reading past the end of the dof map of the agglomerate. -/
theorem checkElems_ub {S : Type} (step : S → ℕ → K → S) (s : Collected K) (i : ℕ) (dofs : List ℕ)
    (diag : List K) (hd : s.dofMaps[i]? = some dofs) (hg : s.diag[i]? = some diag)
    (hlen : diag.length = dofs.length) :
    ∀ (n j : ℕ) (a : S), j ≤ dofs.length → dofs.length < j + n →
      checkElems step s i n j a = .ub "dof_indices_maps[i][j]" := by
  intro n
  induction n with
  | zero => intro j a h1 h2; omega
  | succ n ih =>
    intro j a h1 h2
    by_cases hj : j < dofs.length
    · have hj' : j < diag.length := by omega
      simp only [checkElems, Outcome.get_eq hd, Outcome.get_eq hg,
        Outcome.get_eq (List.getElem?_eq_getElem hj), Outcome.get_eq (List.getElem?_eq_getElem hj'),
        Outcome.ok_bind]
      exact ih _ _ (by omega) (by omega)
    · have : dofs[j]? = none := List.getElem?_eq_none (by omega)
      simp only [checkElems, Outcome.get_eq hd, Outcome.ok_bind]
      simp [Outcome.get, this]

omit [LinearOrder K] in
/-- Adding the diagonal of one agglomerate. -/
theorem foldl_diag (dofs : List ℕ) (diag : List K) (hnd : dofs.Nodup)
    (hlen : diag.length = dofs.length) (a : ℕ → K) (x : ℕ) :
    ((dofs.zip diag).foldl (fun a e => fun x => if x = e.1 then a x + e.2 else a x) a) x =
      a x + extend dofs diag x := by
  induction dofs generalizing diag a with
  | nil => simp
  | cons c dofs ih =>
    cases diag with
    | nil => simp at hlen
    | cons d diag =>
      rw [List.nodup_cons] at hnd
      simp only [List.zip_cons_cons, List.foldl_cons]
      rw [ih diag hnd.2 (by simpa using hlen), extend_cons]
      by_cases hx : x = c
      · subst hx; simp [extend_not_mem hnd.1]
      · simp [hx]

omit [Field K] [LinearOrder K] in
theorem first_eigenvector (pre post : List (CopyData K)) (c : CopyData K) (v : List K)
    (hv : c.eigenvectors[0]? = some v) :
    ((pre ++ c :: post).flatMap (·.eigenvectors))[(pre.map (·.eigenvectors.length)).sum]? =
      some v := by
  induction pre with
  | nil =>
    cases hc : c.eigenvectors with
    | nil => simp [hc] at hv
    | cons u us => simpa [hc] using hv
  | cons p pre ih =>
    simp only [List.cons_append, List.flatMap_cons, List.map_cons, List.sum_cons]
    rw [List.getElem?_append_right (by omega)]
    simpa using ih

/-- Adding the weights of one agglomerate. -/
theorem foldl_weight (gdiag : ℕ → K) (dofs : List ℕ) (diag : List K) (hnd : dofs.Nodup)
    (hlen : diag.length = dofs.length) (w : ℕ → Option K) (x : ℕ) :
    ((dofs.zip diag).foldl (fun a e => addWeight gdiag a e.1 e.2) w) x =
      if x ∈ dofs then
        (if gdiag x = 0 then none else (w x).map (· + extend dofs diag x / gdiag x)) else w x := by
  induction dofs generalizing diag w with
  | nil => simp
  | cons c dofs ih =>
    cases diag with
    | nil => simp at hlen
    | cons d diag =>
      rw [List.nodup_cons] at hnd
      simp only [List.zip_cons_cons, List.foldl_cons]
      rw [ih diag hnd.2 (by simpa using hlen), extend_cons]
      by_cases hx : x = c
      · subst hx; simp [addWeight, hnd.1]
      · by_cases hm : x ∈ dofs
        · simp [hx, hm, addWeight]
        · simp [hx, hm, addWeight]

omit [LinearOrder K] in
/-- The first loop over the agglomerates `good` of one process, each with an eigenvector. -/
theorem diagLoop_good (cs tail : List (CopyData K)) :
    ∀ (good pre : List (CopyData K)) (a : ℕ → K), cs = pre ++ good ++ tail →
      (∀ c ∈ good, c.WellFormed) → (∀ c ∈ good, c.eigenvectors ≠ []) →
      diagLoop (collect cs) ((good ++ tail).map (·.eigenvectors.length)) pre.length a =
        diagLoop (collect cs) (tail.map (·.eigenvectors.length)) (pre ++ good).length
          (fun x => a x + (good.map (fun c => extend c.dofMap c.diag x)).sum) := by
  intro good
  induction good with
  | nil => intro pre a _ _ _; simp
  | cons c good ih =>
    intro pre a hcs hwf hne
    obtain ⟨v, vs, hv⟩ := List.exists_cons_of_ne_nil (hne c (by simp))
    have hwc := hwf c (by simp)
    have hlen : v.length = c.dofMap.length := hwc.vec_length v (by simp [hv])
    have hcs' : cs = pre ++ c :: (good ++ tail) := by simp [hcs]
    have h0 : (collect cs).eigenvectors[((collect cs).nLocal.take pre.length).sum]? = some v := by
      rw [collect_eq, hcs']
      simp only [List.map_append, List.map_cons]
      rw [show pre.length = (pre.map (fun c => c.eigenvectors.length)).length by simp,
        List.take_left']
      · exact first_eigenvector pre (good ++ tail) c v (by simp [hv])
      · rfl
    have hd : (collect cs).dofMaps[pre.length]? = some c.dofMap := by
      rw [collect_eq, hcs']; simp
    have hg : (collect cs).diag[pre.length]? = some c.diag := by
      rw [collect_eq, hcs']; simp
    simp only [List.cons_append, List.map_cons, diagLoop, Outcome.get_eq h0, Outcome.ok_bind]
    rw [checkElems_ok _ _ _ c.dofMap c.diag hd hg _ _ _ (by omega)
      (by have := hwc.diag_length; omega)]
    simp only [Outcome.ok_bind, List.drop_zero]
    have := ih (pre ++ [c]) (fun x => a x + extend c.dofMap c.diag x) (by simp [hcs])
      (fun c hc => hwf c (by simp [hc])) (fun c hc => hne c (by simp [hc]))
    rw [List.length_append, List.length_singleton] at this
    rw [List.take_of_length_le (by simp [hlen])]
    have e : (fun x => a x + extend c.dofMap c.diag x) =
        (c.dofMap.zip c.diag).foldl
          (fun a e => fun x => if x = e.1 then a x + e.2 else a x) a := by
      funext x
      rw [foldl_diag _ _ hwc.nodup hwc.diag_length]
    rw [← e, this]
    simp [add_assoc]

omit [LinearOrder K] in
/-- The first loop over the agglomerates of one process. -/
theorem diagLoop_ok (cs : List (CopyData K)) (hwf : ∀ c ∈ cs, c.WellFormed)
    (hne : ∀ c ∈ cs, c.eigenvectors ≠ []) (a : ℕ → K) :
    diagLoop (collect cs) (cs.map (·.eigenvectors.length)) 0 a =
      .ok (fun x => a x + (cs.map (fun c => extend c.dofMap c.diag x)).sum) := by
  have := diagLoop_good cs [] cs [] a (by simp) hwf hne
  simpa [diagLoop] using this

/-- The weight of dof `x` after the agglomerates `cs`, starting from `w`. -/
def weightAfter (gdiag : ℕ → K) (cs : List (CopyData K)) (w : ℕ → Option K) (x : ℕ) : Option K :=
  if ∃ c ∈ cs, x ∈ c.dofMap then
    (if gdiag x = 0 then none
      else (w x).map (· + (cs.map (fun c => extend c.dofMap c.diag x)).sum / gdiag x))
  else w x

omit [LinearOrder K] in
theorem sum_not_mem (cs : List (CopyData K)) (x : ℕ) (h : ¬∃ c ∈ cs, x ∈ c.dofMap) :
    (cs.map (fun c => extend c.dofMap c.diag x)).sum = 0 := by
  apply List.sum_eq_zero
  intro y hy
  obtain ⟨c, hc, rfl⟩ := List.mem_map.1 hy
  exact extend_not_mem (fun e => h ⟨c, hc, e⟩)

theorem weightAfter_cons (gdiag : ℕ → K) (c : CopyData K) (cs : List (CopyData K))
    (w : ℕ → Option K) (x : ℕ) :
    weightAfter gdiag (c :: cs) w x =
      weightAfter gdiag cs (fun x => if x ∈ c.dofMap then
        (if gdiag x = 0 then none else (w x).map (· + extend c.dofMap c.diag x / gdiag x))
        else w x) x := by
  unfold weightAfter
  by_cases hg : gdiag x = 0
  · by_cases h1 : x ∈ c.dofMap <;> by_cases h2 : ∃ c ∈ cs, x ∈ c.dofMap <;> simp [hg, h1, h2]
  · by_cases h1 : x ∈ c.dofMap <;> by_cases h2 : ∃ c ∈ cs, x ∈ c.dofMap
    · cases hw : w x <;> simp [hw, hg, h1, h2, add_div, add_assoc]
    · cases hw : w x <;> simp [hw, hg, h1, h2, sum_not_mem cs x h2]
    · cases hw : w x <;> simp [hw, hg, h1, h2, extend_not_mem h1]
    · simp [h1, h2]

theorem weightAfter_append (gdiag : ℕ → K) (cs cs' : List (CopyData K))
    (w : ℕ → Option K) :
    weightAfter gdiag (cs ++ cs') w = weightAfter gdiag cs' (weightAfter gdiag cs w) := by
  induction cs generalizing w with
  | nil => funext x; simp [weightAfter]
  | cons c cs ih =>
    rw [List.cons_append, funext (weightAfter_cons gdiag c (cs ++ cs') w), ih,
      funext (weightAfter_cons gdiag c cs w)]

/-- The second loop over the agglomerates of one process. -/
theorem weightLoop_ok (gdiag : ℕ → K) (cs : List (CopyData K)) (hwf : ∀ c ∈ cs, c.WellFormed)
    (hne : ∀ c ∈ cs, c.eigenvectors ≠ []) :
    ∀ (post pre : List (CopyData K)) (w : ℕ → Option K), cs = pre ++ post →
      weightLoop gdiag (collect cs) (post.map (·.eigenvectors.length)) pre.length
        (pre.map (·.eigenvectors.length)).sum w = .ok (weightAfter gdiag post w) := by
  intro post
  induction post with
  | nil => intro pre w _; simp [weightLoop]; funext x; simp [weightAfter]
  | cons c post ih =>
    intro pre w hcs
    have hc : c ∈ cs := by rw [hcs]; simp
    obtain ⟨v, vs, hv⟩ := List.exists_cons_of_ne_nil (hne c hc)
    have hwc := hwf c hc
    have hlen : v.length = c.dofMap.length := hwc.vec_length v (by simp [hv])
    have h0 : (collect cs).eigenvectors[(pre.map (·.eigenvectors.length)).sum]? = some v := by
      rw [collect_eq, hcs]
      exact first_eigenvector pre post c v (by simp [hv])
    have hd : (collect cs).dofMaps[pre.length]? = some c.dofMap := by
      rw [collect_eq, hcs]; simp
    have hg : (collect cs).diag[pre.length]? = some c.diag := by
      rw [collect_eq, hcs]; simp
    simp only [List.map_cons, weightLoop, Outcome.get_eq h0, Outcome.ok_bind]
    rw [checkElems_ok _ _ _ c.dofMap c.diag hd hg _ _ _ (by omega)
      (by have := hwc.diag_length; omega)]
    simp only [Outcome.ok_bind, List.drop_zero]
    rw [List.take_of_length_le (by simp [hlen])]
    have := ih (pre ++ [c]) ((c.dofMap.zip c.diag).foldl
      (fun a e => addWeight gdiag a e.1 e.2) w) (by simp [hcs])
    rw [List.length_append, List.length_singleton, List.map_append, List.sum_append,
      List.map_singleton, List.sum_singleton] at this
    rw [this]
    congr 1
    funext x
    rw [weightAfter_cons]
    congr 1
    funext y
    rw [foldl_weight _ _ _ hwc.nodup hwc.diag_length]

theorem linfty_le_iff (N : ℕ) (v : ℕ → K) (B : K) :
    linfty N v < B ↔ 0 < B ∧ ∀ x < N, |v x| < B := by
  unfold linfty
  induction N with
  | zero => simp
  | succ N ih =>
    rw [List.range_succ, List.foldl_append]
    simp only [List.foldl_cons, List.foldl_nil, max_lt_iff, ih]
    constructor
    · rintro ⟨⟨h0, h1⟩, h2⟩
      exact ⟨h0, fun x hx => (Nat.lt_succ_iff_lt_or_eq.1 hx).elim (h1 x) (fun e => e ▸ h2)⟩
    · rintro ⟨h0, h1⟩
      exact ⟨⟨h0, fun x hx => h1 x (by omega)⟩, h1 N (by omega)⟩

theorem le_linfty (N : ℕ) (v : ℕ → K) (x : ℕ) (hx : x < N) : |v x| ≤ linfty N v := by
  by_contra h
  exact lt_irrefl _ (((linfty_le_iff N v |v x|).1 (not_le.1 h)).2 x hx)

theorem forM_assert (f : ℕ → Bool) (l : List ℕ) :
    (l.forM fun x => Outcome.assert true (f x)) = if ∀ x ∈ l, f x then .ok () else .aborted := by
  induction l with
  | nil => simp [pure]
  | cons a l ih =>
    by_cases h : f a
    · simp only [List.forM, h, Outcome.assert_true, Outcome.ok_bind, ih]
      simp [h]
    · simp [List.forM, h, Outcome.assert]

variable [IsStrictOrderedRing K]

/-- **C64**.  For every number of processes and agglomerates, if every agglomerate has at least one
eigenvector, a debug build accepts the restriction matrix iff at every dof the agglomerate diagonals
sum to the global diagonal up to the relative tolerance; otherwise it aborts.  Nothing is read out
of bounds.  Missing: agglomerates without eigenvectors, for which the claim is false
(`C64_last_violated`, `C64_before_larger_violated`). -/
theorem C64_accepts_iff_partial (tol : K) (h0 : 0 < tol) (h1 : tol ≤ 1) (N : ℕ) (hN : 0 < N)
    (gdiag : ℕ → K) (css : List (List (CopyData K))) (hwf : ∀ cs ∈ css, ∀ c ∈ cs, c.WellFormed)
    (hne : ∀ cs ∈ css, ∀ c ∈ cs, c.eigenvectors ≠ []) :
    checkRestriction true tol N gdiag (css.map collect) =
      if ∀ x < N, |(css.flatten.map (fun c => extend c.dofMap c.diag x)).sum - gdiag x|
        < tol * |gdiag x| then .ok () else .aborted := by
  have hdiag : ∀ (css : List (List (CopyData K))) (a : ℕ → K),
      (∀ cs ∈ css, ∀ c ∈ cs, c.WellFormed) → (∀ cs ∈ css, ∀ c ∈ cs, c.eigenvectors ≠ []) →
      eachRank (fun s a => diagLoop s s.nLocal 0 a) (css.map collect) a =
        .ok (fun x => a x + (css.flatten.map (fun c => extend c.dofMap c.diag x)).sum) := by
    intro css
    induction css with
    | nil => intro a _ _; simp [eachRank]
    | cons cs css ih =>
      intro a h h'
      have := diagLoop_ok cs (h cs (by simp)) (h' cs (by simp)) a
      have e : (collect cs).nLocal = cs.map (·.eigenvectors.length) := by rw [collect_eq]
      simp only [List.map_cons, eachRank, e, this, Outcome.ok_bind]
      rw [ih _ (fun cs hc => h cs (by simp [hc])) (fun cs hc => h' cs (by simp [hc]))]
      simp [add_assoc]
  have hweight : ∀ (css : List (List (CopyData K))) (w : ℕ → Option K),
      (∀ cs ∈ css, ∀ c ∈ cs, c.WellFormed) → (∀ cs ∈ css, ∀ c ∈ cs, c.eigenvectors ≠ []) →
      eachRank (fun s w => weightLoop gdiag s s.nLocal 0 0 w) (css.map collect) w =
        .ok (weightAfter gdiag css.flatten w) := by
    intro css
    induction css with
    | nil => intro a _ _; simp [eachRank]; funext x; simp [weightAfter]
    | cons cs css ih =>
      intro a h h'
      have := weightLoop_ok gdiag cs (h cs (by simp)) (h' cs (by simp)) cs [] a (by simp)
      have e : (collect cs).nLocal = cs.map (·.eigenvectors.length) := by rw [collect_eq]
      simp only [List.length_nil, List.map_nil, List.sum_nil] at this
      simp only [List.map_cons, eachRank, e, this, Outcome.ok_bind]
      rw [ih _ (fun cs hc => h cs (by simp [hc])) (fun cs hc => h' cs (by simp [hc]))]
      rw [List.flatten_cons, weightAfter_append]
  set D : ℕ → K := fun x => (css.flatten.map (fun c => extend c.dofMap c.diag x)).sum with hD
  -- the second test at one dof
  have key : ∀ x, weightIsOne tol (weightAfter gdiag css.flatten (fun _ => some 0) x) = true ↔ |D x - gdiag x| < tol * |gdiag x| := by
    intro x
    by_cases hm : ∃ c ∈ css.flatten, x ∈ c.dofMap
    · by_cases hg : gdiag x = 0
      · simp only [weightAfter, if_pos hm, if_pos hg, weightIsOne]
        simp [hg]
      · have hpos : 0 < |gdiag x| := abs_pos.2 hg
        simp only [weightAfter, if_pos hm, if_neg hg, Option.map_some, zero_add, weightIsOne, decide_eq_true_eq]
        rw [show D x / gdiag x - 1 = (D x - gdiag x) / gdiag x by field_simp, abs_div,
          div_lt_iff₀ hpos]
    · simp only [weightAfter, if_neg hm, weightIsOne]
      have : D x = 0 := sum_not_mem _ x hm
      rw [this]
      simp only [zero_sub, abs_neg, abs_one, decide_eq_true_eq]
      constructor
      · intro h; exact absurd h (not_lt.2 h1)
      · intro h
        have := mul_le_of_le_one_left (abs_nonneg (gdiag x)) h1
        exact absurd h (not_lt.2 this)
  unfold checkRestriction
  simp only [if_true, hdiag css _ hwf hne, hweight css _ hwf hne, Outcome.ok_bind, zero_add]
  rw [forM_assert]
  have e1 : (∀ x ∈ List.range N, weightIsOne tol (weightAfter gdiag css.flatten (fun _ => some 0) x) = true) ↔ ∀ x < N, |D x - gdiag x| < tol * |gdiag x| := by
    simp only [List.mem_range, key]
  by_cases hall : ∀ x < N, |D x - gdiag x| < tol * |gdiag x|
  · have hg0 : gdiag 0 ≠ 0 := by
      intro h
      have := hall 0 hN
      rw [h, abs_zero, mul_zero] at this
      exact absurd this (not_lt.2 (abs_nonneg _))
    have hden : 0 < linfty N gdiag := lt_of_lt_of_le (abs_pos.2 hg0) (le_linfty N gdiag 0 hN)
    have hfirst : linfty N (fun x => D x - gdiag x) / linfty N gdiag < tol := by
      rw [div_lt_iff₀ hden, linfty_le_iff]
      refine ⟨mul_pos h0 hden, fun x hx => lt_of_lt_of_le (hall x hx) ?_⟩
      exact mul_le_mul_of_nonneg_left (le_linfty N gdiag x hx) h0.le
    rw [if_pos (e1.2 hall), if_pos hall]
    have hcond : (decide (linfty N gdiag ≠ 0) &&
        decide (linfty N (fun x => D x - gdiag x) / linfty N gdiag < tol)) = true := by
      simp only [Bool.and_eq_true, decide_eq_true_eq]
      exact ⟨hden.ne', hfirst⟩
    rw [hcond, Outcome.assert_true, Outcome.ok_bind]
  · rw [if_neg (fun h => hall (e1.1 h)), if_neg hall]
    unfold Outcome.assert
    split <;> simp

/-- Two agglomerates on dofs 0-1-2, sharing dof 1, on two processes. -/
def exCheck : List (List (CopyData ℚ)) :=
  [[⟨[0], [[1, 1]], [2, 1], [0, 1]⟩], [⟨[0], [[1, 1]], [3, 4], [1, 2]⟩]]

theorem exCheck_wf : ∀ cs ∈ exCheck, ∀ c ∈ cs, c.WellFormed := by
  intro cs hcs c hc
  simp only [exCheck, List.mem_cons, List.not_mem_nil, or_false] at hcs
  rcases hcs with rfl | rfl <;> simp only [List.mem_cons, List.not_mem_nil, or_false] at hc <;>
    subst hc <;> exact ⟨by decide, rfl, by decide⟩

theorem exCheck_ne : ∀ cs ∈ exCheck, ∀ c ∈ cs, c.eigenvectors ≠ [] := by
  intro cs hcs c hc
  simp only [exCheck, List.mem_cons, List.not_mem_nil, or_false] at hcs
  rcases hcs with rfl | rfl <;> simp only [List.mem_cons, List.not_mem_nil, or_false] at hc <;>
    subst hc <;> simp

/-- Diagonal 2, 4, 4: accepted. -/
example : checkRestriction true (1 / 10 ^ 14 : ℚ) 3 (fun x => [2, 4, 4].getD x 0)
    (exCheck.map collect) = .ok () := by
  rw [C64_accepts_iff_partial _ (by norm_num) (by norm_num) 3 (by norm_num) _ exCheck exCheck_wf
    exCheck_ne, if_pos]
  intro x hx
  interval_cases x <;> norm_num [exCheck, extend_cons]

/-- Diagonal 2, 5, 4: aborted. -/
example : checkRestriction true (1 / 10 ^ 14 : ℚ) 3 (fun x => [2, 5, 4].getD x 0)
    (exCheck.map collect) = .aborted := by
  rw [C64_accepts_iff_partial _ (by norm_num) (by norm_num) 3 (by norm_num) _ exCheck exCheck_wf
    exCheck_ne, if_neg]
  intro h
  have := h 1 (by norm_num)
  norm_num [exCheck, extend_cons] at this

/-- **C64**, correct matrices.  If the agglomerate diagonals sum to the global diagonal, which has no
zero, the check passes in debug and release builds. -/
theorem C64_correct_accepted_partial (debug : Bool) (tol : K) (h0 : 0 < tol) (h1 : tol ≤ 1) (N : ℕ)
    (hN : 0 < N) (gdiag : ℕ → K) (hg : ∀ x < N, gdiag x ≠ 0) (css : List (List (CopyData K)))
    (hwf : ∀ cs ∈ css, ∀ c ∈ cs, c.WellFormed) (hne : ∀ cs ∈ css, ∀ c ∈ cs, c.eigenvectors ≠ [])
    (hsum : ∀ x < N, DiagSums gdiag css.flatten x) :
    checkRestriction debug tol N gdiag (css.map collect) = .ok () := by
  cases debug with
  | false => simp [checkRestriction]
  | true =>
    rw [C64_accepts_iff_partial tol h0 h1 N hN gdiag css hwf hne, if_pos]
    intro x hx
    rw [hsum x hx, sub_self, abs_zero]
    exact mul_pos h0 (abs_pos.2 (hg x hx))

example : checkRestriction true (1 / 10 ^ 14 : ℚ) 3 (fun x => [2, 4, 4].getD x 0)
    (exCheck.map collect) = .ok () := by
  refine C64_correct_accepted_partial true _ (by norm_num) (by norm_num) 3 (by norm_num) _ ?_
    exCheck exCheck_wf exCheck_ne ?_
  · intro x hx; interval_cases x <;> norm_num
  · intro x hx; interval_cases x <;> norm_num [DiagSums, exCheck, extend_cons]

omit [IsStrictOrderedRing K] in
/-- **C64**, release builds.  The check does nothing. -/
theorem C64_release (tol : K) (N : ℕ) (gdiag : ℕ → K) (ss : List (Collected K)) :
    checkRestriction false tol N gdiag ss = .ok () := by
  simp [checkRestriction]

example : checkRestriction false (1 / 10 ^ 14 : ℚ) 3 (fun x => [2, 5, 4].getD x 0)
    (exCheck.map collect) = .ok () := C64_release _ _ _ _

omit [LinearOrder K] [IsStrictOrderedRing K] in
/-- The loops over the processes before the bad one. -/
theorem eachRank_diag_good (css : List (List (CopyData K))) (ss : List (Collected K))
    (hwf : ∀ cs ∈ css, ∀ c ∈ cs, c.WellFormed) (hne : ∀ cs ∈ css, ∀ c ∈ cs, c.eigenvectors ≠ [])
    (a : ℕ → K) :
    ∃ a', eachRank (fun s a => diagLoop s s.nLocal 0 a) (css.map collect ++ ss) a =
      eachRank (fun s a => diagLoop s s.nLocal 0 a) ss a' := by
  induction css generalizing a with
  | nil => exact ⟨a, rfl⟩
  | cons cs css ih =>
    have := diagLoop_ok cs (hwf cs (by simp)) (hne cs (by simp)) a
    have e : (collect cs).nLocal = cs.map (·.eigenvectors.length) := by rw [collect_eq]
    simp only [List.map_cons, List.cons_append, eachRank, e, this, Outcome.ok_bind]
    exact ih (fun cs hc => hwf cs (by simp [hc])) (fun cs hc => hne cs (by simp [hc])) _

omit [IsStrictOrderedRing K] in
/-- **C64**, agglomerates without eigenvectors.  If the last agglomerate of a process has none (for
instance because zero eigenvectors were requested), the check reads past the end of the list of
eigenvectors, whatever the diagonals are and whatever the later processes hold. -/
theorem C64_last_violated (tol : K) (N : ℕ) (gdiag : ℕ → K) (css : List (List (CopyData K)))
    (hwf : ∀ cs ∈ css, ∀ c ∈ cs, c.WellFormed) (hne : ∀ cs ∈ css, ∀ c ∈ cs, c.eigenvectors ≠ [])
    (good : List (CopyData K)) (hgw : ∀ c ∈ good, c.WellFormed)
    (hgn : ∀ c ∈ good, c.eigenvectors ≠ []) (bad : CopyData K) (hb : bad.eigenvectors = [])
    (later : List (List (CopyData K))) :
    checkRestriction true tol N gdiag ((css ++ (good ++ [bad]) :: later).map collect) =
      .ub "eigenvectors[offset]" := by
  obtain ⟨a, ha⟩ := eachRank_diag_good css ((collect (good ++ [bad])) :: later.map collect) hwf hne
    (fun _ => 0)
  have hl := diagLoop_good (good ++ [bad]) [bad] good [] a (by simp) hgw hgn
  have e : (collect (good ++ [bad])).nLocal =
      (good ++ [bad]).map (·.eigenvectors.length) := by rw [collect_eq]
  have h0 : (collect (good ++ [bad])).eigenvectors[
      ((collect (good ++ [bad])).nLocal.take ([] ++ good).length).sum]? = none := by
    rw [e, List.getElem?_eq_none]
    rw [collect_eq]
    simp [hb, List.length_flatMap]
  simp only [checkRestriction, if_true, List.map_append, List.map_cons, ha, eachRank]
  rw [e, ← List.length_nil, hl]
  simp only [List.map_cons, diagLoop]
  simp only [Outcome.get, h0, Outcome.ub_bind]

example (gdiag : ℕ → ℚ) : checkRestriction true (1 / 10 ^ 14 : ℚ) 3 gdiag
    ((exCheck ++ [[(⟨[], [], [1], [2]⟩ : CopyData ℚ)]]).map collect) = .ub "eigenvectors[offset]" :=
  C64_last_violated _ 3 gdiag exCheck exCheck_wf exCheck_ne [] (by simp) (by simp) _ rfl []

omit [IsStrictOrderedRing K] in
/-- **C64**, agglomerates without eigenvectors.  If an agglomerate has none and the next one on the
process has more dofs, the check reads past the end of its dof map. -/
theorem C64_before_larger_violated (tol : K) (N : ℕ) (gdiag : ℕ → K)
    (css : List (List (CopyData K)))
    (hwf : ∀ cs ∈ css, ∀ c ∈ cs, c.WellFormed) (hne : ∀ cs ∈ css, ∀ c ∈ cs, c.eigenvectors ≠ [])
    (good : List (CopyData K)) (hgw : ∀ c ∈ good, c.WellFormed)
    (hgn : ∀ c ∈ good, c.eigenvectors ≠ []) (bad next : CopyData K) (hb : bad.eigenvectors = [])
    (hbw : bad.WellFormed) (hnw : next.WellFormed) (hnn : next.eigenvectors ≠ [])
    (hlt : bad.dofMap.length < next.dofMap.length)
    (rest : List (CopyData K)) (later : List (List (CopyData K))) :
    checkRestriction true tol N gdiag ((css ++ (good ++ bad :: next :: rest) :: later).map collect) =
      .ub "dof_indices_maps[i][j]" := by
  set cs := good ++ bad :: next :: rest with hcs
  obtain ⟨a, ha⟩ := eachRank_diag_good css ((collect cs) :: later.map collect) hwf hne
    (fun _ => 0)
  have hl := diagLoop_good cs (bad :: next :: rest) good [] a (by simp [hcs]) hgw hgn
  have e : (collect cs).nLocal = cs.map (·.eigenvectors.length) := by rw [collect_eq]
  obtain ⟨v, vs, hv⟩ := List.exists_cons_of_ne_nil hnn
  have hlen : v.length = next.dofMap.length := hnw.vec_length v (by simp [hv])
  have h0 : (collect cs).eigenvectors[
      ((collect cs).nLocal.take ([] ++ good).length).sum]? = some v := by
    have := first_eigenvector (good ++ [bad]) rest next v (by simp [hv])
    rw [e, hcs]
    rw [collect_eq]
    simp only [List.append_assoc, List.singleton_append] at this
    simpa [hb, List.take_append] using this
  have hd : (collect cs).dofMaps[([] ++ good).length]? = some bad.dofMap := by
    rw [collect_eq, hcs]; simp
  have hg : (collect cs).diag[([] ++ good).length]? = some bad.diag := by
    rw [collect_eq, hcs]; simp
  simp only [checkRestriction, if_true, List.map_append, List.map_cons, ha, eachRank]
  rw [e, ← List.length_nil, hcs, ← hcs, hl]
  simp only [List.map_cons, diagLoop, Outcome.get_eq h0, Outcome.ok_bind]
  rw [checkElems_ub _ _ _ bad.dofMap bad.diag hd hg hbw.diag_length _ _ _ (by omega) (by omega)]
  simp

example (gdiag : ℕ → ℚ) : checkRestriction true (1 / 10 ^ 14 : ℚ) 3 gdiag
    ([[(⟨[], [], [1], [2]⟩ : CopyData ℚ), ⟨[0], [[1, 1]], [2, 1], [0, 1]⟩]].map collect) =
      .ub "dof_indices_maps[i][j]" :=
  C64_before_larger_violated _ 3 gdiag [] (by simp) (by simp) [] (by simp) (by simp) _ _ rfl
    ⟨by decide, rfl, by simp⟩ ⟨by decide, rfl, by simp⟩ (by simp) (by decide) [] []

end

end Mfmg
