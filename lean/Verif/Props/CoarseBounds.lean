import Verif.Spec.CoarseBounds
import Verif.Props.Restriction
import Verif.Props.Relaxation

/-!
# C126: the coarse matrices are bounded as the matrix is

Full claim: the bounds of the quadratic form of the matrix, from above and from below, are bounds for the coarse matrices
of all levels.
-/

set_option autoImplicit false

namespace Mfmg

section

variable {K : Type} [Field K]

theorem sum_extend (n : ℕ) {dofs : List ℕ} (hnd : dofs.Nodup) (hn : ∀ d ∈ dofs, d < n) {v w : List K}
    (hv : v.length = dofs.length) (hw : w.length = dofs.length) :
    ∑ x ∈ Finset.range n, extend dofs v x * extend dofs w x = localDot v w := by
  induction dofs generalizing v w with
  | nil =>
    rw [List.length_nil, List.length_eq_zero_iff] at hv
    simp [hv, localDot]
  | cons d dofs ih =>
    cases v with
    | nil => simp at hv
    | cons a v =>
      cases w with
      | nil => simp at hw
      | cons b w =>
        have hd := List.nodup_cons.1 hnd
        have h1 := ih hd.2 (fun e he => hn e (List.mem_cons_of_mem _ he)) (Nat.succ.inj hv) (Nat.succ.inj hw)
        have h2 : ∀ x, extend (d :: dofs) (a :: v) x * extend (d :: dofs) (b :: w) x
            = (if x = d then a * b else 0) + extend dofs v x * extend dofs w x := by
          intro x
          rw [extend_cons, extend_cons]
          by_cases hx : x = d
          · rw [if_pos hx, if_pos hx, if_pos hx, hx, extend_not_mem hd.1]
            ring
          · rw [if_neg hx, if_neg hx, if_neg hx]
            ring
        rw [Finset.sum_congr rfl fun x _ => h2 x, Finset.sum_add_distrib, h1, Finset.sum_ite_eq',
          if_pos (Finset.mem_range.2 (hn d List.mem_cons_self))]
        simp [localDot]

/-- A combination of the eigenvectors of an agglomerate, at dof `x`. -/
def localComb (c : CopyData K) (ys : List K) (vs : List (List K)) (x : ℕ) : K :=
  (List.zipWith (fun y v => y * extend c.dofMap v x) ys vs).sum

theorem localComb_dot (n : ℕ) {c : CopyData K} (hnd : c.dofMap.Nodup) (hn : ∀ d ∈ c.dofMap, d < n) {v : List K}
    (hv : v.length = c.dofMap.length) (ys : List K) {vs : List (List K)}
    (hvs : ∀ w ∈ vs, w.length = c.dofMap.length) (h0 : ∀ w ∈ vs, localDot v w = 0) :
    ∑ x ∈ Finset.range n, extend c.dofMap v x * localComb c ys vs x = 0 := by
  induction ys generalizing vs with
  | nil => simp [localComb]
  | cons y ys ih =>
    cases vs with
    | nil => simp [localComb]
    | cons w vs =>
      have h1 : ∀ x, extend c.dofMap v x * localComb c (y :: ys) (w :: vs) x
          = y * (extend c.dofMap v x * extend c.dofMap w x) + extend c.dofMap v x * localComb c ys vs x := by
        intro x
        simp only [localComb, List.zipWith_cons_cons, List.sum_cons]
        ring
      rw [Finset.sum_congr rfl fun x _ => h1 x, Finset.sum_add_distrib, ← Finset.mul_sum,
        sum_extend n hnd hn hv (hvs w List.mem_cons_self), h0 w List.mem_cons_self,
        ih (fun u hu => hvs u (List.mem_cons_of_mem _ hu)) (fun u hu => h0 u (List.mem_cons_of_mem _ hu))]
      ring

theorem localComb_norm (n : ℕ) {c : CopyData K} (hnd : c.dofMap.Nodup) (hn : ∀ d ∈ c.dofMap, d < n) (ys : List K)
    {vs : List (List K)} (hlen : ys.length = vs.length) (hvs : ∀ w ∈ vs, w.length = c.dofMap.length)
    (h : LocalOrthonormal vs) :
    ∑ x ∈ Finset.range n, localComb c ys vs x ^ 2 = (ys.map (· ^ 2)).sum := by
  induction ys generalizing vs with
  | nil => simp [localComb]
  | cons y ys ih =>
    cases vs with
    | nil => simp at hlen
    | cons w vs =>
      have hp := List.pairwise_cons.1 h.2
      have hw := hvs w List.mem_cons_self
      have hvs' : ∀ u ∈ vs, u.length = c.dofMap.length := fun u hu => hvs u (List.mem_cons_of_mem _ hu)
      have h1 : ∀ x, localComb c (y :: ys) (w :: vs) x ^ 2
          = y ^ 2 * (extend c.dofMap w x * extend c.dofMap w x)
            + 2 * y * (extend c.dofMap w x * localComb c ys vs x) + localComb c ys vs x ^ 2 := by
        intro x
        simp only [localComb, List.zipWith_cons_cons, List.sum_cons]
        ring
      rw [Finset.sum_congr rfl fun x _ => h1 x, Finset.sum_add_distrib, Finset.sum_add_distrib, ← Finset.mul_sum,
        ← Finset.mul_sum, sum_extend n hnd hn hw hw, h.1 w List.mem_cons_self,
        localComb_dot n hnd hn hw ys hvs' hp.1,
        ih (Nat.succ.inj hlen) hvs' ⟨fun u hu => h.1 u (List.mem_cons_of_mem _ hu), hp.2⟩]
      simp

/-- What the rows of the restriction matrix give at dof `x`, agglomerate by agglomerate. -/
theorem rows_comb (gdiag : ℕ → K) (x : ℕ) {cs : List (CopyData K)} {ys : List (List K)}
    (h : List.Forall₂ (fun c y => y.length = c.eigenvectors.length) cs ys) :
    (List.zipWith (fun y cv => y * fR gdiag cv.1 cv.2 x) ys.flatten (rowsOf cs)).sum
      = (List.zipWith (fun c y => extend c.dofMap c.diag x / gdiag x * localComb c y c.eigenvectors x) cs ys).sum := by
  induction h with
  | nil => simp [rowsOf]
  | @cons c y cs ys hc _ ih =>
    have hsplit : rowsOf (c :: cs) = c.eigenvectors.map (fun v => (c, v)) ++ rowsOf cs := by
      simp [rowsOf]
    rw [hsplit, List.flatten_cons, List.zipWith_append (by simp [hc]), List.sum_append, ih, List.zipWith_cons_cons,
      List.sum_cons]
    congr 1
    clear hc ih hsplit
    generalize c.eigenvectors = vs
    induction y generalizing vs with
    | nil => simp [localComb]
    | cons t y ih =>
      cases vs with
      | nil => simp [localComb]
      | cons v vs =>
        rw [List.map_cons, List.zipWith_cons_cons, List.sum_cons, ih, fR]
        simp only [localComb, List.zipWith_cons_cons, List.sum_cons]
        ring

omit [Field K] in
/-- Coefficients of all rows are coefficients for every agglomerate. -/
theorem split_rows {cs : List (CopyData K)} (l : List K) (hl : l.length = (rowsOf cs).length) :
    ∃ ys : List (List K), List.Forall₂ (fun c y => y.length = c.eigenvectors.length) cs ys ∧ ys.flatten = l := by
  induction cs generalizing l with
  | nil =>
    have : l = [] := by simpa [rowsOf] using hl
    exact ⟨[], .nil, by simp [this]⟩
  | cons c cs ih =>
    have hsplit : (rowsOf (c :: cs)).length = c.eigenvectors.length + (rowsOf cs).length := by
      simp [rowsOf]
    obtain ⟨ys, h1, h2⟩ := ih (l.drop c.eigenvectors.length) (by simp; omega)
    exact ⟨l.take c.eigenvectors.length :: ys, .cons (by simp; omega) h1, by simp [h2]⟩

theorem prolong_entry {n : ℕ} (gdiag : ℕ → K) {R : Entries K} {cs : List (CopyData K)}
    (h : ∀ r x, R r x = rowsMat (fR gdiag) (rowsOf cs) 0 r x) (y : Fin (rowsOf cs).length → K) {ys : List (List K)}
    (hys : List.Forall₂ (fun c y => y.length = c.eigenvectors.length) cs ys) (hflat : ys.flatten = List.ofFn y)
    (x : Fin n) : ((R.block (rowsOf cs).length n).transpose.mulVec y) x
      = (List.zipWith (fun c y => extend c.dofMap c.diag x / gdiag x * localComb c y c.eigenvectors x) cs ys).sum := by
  rw [← rows_comb gdiag x hys, hflat, ← sum_rowsMat _ _ _ (by simp), Finset.sum_range]
  simp only [Matrix.mulVec, dotProduct]
  refine Finset.sum_congr rfl fun p _ => ?_
  simp [Entries.block, h p.val x.val, mul_comm, List.getD]

/-- No agglomerate contains the dof. -/
theorem comb_none (gdiag : ℕ → K) (x : ℕ) {cs : List (CopyData K)} {ys : List (List K)}
    (h : List.Forall₂ (fun c y => y.length = c.eigenvectors.length) cs ys)
    (h0 : cs.countP (fun c => decide (x ∈ c.dofMap)) = 0) :
    (List.zipWith (fun c y => extend c.dofMap c.diag x / gdiag x * localComb c y c.eigenvectors x) cs ys).sum = 0 ∧
      (List.zipWith (fun c y => if x ∈ c.dofMap then localComb c y c.eigenvectors x ^ 2 else 0) cs ys).sum = 0 ∧
      (cs.map fun c => extend c.dofMap c.diag x / gdiag x).sum = 0 := by
  induction h with
  | nil => simp
  | @cons c y cs ys hc _ ih =>
    rw [List.countP_cons] at h0
    have hx : x ∉ c.dofMap := by
      intro hx
      simp [hx] at h0
    obtain ⟨h1, h2, h3⟩ := ih (by omega)
    simp [h1, h2, h3, extend_not_mem hx, hx]

/-- One agglomerate contains the dof. -/
theorem comb_one (gdiag : ℕ → K) (x : ℕ) {cs : List (CopyData K)} {ys : List (List K)}
    (h : List.Forall₂ (fun c y => y.length = c.eigenvectors.length) cs ys) (h1 : InOneOnly cs x) :
    (List.zipWith (fun c y => extend c.dofMap c.diag x / gdiag x * localComb c y c.eigenvectors x) cs ys).sum ^ 2
      = (cs.map fun c => extend c.dofMap c.diag x / gdiag x).sum ^ 2
        * (List.zipWith (fun c y => if x ∈ c.dofMap then localComb c y c.eigenvectors x ^ 2 else 0) cs ys).sum := by
  unfold InOneOnly at h1
  induction h with
  | nil => simp at h1
  | @cons c y cs ys hc hrest ih =>
    rw [List.countP_cons] at h1
    by_cases hx : x ∈ c.dofMap
    · obtain ⟨e1, e2, e3⟩ := comb_none gdiag x hrest (by simpa [hx] using h1)
      simp only [List.zipWith_cons_cons, List.sum_cons, List.map_cons, e1, e2, e3, if_pos hx]
      ring
    · have e := ih (by simpa [hx] using h1)
      simp only [List.zipWith_cons_cons, List.sum_cons, List.map_cons, if_neg hx, extend_not_mem hx, zero_div, zero_mul,
        zero_add, e]

variable [LinearOrder K] [IsStrictOrderedRing K]

/-- The square of an average is at most the average of the squares. -/
theorem average_sq {α β : Type} (w : α → K) (z : α → β → K) {cs : List α} (hw : ∀ c ∈ cs, 0 ≤ w c) {ys : List β}
    (hlen : cs.length = ys.length) :
    0 ≤ (List.zipWith (fun c y => w c * z c y ^ 2) cs ys).sum ∧
      (List.zipWith (fun c y => w c * z c y) cs ys).sum ^ 2
        ≤ (cs.map w).sum * (List.zipWith (fun c y => w c * z c y ^ 2) cs ys).sum := by
  induction cs generalizing ys with
  | nil => simp
  | cons c cs ih =>
    cases ys with
    | nil => simp at hlen
    | cons y ys =>
      obtain ⟨hQ, h⟩ := ih (fun c hc => hw c (List.mem_cons_of_mem _ hc)) (Nat.succ.inj hlen)
      have hW : 0 ≤ (cs.map w).sum := List.sum_nonneg (by
        intro a ha
        obtain ⟨c', hc', rfl⟩ := List.mem_map.1 ha
        exact hw c' (List.mem_cons_of_mem _ hc'))
      have h0 := hw c List.mem_cons_self
      simp only [List.zipWith_cons_cons, List.sum_cons, List.map_cons]
      generalize (List.zipWith (fun c y => w c * z c y ^ 2) cs ys).sum = Q at *
      generalize (List.zipWith (fun c y => w c * z c y) cs ys).sum = S at *
      generalize (cs.map w).sum = W at *
      generalize w c = a at *
      generalize z c y = t at *
      refine ⟨by positivity, ?_⟩
      have key : 2 * t * S ≤ Q + W * t ^ 2 := by
        rcases hW.eq_or_lt with hW | hW
        · have hS : S = 0 := by
            rw [← hW, zero_mul] at h
            exact pow_eq_zero_iff (two_ne_zero) |>.1 (le_antisymm h (sq_nonneg S))
          rw [hS, ← hW]
          linarith
        · have h1 : W * (2 * t * S) ≤ W * (Q + W * t ^ 2) := by nlinarith [sq_nonneg (t * W - S)]
          exact le_of_mul_le_mul_left h1 hW
      nlinarith [mul_le_mul_of_nonneg_left key h0]

/-- **C126.** Prolongation makes no vector longer, so what bounds the matrix bounds the coarse matrix: for every set-up on any number of processes whose local eigenvectors
are orthonormal, whose local diagonals are nonnegative and add up to the global one, which is positive. -/
theorem C126_prolongation (debug dynAdds : Bool) (gdiag : ℕ → K) (css : List (List (CopyData K)))
    (hcs : ∀ cs ∈ css, ∀ c ∈ cs, c.WellFormed) (n : ℕ) (hn : ∀ c ∈ css.flatten, ∀ d ∈ c.dofMap, d < n)
    (horth : ∀ c ∈ css.flatten, LocalOrthonormal c.eigenvectors) (hpos : ∀ c ∈ css.flatten, ∀ d ∈ c.diag, 0 ≤ d)
    (hdiag : ∀ x, x < n → 0 < gdiag x ∧ DiagSums gdiag css.flatten x) :
    ∃ a, assembleAll debug dynAdds gdiag (css.map collect) = .ok a ∧
      NonExpanding (a.R.block (rowsOf css.flatten).length n) ∧
      ∀ (A : Matrix (Fin n) (Fin n) K) (bound : K), 0 ≤ bound → BoundedBy A bound →
        BoundedBy (galerkin (a.R.block (rowsOf css.flatten).length n) A) bound := by
  obtain ⟨a, h, h'⟩ := assembleAll_spec debug dynAdds gdiag css hcs
  refine ⟨a, h, ?_⟩
  suffices hR : NonExpanding (a.R.block (rowsOf css.flatten).length n) by
    refine ⟨hR, fun A bound h0 hA y => ?_⟩
    rw [galerkin_form]
    exact (hA _).trans (mul_le_mul_of_nonneg_left (hR y) h0)
  intro y
  have hwf : ∀ c ∈ css.flatten, c.WellFormed := by
    intro c hc
    obtain ⟨cs, hcs', hc⟩ := List.mem_flatten.1 hc
    exact hcs cs hcs' c hc
  generalize css.flatten = cs at *
  obtain ⟨ys, hys, hflat⟩ := split_rows (cs := cs) (List.ofFn y) (by simp)
  have hentry := prolong_entry (n := n) gdiag (fun r x => (h' r x).1) y hys hflat
  have hext : ∀ c ∈ cs, ∀ x, 0 ≤ extend c.dofMap c.diag x := by
    intro c hc x
    have h1 := hpos c hc
    generalize c.diag = ds at h1
    generalize c.dofMap = dofs
    induction dofs generalizing ds with
    | nil => simp
    | cons d dofs ih =>
      cases ds with
      | nil => simp
      | cons e ds =>
        rw [extend_cons]
        split_ifs
        · exact h1 e List.mem_cons_self
        · exact ih ds fun d hd => h1 d (List.mem_cons_of_mem _ hd)
  have hpoint : ∀ x, x < n →
      (List.zipWith (fun c y => extend c.dofMap c.diag x / gdiag x * localComb c y c.eigenvectors x) cs ys).sum ^ 2
        ≤ (List.zipWith (fun c y => localComb c y c.eigenvectors x ^ 2) cs ys).sum := by
    intro x hx
    obtain ⟨hg, hsum⟩ := hdiag x hx
    have hw : ∀ c ∈ cs, 0 ≤ extend c.dofMap c.diag x / gdiag x := fun c hc => div_nonneg (hext c hc x) hg.le
    have hone : (cs.map fun c => extend c.dofMap c.diag x / gdiag x).sum = 1 := by
      rw [sum_map_div, hsum, div_self hg.ne']
    have h1 := (average_sq (fun c => extend c.dofMap c.diag x / gdiag x) (fun c y => localComb c y c.eigenvectors x) hw
      (ys := ys) hys.length_eq).2
    rw [hone, one_mul] at h1
    refine h1.trans ?_
    have hle : ∀ c ∈ cs, extend c.dofMap c.diag x / gdiag x ≤ 1 := by
      intro c hc
      rw [← hone]
      exact List.single_le_sum (by
        intro b hb
        obtain ⟨c', hc', rfl⟩ := List.mem_map.1 hb
        exact hw c' hc') _ (List.mem_map_of_mem hc)
    clear h1 hone hsum hdiag hentry hflat h' hwf horth hpos hn hext y
    induction hys with
    | nil => simp
    | @cons c y' cs ys hc _ ih =>
      simp only [List.zipWith_cons_cons, List.sum_cons]
      have h2 := mul_le_mul_of_nonneg_right (hle c List.mem_cons_self) (sq_nonneg (localComb c y' c.eigenvectors x))
      have h3 := ih (fun c hc => hw c (List.mem_cons_of_mem _ hc)) (fun c hc => hle c (List.mem_cons_of_mem _ hc))
      linarith
  have htotal : ∑ x ∈ Finset.range n, (List.zipWith (fun c y => localComb c y c.eigenvectors x ^ 2) cs ys).sum
      = (ys.flatten.map (· ^ 2)).sum := by
    clear hpoint hext hentry hflat hdiag hpos h' y
    induction hys with
    | nil => simp
    | @cons c y' cs ys hc _ ih =>
      simp only [List.zipWith_cons_cons, List.sum_cons, Finset.sum_add_distrib, List.flatten_cons, List.map_append,
        List.sum_append]
      rw [ih (fun c hc => hn c (List.mem_cons_of_mem _ hc)) (fun c hc => horth c (List.mem_cons_of_mem _ hc))
        (fun c hc => hwf c (List.mem_cons_of_mem _ hc)),
        localComb_norm n (hwf c List.mem_cons_self).nodup (hn c List.mem_cons_self) y' hc
          (hwf c List.mem_cons_self).vec_length (horth c List.mem_cons_self)]
  calc (a.R.block (rowsOf cs).length n).transpose.mulVec y ⬝ᵥ (a.R.block (rowsOf cs).length n).transpose.mulVec y
      = ∑ x ∈ Finset.range n,
          (List.zipWith (fun c y => extend c.dofMap c.diag x / gdiag x * localComb c y c.eigenvectors x) cs ys).sum ^ 2 := by
        rw [Finset.sum_range]
        exact Finset.sum_congr rfl fun x _ => by rw [hentry x, pow_two]
    _ ≤ ∑ x ∈ Finset.range n, (List.zipWith (fun c y => localComb c y c.eigenvectors x ^ 2) cs ys).sum :=
        Finset.sum_le_sum fun x hx => hpoint x (Finset.mem_range.1 hx)
    _ = y ⬝ᵥ y := by
        rw [htotal, hflat, List.map_ofFn, List.sum_ofFn]
        exact Finset.sum_congr rfl fun p _ => by simp [pow_two]

/-- **C126**, from below: if every combination of the eigenvectors of an agglomerate keeps a share of its length on the
dofs that belong to no other agglomerate, prolongation keeps this share, and so does a lower bound of the matrix.
(Partial: not without such a share, see `C126_below_violated`.) -/
theorem C126_share_partial (debug dynAdds : Bool) (gdiag : ℕ → K) (css : List (List (CopyData K)))
    (hcs : ∀ cs ∈ css, ∀ c ∈ cs, c.WellFormed) (n : ℕ)
    (hdiag : ∀ x, x < n → gdiag x ≠ 0 ∧ DiagSums gdiag css.flatten x) (share : K)
    (hshare : OwnShare n css.flatten share) :
    ∃ a, assembleAll debug dynAdds gdiag (css.map collect) = .ok a ∧
      KeepsShare (a.R.block (rowsOf css.flatten).length n) share ∧
      ∀ (A : Matrix (Fin n) (Fin n) K) (bound : K), 0 ≤ bound → BoundedBelow A bound →
        BoundedBelow (galerkin (a.R.block (rowsOf css.flatten).length n) A) (bound * share) := by
  obtain ⟨a, h, h'⟩ := assembleAll_spec debug dynAdds gdiag css hcs
  refine ⟨a, h, ?_⟩
  suffices hR : KeepsShare (a.R.block (rowsOf css.flatten).length n) share by
    refine ⟨hR, fun A bound h0 hA y => ?_⟩
    rw [galerkin_form, mul_assoc]
    exact (mul_le_mul_of_nonneg_left (hR y) h0).trans (hA _)
  intro y
  generalize css.flatten = cs at *
  obtain ⟨ys, hys, hflat⟩ := split_rows (cs := cs) (List.ofFn y) (by simp)
  have hentry := prolong_entry (n := n) gdiag (fun r x => (h' r x).1) y hys hflat
  have hpoint : ∀ x, x < n →
      (List.zipWith (fun c y => if x ∈ c.dofMap ∧ InOneOnly cs x then localComb c y c.eigenvectors x ^ 2 else 0)
        cs ys).sum
      ≤ (List.zipWith (fun c y => extend c.dofMap c.diag x / gdiag x * localComb c y c.eigenvectors x) cs ys).sum ^ 2 := by
    intro x hx
    obtain ⟨hg, hsum⟩ := hdiag x hx
    by_cases h1 : InOneOnly cs x
    · rw [comb_one gdiag x hys h1, sum_map_div, hsum, div_self hg, one_pow, one_mul]
      simp only [h1, and_true]
      exact le_rfl
    · have h0 : (List.zipWith (fun c y => if x ∈ c.dofMap ∧ InOneOnly cs x then
          localComb c y c.eigenvectors x ^ 2 else 0) cs ys).sum = 0 := by
        apply List.sum_eq_zero
        intro b hb
        obtain ⟨i, hi, rfl⟩ := List.getElem_of_mem hb
        simp [h1]
      rw [h0]
      exact sq_nonneg _
  have htotal : ∀ cs' : List (CopyData K), (∀ c ∈ cs', c ∈ cs) → ∀ ys' : List (List K),
      List.Forall₂ (fun c y => y.length = c.eigenvectors.length) cs' ys' →
      share * (ys'.flatten.map (· ^ 2)).sum ≤ ∑ x ∈ Finset.range n,
        (List.zipWith (fun c y => if x ∈ c.dofMap ∧ InOneOnly cs x then localComb c y c.eigenvectors x ^ 2 else 0)
          cs' ys').sum := by
    intro cs' hcs' ys' hys'
    induction hys' with
    | nil => simp
    | @cons c y' cs' ys' hc _ ih =>
      simp only [List.zipWith_cons_cons, List.sum_cons, Finset.sum_add_distrib, List.flatten_cons, List.map_append,
        List.sum_append, mul_add]
      exact add_le_add (hshare c (hcs' c List.mem_cons_self) y' hc)
        (ih fun c hc => hcs' c (List.mem_cons_of_mem _ hc))
  calc share * (y ⬝ᵥ y) = share * (ys.flatten.map (· ^ 2)).sum := by
        rw [hflat, List.map_ofFn, List.sum_ofFn]
        congr 1
        exact Finset.sum_congr rfl fun p _ => by simp [pow_two]
    _ ≤ _ := htotal cs (fun _ hc => hc) ys hys
    _ ≤ ∑ x ∈ Finset.range n,
          (List.zipWith (fun c y => extend c.dofMap c.diag x / gdiag x * localComb c y c.eigenvectors x) cs ys).sum ^ 2 :=
        Finset.sum_le_sum fun x hx => hpoint x (Finset.mem_range.1 hx)
    _ = (a.R.block (rowsOf cs).length n).transpose.mulVec y ⬝ᵥ (a.R.block (rowsOf cs).length n).transpose.mulVec y := by
        rw [Finset.sum_range]
        exact Finset.sum_congr rfl fun x _ => by rw [hentry x, pow_two]

/-- **C126**, on all levels: what bounds the matrix from above bounds the coarse matrices.  (Partial: not from below, see
`C126_below_violated`.) -/
theorem C126_levels_partial (dims : ℕ → ℕ) (A : Matrix (Fin (dims 0)) (Fin (dims 0)) K)
    (R : ∀ l, Matrix (Fin (dims (l + 1))) (Fin (dims l)) K) (hR : ∀ l, NonExpanding (R l)) (bound : K) (h0 : 0 ≤ bound)
    (hA : BoundedBy A bound) : ∀ l, BoundedBy (coarseMatrix dims A R l) bound := by
  intro l
  induction l with
  | zero => exact hA
  | succ l ih =>
    intro y
    rw [coarseMatrix, galerkin_form]
    exact (ih _).trans (mul_le_mul_of_nonneg_left (hR l y) h0)

/-- **C126**, from below on all levels: the share is lost once for each level. -/
theorem C126_levels_share_partial (dims : ℕ → ℕ) (A : Matrix (Fin (dims 0)) (Fin (dims 0)) K)
    (R : ∀ l, Matrix (Fin (dims (l + 1))) (Fin (dims l)) K) (share : K) (hs : 0 ≤ share)
    (hR : ∀ l, KeepsShare (R l) share) (bound : K) (h0 : 0 ≤ bound) (hA : BoundedBelow A bound) :
    ∀ l, BoundedBelow (coarseMatrix dims A R l) (bound * share ^ l) := by
  intro l
  induction l with
  | zero => simpa [coarseMatrix] using hA
  | succ l ih =>
    intro y
    rw [coarseMatrix, galerkin_form]
    have h1 := mul_le_mul_of_nonneg_left (hR l y) (mul_nonneg h0 (pow_nonneg hs l))
    rw [pow_succ, ← mul_assoc, mul_assoc (bound * share ^ l)]
    exact h1.trans (ih _)

end

section violated

/-- Two agglomerates with the same two dofs. -/
def samePair (c s : ℚ) : List (List (CopyData ℚ)) :=
  [[{ eigenvalues := [1 / 2], eigenvectors := [[1, 0]], diag := [1 / 2, 1 / 2], dofMap := [0, 1] }],
    [{ eigenvalues := [1 / 2], eigenvectors := [[c, s]], diag := [1 / 2, 1 / 2], dofMap := [0, 1] }]]

/-- From below this is false: already for the identity, half of which belongs to each of two agglomerates on two
processes, the quadratic form of the coarse matrix has no lower bound.  The local eigenvectors are orthonormal and the rows
of the restriction matrix independent. -/
theorem C126_below_violated (debug dynAdds : Bool) (factor : ℚ) :
    ∃ css : List (List (CopyData ℚ)), css.length = 2 ∧ (∀ cs ∈ css, ∀ c ∈ cs, c.WellFormed) ∧
      (∀ c ∈ css.flatten, ∀ d ∈ c.dofMap, d < 2) ∧ (∀ c ∈ css.flatten, LocalOrthonormal c.eigenvectors) ∧
      (∀ c ∈ css.flatten, ∀ d ∈ c.diag, 0 ≤ d) ∧ (∀ x, x < 2 → DiagSums (fun _ => 1) css.flatten x) ∧
      ∃ a, assembleAll debug dynAdds (fun _ => 1) (css.map collect) = .ok a ∧
        ∃ m, m = (rowsOf css.flatten).length ∧ IndependentRows (a.R.block m 2) ∧
          ∃ y : Fin m → ℚ, factor * (y ⬝ᵥ (galerkin (a.R.block m 2) 1).mulVec y) < y ⬝ᵥ y := by
  obtain ⟨t, ht⟩ : ∃ t : ℚ, t = 1 / (|factor| + 1) := ⟨_, rfl⟩
  have ht0 : 0 < t := by rw [ht]; positivity
  have ht1 : t ≤ 1 := by
    rw [ht, div_le_one (by positivity)]
    linarith [abs_nonneg factor]
  have hft : |factor| * t < 1 := by
    rw [ht, mul_one_div, div_lt_one (by positivity)]
    linarith
  obtain ⟨c, hc⟩ : ∃ c : ℚ, c = (1 - t ^ 2) / (1 + t ^ 2) := ⟨_, rfl⟩
  obtain ⟨s, hs⟩ : ∃ s : ℚ, s = 2 * t / (1 + t ^ 2) := ⟨_, rfl⟩
  have hu : c * c + s * s = 1 := by
    rw [hc, hs]
    field_simp
    ring
  have hs0 : s ≠ 0 := by
    rw [hs]
    positivity
  have hc1 : 1 - c ≤ 2 * t ^ 2 := by
    have : 1 - c = 2 * t ^ 2 / (1 + t ^ 2) := by
      rw [hc]
      field_simp
      ring
    rw [this, div_le_iff₀ (by positivity)]
    nlinarith [sq_nonneg (t ^ 2)]
  have hwf : ∀ cs ∈ samePair c s, ∀ d ∈ cs, d.WellFormed := by
    intro cs hcs d hd
    simp only [samePair, List.mem_cons, List.not_mem_nil, or_false] at hcs
    rcases hcs with rfl | rfl <;> rw [List.mem_singleton.1 hd] <;> exact ⟨by simp, rfl, by simp⟩
  refine ⟨samePair c s, rfl, hwf, ?_, ?_, ?_, ?_, ?_⟩
  · simp [samePair]
  · simp [samePair, LocalOrthonormal, localDot, hu]
  · simp [samePair]
  · intro x hx
    interval_cases x <;> norm_num [DiagSums, samePair, extend_cons]
  · obtain ⟨a, ha, h1, -⟩ := C20_rows debug dynAdds (fun _ => 1) (samePair c s) hwf
    refine ⟨a, ha, 2, rfl, ?_, ![1, -1], ?_⟩
    · intro y hy
      have e0 := congrFun hy 0
      have e1 := congrFun hy 1
      simp [Matrix.mulVec, dotProduct, Fin.sum_univ_two, Entries.block, h1 0 _ _ rfl, h1 1 _ _ rfl, extend_cons] at e0 e1
      have h2 : y 1 = 0 := e1.resolve_left hs0
      have h3 : y 0 = 0 := by
        rw [h2] at e0
        linarith
      ext i
      fin_cases i <;> assumption
    · rw [galerkin_form, Matrix.one_mulVec]
      simp [Matrix.mulVec, dotProduct, Fin.sum_univ_two, Entries.block, h1 0 _ _ rfl, h1 1 _ _ rfl, extend_cons]
      obtain ⟨v, hv⟩ : ∃ v, v = (2⁻¹ + -(2⁻¹ * c)) * (2⁻¹ + -(2⁻¹ * c)) + 2⁻¹ * s * (2⁻¹ * s) := ⟨_, rfl⟩
      have h2 : v = (1 - c) / 2 := by
        rw [hv]
        linear_combination hu / 4
      have h3 : 0 ≤ v := by
        rw [hv]
        nlinarith [mul_self_nonneg (2⁻¹ + -(2⁻¹ * c)), mul_self_nonneg (2⁻¹ * s)]
      have h4 : v ≤ t := by nlinarith
      rw [← hv]
      nlinarith [mul_le_mul_of_nonneg_right (le_abs_self factor) h3, mul_le_mul_of_nonneg_left h4 (abs_nonneg factor)]

end violated

section examples

/-- Two processes whose agglomerates share a dof. -/
def exSharedDof : List (List (CopyData ℚ)) :=
  [[{ eigenvalues := [1, 2], eigenvectors := [[3 / 5, 4 / 5], [4 / 5, -3 / 5]], diag := [1, 1], dofMap := [0, 1] }],
    [{ eigenvalues := [1], eigenvectors := [[5 / 13, 12 / 13]], diag := [1, 1], dofMap := [1, 2] }]]

example := C126_prolongation true true (fun x => if x = 1 then 2 else 1) exSharedDof (by
    intro cs hcs d hd
    simp only [exSharedDof, List.mem_cons, List.not_mem_nil, or_false] at hcs
    rcases hcs with rfl | rfl <;> rw [List.mem_singleton.1 hd] <;> exact ⟨by decide, rfl, by decide⟩) 3
  (by decide) (by
    simp only [exSharedDof, LocalOrthonormal, localDot]
    norm_num) (by decide +kernel) (by
    intro x hx
    interval_cases x <;> norm_num [DiagSums, exSharedDof, extend_cons])

/-- On the dofs 0 and 2 the vectors `(4/5, -3/5)` and `(5/13, 12/13)` keep more than half of their length. -/
example := C126_share_partial (K := ℚ) true true (fun x => if x = 1 then 2 else 1)
  [[{ eigenvalues := [1], eigenvectors := [[4 / 5, -3 / 5]], diag := [1, 1], dofMap := [0, 1] }],
    [{ eigenvalues := [1], eigenvectors := [[5 / 13, 12 / 13]], diag := [1, 1], dofMap := [1, 2] }]] (by
    intro cs hcs d hd
    simp only [List.mem_cons, List.not_mem_nil, or_false] at hcs
    rcases hcs with rfl | rfl <;> rw [List.mem_singleton.1 hd] <;> exact ⟨by decide, rfl, by decide⟩) 3 (by
    intro x hx
    interval_cases x <;> norm_num [DiagSums, extend_cons]) (1 / 2 : ℚ) (by
    intro c hc ys hys
    simp only [List.flatten_cons, List.flatten_nil, List.append_nil, List.cons_append, List.nil_append, List.mem_cons,
      List.not_mem_nil, or_false] at hc
    rcases hc with rfl | rfl <;> obtain ⟨y, rfl⟩ := List.length_eq_one_iff.1 hys <;>
      norm_num [Finset.sum_range_succ, InOneOnly, List.countP_cons, extend_cons] <;> nlinarith [sq_nonneg y])

/-- Any number of levels of two unknowns, with a rotation that halves all vectors. -/
example := C126_levels_partial (K := ℚ) (fun _ => 2) !![2, -1; -1, 2] (fun _ => !![3 / 10, 2 / 5; 2 / 5, -3 / 10]) (by
    intro _ y
    simp [Matrix.mulVec, dotProduct, Fin.sum_univ_two]
    nlinarith [sq_nonneg (y 0), sq_nonneg (y 1)]) 3 (by norm_num) (by
    intro v
    simp [Matrix.mulVec, dotProduct, Fin.sum_univ_two]
    nlinarith [sq_nonneg (v 0 + v 1)])

example := C126_levels_share_partial (K := ℚ) (fun _ => 2) !![2, -1; -1, 2]
  (fun _ => !![3 / 10, 2 / 5; 2 / 5, -3 / 10]) (1 / 4) (by norm_num) (by
    intro _ y
    simp [Matrix.mulVec, dotProduct, Fin.sum_univ_two]
    nlinarith [sq_nonneg (y 0), sq_nonneg (y 1)]) 1 (by norm_num) (by
    intro v
    simp [Matrix.mulVec, dotProduct, Fin.sum_univ_two]
    nlinarith [sq_nonneg (v 0 - v 1)])

example := C126_below_violated true false 1000

end examples

end Mfmg
