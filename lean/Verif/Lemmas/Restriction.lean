import Verif.Spec.Restriction
import Mathlib.Algebra.BigOperators.Group.Finset.Basic
import Mathlib.Algebra.BigOperators.Intervals
import Mathlib.Tactic.Ring
import Mathlib.Tactic.FieldSimp

set_option autoImplicit false

namespace Mfmg

theorem Outcome.get_eq {α : Type} {v : List α} {i : ℕ} {a : α} (h : v[i]? = some a) (w : String) :
    Outcome.get v i w = .ok a := by
  simp [Outcome.get, h]

theorem Outcome.assert_true (debug : Bool) : Outcome.assert debug true = .ok () := by
  simp [Outcome.assert]

section

variable {K : Type}

@[simp] theorem extend_nil [Zero K] (v : List K) (x : ℕ) : extend [] v x = 0 := by
  simp [extend]

@[simp] theorem extend_nil_right [Zero K] (ds : List ℕ) (x : ℕ) :
    extend ds ([] : List K) x = 0 := by
  simp [extend]

theorem extend_cons [Zero K] (d : ℕ) (ds : List ℕ) (a : K) (v : List K) (x : ℕ) :
    extend (d :: ds) (a :: v) x = if x = d then a else extend ds v x := by
  by_cases h : x = d
  · simp [extend, h]
  · have : (x == d) = false := by simpa using h
    simp [extend, List.lookup_cons, h, this]

theorem extend_not_mem [Zero K] {ds : List ℕ} {v : List K} {x : ℕ} (h : x ∉ ds) :
    extend ds v x = 0 := by
  induction ds generalizing v with
  | nil => simp
  | cons d ds ih =>
    cases v with
    | nil => simp
    | cons a v =>
      have hx : x ≠ d := fun e => h (by simp [e])
      rw [extend_cons, if_neg hx, ih (fun e => h (List.mem_cons_of_mem _ e))]

/-- The state of the copiers after all agglomerates. -/
theorem collect_eq (cs : List (CopyData K)) :
    collect cs = ⟨cs.flatMap (·.eigenvalues), cs.flatMap (·.eigenvectors), cs.map (·.diag),
      cs.map (·.dofMap), cs.map (fun c => c.eigenvectors.length)⟩ := by
  have key : ∀ (cs : List (CopyData K)) (s : Collected K),
      cs.foldl copyLocalToGlobal s =
        ⟨s.eigenvalues ++ cs.flatMap (·.eigenvalues), s.eigenvectors ++ cs.flatMap (·.eigenvectors),
          s.diag ++ cs.map (·.diag), s.dofMaps ++ cs.map (·.dofMap),
          s.nLocal ++ cs.map (fun c => c.eigenvectors.length)⟩ := by
    intro cs
    induction cs with
    | nil => intro s; simp
    | cons c cs ih => intro s; simp [ih, copyLocalToGlobal]
  simp [collect, key]

/-- A matrix given by its rows `p, p+1, …`. -/
def rowsMat [AddMonoid K] (f : CopyData K → List K → ℕ → K) :
    List (CopyData K × List K) → ℕ → Entries K
  | [], _, _, _ => 0
  | (c, v) :: l, p, r, x => (if r = p then f c v x else 0) + rowsMat f l (p + 1) r x

theorem rowsMat_append [AddMonoid K] (f : CopyData K → List K → ℕ → K)
    (l l' : List (CopyData K × List K)) (p r x : ℕ) :
    rowsMat f (l ++ l') p r x = rowsMat f l p r x + rowsMat f l' (p + l.length) r x := by
  induction l generalizing p with
  | nil => simp [rowsMat]
  | cons a l ih =>
    obtain ⟨c, v⟩ := a
    simp only [List.cons_append, rowsMat, ih, List.length_cons]
    rw [show p + 1 + l.length = p + (l.length + 1) by omega, add_assoc]

theorem rowsMat_lt [AddMonoid K] (f : CopyData K → List K → ℕ → K)
    (l : List (CopyData K × List K)) {p r : ℕ} (h : r < p) (x : ℕ) : rowsMat f l p r x = 0 := by
  induction l generalizing p with
  | nil => rfl
  | cons a l ih =>
    obtain ⟨c, v⟩ := a
    simp [rowsMat, ih (show r < p + 1 by omega), show r ≠ p by omega]

theorem rowsMat_add [AddMonoid K] (f : CopyData K → List K → ℕ → K)
    (l : List (CopyData K × List K)) (p r x : ℕ) :
    rowsMat f l p (p + r) x = match l[r]? with
      | some (c, v) => f c v x
      | none => 0 := by
  induction l generalizing p r with
  | nil => simp [rowsMat]
  | cons a l ih =>
    obtain ⟨c, v⟩ := a
    cases r with
    | zero => simp [rowsMat, rowsMat_lt]
    | succ r =>
      have := ih (p + 1) r
      rw [show p + 1 + r = p + (r + 1) by omega] at this
      simp [rowsMat, this]

variable [Field K]

/-- One step of the innermost loop. -/
def elemStep (dynAdds : Bool) (gdiag : ℕ → K) (row : ℕ) (s : Assembled K) (e : ℕ × K × K) :
    Assembled K :=
  ⟨s.R.add row e.1 (e.2.1 / gdiag e.1 * e.2.2), s.V.add row e.1 e.2.2,
    if dynAdds then s.delta.add row e.1 ((e.2.1 / gdiag e.1 - 1) * e.2.2)
    else s.delta.put row e.1 ((e.2.1 / gdiag e.1 - 1) * e.2.2)⟩

theorem elemLoop_eq (dynAdds : Bool) (gdiag : ℕ → K) (row : ℕ) (dofs : List ℕ) (diag : List K)
    (ev : List K) (j : ℕ) (s : Assembled K) (h1 : j + ev.length ≤ dofs.length)
    (h2 : j + ev.length ≤ diag.length) :
    elemLoop dynAdds gdiag row dofs diag ev j s =
      .ok (((dofs.drop j).zip ((diag.drop j).zip ev)).foldl (elemStep dynAdds gdiag row) s) := by
  induction ev generalizing j s with
  | nil => simp [elemLoop]
  | cons v ev ih =>
    simp only [List.length_cons] at h1 h2
    have hj : j < dofs.length := by omega
    have hj' : j < diag.length := by omega
    rw [elemLoop, Outcome.get_eq (List.getElem?_eq_getElem hj),
      Outcome.get_eq (List.getElem?_eq_getElem hj')]
    simp only [Outcome.ok_bind]
    rw [ih _ _ (by omega) (by omega), List.drop_eq_getElem_cons hj, List.drop_eq_getElem_cons hj']
    simp only [List.zip_cons_cons, List.foldl_cons]
    rfl

/-- Rows of the three matrices. -/
def fR (gdiag : ℕ → K) (c : CopyData K) (v : List K) (x : ℕ) : K :=
  extend c.dofMap c.diag x / gdiag x * extend c.dofMap v x
def fV (c : CopyData K) (v : List K) (x : ℕ) : K := extend c.dofMap v x
def fD (gdiag : ℕ → K) (c : CopyData K) (v : List K) (x : ℕ) : K :=
  (extend c.dofMap c.diag x / gdiag x - 1) * extend c.dofMap v x

/-- Entries of the matrices after the innermost loop. -/
theorem foldl_elemStep (dynAdds : Bool) (gdiag : ℕ → K) (row : ℕ) (ds : List ℕ) (ws ev : List K)
    (hnd : ds.Nodup) (h1 : ws.length = ds.length) (h2 : ev.length = ds.length) (s : Assembled K)
    (hz : ∀ x ∈ ds, s.delta row x = 0) :
    let s' := (ds.zip (ws.zip ev)).foldl (elemStep dynAdds gdiag row) s
    ∀ r x,
      s'.R r x = s.R r x + (if r = row then extend ds ws x / gdiag x * extend ds ev x else 0) ∧
      s'.V r x = s.V r x + (if r = row then extend ds ev x else 0) ∧
      s'.delta r x =
        s.delta r x + (if r = row then (extend ds ws x / gdiag x - 1) * extend ds ev x else 0) := by
  induction ds generalizing ws ev s with
  | nil => intro s' r x; simp [s']
  | cons d ds ih =>
    cases ws with
    | nil => simp at h1
    | cons w ws =>
      cases ev with
      | nil => simp at h2
      | cons v ev =>
        rw [List.nodup_cons] at hnd
        simp only [List.length_cons, Nat.add_right_cancel_iff] at h1 h2
        intro s' r x
        have hz' : ∀ y ∈ ds, (elemStep dynAdds gdiag row s (d, w, v)).delta row y = 0 := by
          intro y hy
          have : y ≠ d := fun e => hnd.1 (e ▸ hy)
          have h0 := hz y (List.mem_cons_of_mem _ hy)
          cases dynAdds <;> simp [elemStep, Entries.add, Entries.put, this, h0]
        obtain ⟨hR, hV, hD⟩ := ih ws ev hnd.2 h1 h2 (elemStep dynAdds gdiag row s (d, w, v)) hz' r x
        have hs' : s' = (ds.zip (ws.zip ev)).foldl (elemStep dynAdds gdiag row)
            (elemStep dynAdds gdiag row s (d, w, v)) := by simp [s']
        rw [hs', hR, hV, hD]
        simp only [extend_cons]
        by_cases hr : r = row
        · subst hr
          by_cases hx : x = d
          · subst hx
            have e1 : extend ds ev x = 0 := extend_not_mem hnd.1
            have h0 := hz x List.mem_cons_self
            cases dynAdds <;> simp [elemStep, Entries.add, Entries.put, e1, h0]
          · cases dynAdds <;> simp [elemStep, Entries.add, Entries.put, hx]
        · cases dynAdds <;> simp [elemStep, Entries.add, Entries.put, hr]

/-- The matrices `a'` are `a` plus the rows `l` from row `p` on. -/
def AddsRows (gdiag : ℕ → K) (l : List (CopyData K × List K)) (p : ℕ) (a a' : Assembled K) : Prop :=
  ∀ r x, a'.R r x = a.R r x + rowsMat (fR gdiag) l p r x ∧
    a'.V r x = a.V r x + rowsMat fV l p r x ∧
    a'.delta r x = a.delta r x + rowsMat (fD gdiag) l p r x

/-- No entry of delta from row `p` on has been written. -/
def Fresh (p : ℕ) (a : Assembled K) : Prop := ∀ r x, p ≤ r → a.delta r x = 0

theorem AddsRows.trans {gdiag : ℕ → K} {l l' : List (CopyData K × List K)} {p : ℕ}
    {a b c : Assembled K} (h : AddsRows gdiag l p a b) (h' : AddsRows gdiag l' (p + l.length) b c) :
    AddsRows gdiag (l ++ l') p a c := by
  intro r x
  obtain ⟨h1, h2, h3⟩ := h r x
  obtain ⟨g1, g2, g3⟩ := h' r x
  simp only [rowsMat_append, g1, h1, g2, h2, g3, h3, add_assoc, and_self]

theorem AddsRows.refl (gdiag : ℕ → K) (p : ℕ) (a : Assembled K) : AddsRows gdiag [] p a a := by
  intro r x; simp [rowsMat]

theorem AddsRows.fresh {gdiag : ℕ → K} {l : List (CopyData K × List K)} {p : ℕ}
    {a b : Assembled K} (h : AddsRows gdiag l p a b) (hf : Fresh p a) : Fresh (p + l.length) b := by
  intro r x hr
  rw [(h r x).2.2, hf r x (by omega)]
  obtain ⟨k, rfl⟩ : ∃ k, r = p + k := ⟨r - p, by omega⟩
  rw [rowsMat_add, List.getElem?_eq_none (by omega)]
  simp

theorem vecLoop_spec (debug dynAdds : Bool) (gdiag : ℕ → K) (first : ℕ) (c : CopyData K)
    (hc : c.WellFormed) (evs pre vs post : List (List K)) (hevs : evs = pre ++ vs ++ post)
    (hvs : ∀ v ∈ vs, v ∈ c.eigenvectors) (a : Assembled K) (hf : Fresh (first + pre.length) a) :
    ∃ a', vecLoop debug dynAdds gdiag first evs c.dofMap (.ok c.diag) vs.length pre.length a
        = .ok (pre.length + vs.length, a') ∧
      AddsRows gdiag (vs.map (fun v => (c, v))) (first + pre.length) a a' := by
  induction vs generalizing pre a with
  | nil => exact ⟨a, by simp [vecLoop], by simpa using AddsRows.refl gdiag _ a⟩
  | cons v vs ih =>
    have hv := hc.vec_length v (hvs v List.mem_cons_self)
    have hget : evs[pre.length]? = some v := by simp [hevs]
    obtain ⟨a1, h1, h1'⟩ : ∃ a1, (match v with
        | [] => (.ok a : Outcome (Assembled K))
        | _ :: _ => (do
          let diag ← (.ok c.diag : Outcome (List K))
          elemLoop dynAdds gdiag (first + pre.length) c.dofMap diag v 0 a)) = .ok a1 ∧
        AddsRows gdiag [(c, v)] (first + pre.length) a a1 := by
      refine ⟨(c.dofMap.zip (c.diag.zip v)).foldl
        (elemStep dynAdds gdiag (first + pre.length)) a, ?_, ?_⟩
      · cases v with
        | nil => simp
        | cons x v =>
          simp only [Outcome.ok_bind]
          rw [elemLoop_eq _ _ _ _ _ _ _ _ (by omega) (by have := hc.diag_length; omega)]
          simp
      · intro r x
        obtain ⟨e1, e2, e3⟩ := foldl_elemStep dynAdds gdiag (first + pre.length) c.dofMap c.diag v
          hc.nodup hc.diag_length hv a (fun x _ => hf _ x le_rfl) r x
        rw [e1, e2, e3]
        simp [rowsMat, fR, fV, fD]
    obtain ⟨a2, h2, h2'⟩ := ih (pre ++ [v]) (by simp [hevs])
      (fun w hw => hvs w (List.mem_cons_of_mem _ hw)) a1
      (by have := h1'.fresh hf; simpa [Nat.add_assoc] using this)
    refine ⟨a2, ?_, ?_⟩
    · rw [List.length_cons, vecLoop, Outcome.get_eq hget]
      simp only [Outcome.ok_bind, hv, beq_self_eq_true, Outcome.assert_true]
      simp only [List.length_append, List.length_cons, List.length_nil, Nat.zero_add] at h2
      cases v with
      | nil =>
        simp only [Outcome.ok.injEq] at h1
        subst h1
        simp only
        rw [h2]
        simp [Nat.add_comm, Nat.add_left_comm]
      | cons y v =>
        simp only [Outcome.ok_bind] at h1 ⊢
        rw [h1]
        simp only [Outcome.ok_bind]
        rw [h2]
        simp [Nat.add_comm, Nat.add_left_comm]
    · have := h1'.trans (l' := vs.map (fun v => (c, v))) (by simpa [Nat.add_assoc] using h2')
      simpa using this

theorem aggLoop_spec (debug dynAdds : Bool) (gdiag : ℕ → K) (first : ℕ) (s : Collected K)
    (pre cs : List (CopyData K)) (hs : s = collect (pre ++ cs)) (hcs : ∀ c ∈ cs, c.WellFormed)
    (a : Assembled K) (hf : Fresh (first + (rowsOf pre).length) a) :
    ∃ a', aggLoop debug dynAdds gdiag first s (cs.map (fun c => c.eigenvectors.length))
        pre.length (rowsOf pre).length a = .ok a' ∧
      AddsRows gdiag (rowsOf cs) (first + (rowsOf pre).length) a a' := by
  induction cs generalizing pre a with
  | nil => exact ⟨a, by simp [aggLoop], by simpa [rowsOf] using AddsRows.refl gdiag _ a⟩
  | cons c cs ih =>
    have hlen : (pre.flatMap (·.eigenvectors)).length = (rowsOf pre).length := by
      simp [rowsOf, List.length_flatMap]
    obtain ⟨a1, h1, h1'⟩ := vecLoop_spec debug dynAdds gdiag first c (hcs c List.mem_cons_self)
      s.eigenvectors (pre.flatMap (·.eigenvectors)) c.eigenvectors
      (cs.flatMap (·.eigenvectors)) (by simp [hs, collect_eq]) (fun v hv => hv) a (by rw [hlen]; exact hf)
    rw [hlen] at h1 h1'
    have hpre : (rowsOf (pre ++ [c])).length = (rowsOf pre).length + c.eigenvectors.length := by
      simp [rowsOf]
    obtain ⟨a2, h2, h2'⟩ := ih (pre ++ [c]) (by simp [hs])
      (fun d hd => hcs d (List.mem_cons_of_mem _ hd)) a1
      (by have := h1'.fresh hf; simpa [hpre, Nat.add_assoc] using this)
    refine ⟨a2, ?_, ?_⟩
    · have hm : s.dofMaps[pre.length]? = some c.dofMap := by simp [hs, collect_eq]
      have hd : s.diag[pre.length]? = some c.diag := by simp [hs, collect_eq]
      rw [hpre] at h2
      simp only [List.length_append, List.length_cons, List.length_nil, Nat.zero_add] at h2
      rw [List.map_cons]
      generalize c.eigenvectors.length = n at h1 h2 ⊢
      cases n with
      | zero =>
        simp only [vecLoop, Outcome.ok.injEq, Prod.mk.injEq] at h1
        rw [← h1.2] at h2
        simpa [aggLoop] using h2
      | succ n =>
        simp only [aggLoop, Outcome.get_eq hm, Outcome.get_eq hd, Outcome.ok_bind, h1, h2]
    · have := h1'.trans (l' := rowsOf cs) (by simpa [hpre, Nat.add_assoc] using h2')
      simpa [rowsOf] using this

theorem assemble_spec (debug dynAdds : Bool) (gdiag : ℕ → K) (first : ℕ) (cs : List (CopyData K))
    (hcs : ∀ c ∈ cs, c.WellFormed) (a : Assembled K) (hf : Fresh first a) :
    ∃ a', assemble debug dynAdds gdiag first (collect cs) a = .ok a' ∧
      AddsRows gdiag (rowsOf cs) first a a' := by
  obtain ⟨a', h, h'⟩ := aggLoop_spec debug dynAdds gdiag first (collect cs) [] cs rfl hcs a
    (by simpa [rowsOf] using hf)
  refine ⟨a', ?_, by simpa [rowsOf] using h'⟩
  have : (collect cs).nLocal = cs.map (fun c => c.eigenvectors.length) := by simp [collect_eq]
  rw [assemble, this]
  simp only [rowsOf, List.flatMap_nil, List.length_nil] at h
  simp [collect_eq, Outcome.assert_true] at h ⊢
  exact h

omit [Field K] in
theorem rowsOf_append (cs cs' : List (CopyData K)) : rowsOf (cs ++ cs') = rowsOf cs ++ rowsOf cs' := by
  simp [rowsOf]

theorem assembleRanks_spec (debug dynAdds : Bool) (gdiag : ℕ → K) (pre css : List (List (CopyData K)))
    (counts : List ℕ)
    (hcounts : counts = (pre ++ css).map (fun cs => (collect cs).eigenvectors.length))
    (hcs : ∀ cs ∈ css, ∀ c ∈ cs, c.WellFormed) (a : Assembled K)
    (hf : Fresh (rowsOf pre.flatten).length a) :
    ∃ a', assembleRanks debug dynAdds gdiag counts (css.map collect) pre.length a = .ok a' ∧
      AddsRows gdiag (rowsOf css.flatten) (rowsOf pre.flatten).length a a' := by
  induction css generalizing pre a with
  | nil => exact ⟨a, by simp [assembleRanks], by simpa [rowsOf] using AddsRows.refl gdiag _ a⟩
  | cons cs css ih =>
    have hb : rowsBefore counts pre.length = (rowsOf pre.flatten).length := by
      rw [rowsBefore, hcounts, ← List.map_take]
      simp only [List.take_left']
      clear ih hf hcounts
      induction pre with
      | nil => simp [rowsOf]
      | cons p pre ih =>
        simp only [List.map_cons, List.sum_cons, ih, List.flatten_cons, rowsOf_append,
          List.length_append]
        simp [collect_eq, rowsOf]
    obtain ⟨a1, h1, h1'⟩ := assemble_spec debug dynAdds gdiag (rowsOf pre.flatten).length cs
      (hcs cs List.mem_cons_self) a hf
    have hpre : (rowsOf (pre ++ [cs]).flatten).length
        = (rowsOf pre.flatten).length + (rowsOf cs).length := by
      simp [rowsOf]
    obtain ⟨a2, h2, h2'⟩ := ih (pre ++ [cs]) (by simp [hcounts])
      (fun d hd => hcs d (List.mem_cons_of_mem _ hd)) a1 (by rw [hpre]; exact h1'.fresh hf)
    refine ⟨a2, ?_, ?_⟩
    · rw [List.map_cons, assembleRanks, hb, h1]
      simpa using h2
    · rw [hpre] at h2'
      have := h1'.trans h2'
      simpa [rowsOf] using this

/-- The whole assembly: the result consists of the specified rows. -/
theorem assembleAll_spec (debug dynAdds : Bool) (gdiag : ℕ → K) (css : List (List (CopyData K)))
    (hcs : ∀ cs ∈ css, ∀ c ∈ cs, c.WellFormed) :
    ∃ a, assembleAll debug dynAdds gdiag (css.map collect) = .ok a ∧
      ∀ r x,
        a.R r x = rowsMat (fR gdiag) (rowsOf css.flatten) 0 r x ∧
        a.V r x = rowsMat fV (rowsOf css.flatten) 0 r x ∧
        a.delta r x = rowsMat (fD gdiag) (rowsOf css.flatten) 0 r x := by
  obtain ⟨a, h, h'⟩ := assembleRanks_spec debug dynAdds gdiag [] css _ rfl hcs
    ⟨fun _ _ => 0, fun _ _ => 0, fun _ _ => 0⟩ (by intro r x _; rfl)
  refine ⟨a, ?_, ?_⟩
  · rw [assembleAll, ← h]
    simp [Function.comp_def]
  · intro r x
    have := h' r x
    simpa [rowsOf] using this

/-- Sum of `y_r M(r, x)` over the rows of a matrix given by rows. -/
theorem sum_rowsMat (f : CopyData K → List K → ℕ → K) (l : List (CopyData K × List K))
    (ys : List K) (hlen : ys.length = l.length) (x : ℕ) :
    (∑ r ∈ Finset.range l.length, ys.getD r 0 * rowsMat f l 0 r x)
      = (List.zipWith (fun y cv => y * f cv.1 cv.2 x) ys l).sum := by
  have key : ∀ r, rowsMat f l 0 r x = match l[r]? with
      | some (c, v) => f c v x
      | none => 0 := by
    intro r
    have := rowsMat_add f l 0 r x
    rwa [Nat.zero_add] at this
  simp only [key]
  clear key
  induction l generalizing ys with
  | nil => simp
  | cons a l ih =>
    cases ys with
    | nil => simp at hlen
    | cons y ys =>
      rw [List.length_cons, Finset.sum_range_succ']
      simp only [List.getElem?_cons_succ, List.getD_cons_succ]
      rw [ih ys (by simpa using hlen)]
      simp [add_comm]

end

end Mfmg
