import Verif.Props.FastAP

/-!
# C70: `fast_ap` when the agglomerates have different numbers of eigenvectors
-/

set_option autoImplicit false

namespace Mfmg

open Finset

section

variable {K : Type} [Field K]

/-- The copier touches only the rows of the copy object. -/
theorem apCopier_other (c : APCopy K) (M : Entries K) (r x : ℕ) (hr : r ∉ c.rows) :
    apCopier c M r x = M r x := by
  have hinner : ∀ (l : List (ℕ × K)) (r0 : ℕ) (M : Entries K), r ≠ r0 →
      l.foldl (fun M xv => M.add r0 xv.1 xv.2) M r x = M r x := by
    intro l
    induction l with
    | nil => intro r0 M _; rfl
    | cons e l ih =>
      intro r0 M h
      rw [List.foldl_cons, ih r0 _ h, Entries.add, if_neg (fun h' => h h'.1)]
  have houter : ∀ (l : List (ℕ × List K)) (M : Entries K), (∀ e ∈ l, r ≠ e.1) →
      l.foldl (fun M rv => (c.cols.zip rv.2).foldl (fun M xv => M.add rv.1 xv.1 xv.2) M) M r x
        = M r x := by
    intro l
    induction l with
    | nil => intro M _; rfl
    | cons e l ih =>
      intro M h
      rw [List.foldl_cons, ih _ (fun e' he' => h e' (by simp [he'])), hinner _ _ _ (h e (by simp))]
  refine houter _ M ?_
  intro e he h
  exact hr (h ▸ (List.of_mem_zip he).1)

theorem nthRows_mem (first nOwned : ℕ) (ks rows : List ℕ) (h : nthRows first nOwned ks = .ok rows) :
    ∀ r ∈ rows, ∃ k ∈ ks, r = first + k := by
  induction ks generalizing rows with
  | nil => simp only [nthRows, Outcome.ok.injEq] at h; subst h; simp
  | cons k ks ih =>
    rw [nthRows] at h
    obtain ⟨r, hr, h⟩ := Outcome.bind_eq_ok.1 h
    obtain ⟨rs, hrs, h⟩ := Outcome.bind_eq_ok.1 h
    simp only [Outcome.pure_eq, Outcome.ok.injEq] at h
    subst h
    have hr' : r = first + k := by
      unfold nthRow at hr
      split at hr
      · exact (Outcome.ok.inj hr).symm
      · cases hr
    intro s hs
    rcases List.mem_cons.1 hs with rfl | hs
    · exact ⟨k, by simp, hr'⟩
    · obtain ⟨k', hk', e⟩ := ih rs hrs s hs
      exact ⟨k', by simp [hk'], e⟩

/-- A worker only produces rows of the agglomerates, counted with `nLocal` rows each. -/
theorem apWorker_rows (wide : Bool) (nCells : ℕ) (pe : PatchEval K) (V delta : Entries K)
    (first nOwned nLocal : ℕ) (halo : Bool) (patches : List (List ℕ)) (i : ℕ) (s s' : Unit)
    (copy copy' : APCopy K) (hold : ∀ r ∈ copy.rows, r < first + patches.length * nLocal)
    (h : apWorker wide nCells pe V delta first nOwned nLocal halo patches i s copy = .ok (s', copy')) :
    ∀ r ∈ copy'.rows, r < first + patches.length * nLocal := by
  unfold apWorker at h
  obtain ⟨index, hi, h⟩ := Outcome.bind_eq_ok.1 h
  obtain ⟨cells, -, h⟩ := Outcome.bind_eq_ok.1 h
  have hlt : i < patches.length := by
    unfold Outcome.get at hi
    by_contra hge
    rw [List.getElem?_eq_none (by omega)] at hi
    cases hi
  cases cells with
  | nil =>
    simp only [Outcome.pure_eq, Outcome.ok.injEq, Prod.mk.injEq] at h
    rw [← h.2]
    exact hold
  | cons c cells =>
    simp only at h
    obtain ⟨rows, hrows, h⟩ := Outcome.bind_eq_ok.1 h
    simp only [Outcome.pure_eq, Outcome.ok.injEq, Prod.mk.injEq] at h
    rw [← h.2]
    intro r hr
    obtain ⟨k, hk, rfl⟩ := nthRows_mem first nOwned _ rows hrows r hr
    simp only [List.mem_map, List.mem_range] at hk
    obtain ⟨j, hj, rfl⟩ := hk
    have : (i + 1) * nLocal ≤ patches.length * nLocal := Nat.mul_le_mul_right _ hlt
    rw [Nat.add_mul] at this
    omega

/-- No schedule fills other rows of the correction. -/
theorem apRun_rows (wide : Bool) (nCells : ℕ) (pe : PatchEval K) (V delta : Entries K)
    (first nOwned nLocal : ℕ) (halo : Bool) (patches : List (List ℕ)) (es : List WSEvent)
    (st st' : WS Unit (APCopy K) (Entries K))
    (hold : ∀ c, ∀ r ∈ (st.copies c).rows, r < first + patches.length * nLocal)
    (h : wsRun (apWorker wide nCells pe V delta first nOwned nLocal halo patches) apCopier es st
      = .ok st') (r x : ℕ) (hr : first + patches.length * nLocal ≤ r) : st'.out r x = st.out r x := by
  induction es generalizing st with
  | nil => simp only [wsRun, Outcome.ok.injEq] at h; rw [h]
  | cons e es ih =>
    rw [wsRun] at h
    obtain ⟨st1, h1, h⟩ := Outcome.bind_eq_ok.1 h
    cases e with
    | work i s c =>
      rw [wsStep] at h1
      obtain ⟨⟨s', c'⟩, hw, h1⟩ := Outcome.bind_eq_ok.1 h1
      simp only [Outcome.pure_eq, Outcome.ok.injEq] at h1
      subst h1
      have key := ih ⟨Function.update st.scratch s s', Function.update st.copies c c', st.out⟩ ?_ h
      · exact key
      intro d q hq
      by_cases hd : d = c
      · subst hd
        simp only [Function.update_self] at hq
        exact apWorker_rows wide nCells pe V delta first nOwned nLocal halo patches i _ _ _ _
          (hold d) hw q hq
      · simp only [Function.update_of_ne hd] at hq
        exact hold d q hq
    | copy i c =>
      simp only [wsStep, Outcome.pure_eq, Outcome.ok.injEq] at h1
      subst h1
      have key := ih ⟨st.scratch, st.copies, apCopier (st.copies c) st.out⟩ hold h
      rw [key]
      exact apCopier_other _ _ _ _ (fun hm => absurd (hold c r hm) (by omega))

/-- **C70**, different numbers of eigenvectors.  `fast_ap` should give `A R^T` whatever the number of
eigenvectors of each agglomerate.  It divides the number of rows by the number of agglomerates, so that
(under every schedule) the rows left over by the division get no correction at all: they are eigenvalue
times eigenvector, even where `A R^T` is something else. -/
theorem C70_uneven_violated (wide debug dynAdds : Bool) (nCells : ℕ) (owned : ℕ → Bool) (u : UserIndex)
    (nAgg : ℕ) (conn : ℕ → List ℕ) (pe : PatchEval K) (gdiag : ℕ → K) (first : ℕ)
    (cs : List (CopyData K)) (es esH : List WSEvent) (mats : Assembled K) (ap : Entries K)
    (hok : fastAP wide debug dynAdds nCells owned u nAgg conn pe gdiag first (collect cs) es esH
      = .ok (mats, ap)) (k : ℕ)
    (hk : nAgg * ((cs.map fun c => c.eigenvectors.length).sum / nAgg) ≤ k) (x : ℕ) :
    ap x (first + k) = (cs.flatMap (·.eigenvalues)).getD k 0 * mats.V (first + k) x := by
  unfold fastAP at hok
  obtain ⟨a, -, hok⟩ := Outcome.bind_eq_ok.1 hok
  obtain ⟨⟨interior, halo⟩, hb, hok⟩ := Outcome.bind_eq_ok.1 hok
  obtain ⟨corr, hc, hok⟩ := Outcome.bind_eq_ok.1 hok
  simp only [Outcome.pure_eq, Outcome.ok.injEq, Prod.mk.injEq] at hok
  obtain ⟨rfl, rfl⟩ := hok
  -- both lists have one element for each agglomerate
  have hlen : interior.length = nAgg ∧ halo.length = nAgg := by
    unfold buildBoundaryAgglomerates at hb
    obtain ⟨sets, hs, hb⟩ := Outcome.bind_eq_ok.1 hb
    simp only [Outcome.pure_eq, Outcome.ok.injEq, Prod.mk.injEq] at hb
    have key : ∀ (l : List ℕ) (s t : List (List ℕ)), collectCells owned u l s = .ok t →
        t.length = s.length := by
      intro l
      induction l with
      | nil => intro s t h; simp only [collectCells, Outcome.ok.injEq] at h; rw [h]
      | cons c l ih =>
        intro s t h
        rw [collectCells] at h
        split at h
        · split at h
          · cases h
          · split at h
            · cases h
            · rw [ih _ _ h, List.length_set]
        · exact ih _ _ h
    have := key _ _ _ hs
    rw [List.length_replicate] at this
    rw [← hb.1, ← hb.2]
    simp [this]
  have hsum : (collect cs).eigenvectors.length = (cs.map fun c => c.eigenvectors.length).sum := by
    rw [collect_eq, List.length_flatMap]
  have hcorr : corr (first + k) x = 0 := by
    unfold fastCorrection at hc
    obtain ⟨st1, h1, hc⟩ := Outcome.bind_eq_ok.1 hc
    obtain ⟨st2, h2, hc⟩ := Outcome.bind_eq_ok.1 hc
    simp only [Outcome.pure_eq, Outcome.ok.injEq] at hc
    subst hc
    have hnl : nAgg * (if interior.isEmpty = true then 0 else
        (collect cs).eigenvectors.length / interior.length) ≤ k := by
      rw [hlen.1, hsum]
      split
      · omega
      · exact hk
    rw [apRun_rows wide nCells pe _ _ first _ _ true halo esH _ _ (by simp) h2 (first + k) x
      (Nat.add_le_add_left (by rw [hlen.2]; exact hnl) _)]
    rw [apRun_rows wide nCells pe _ _ first _ _ false interior es _ _ (by simp) h1 (first + k) x
      (Nat.add_le_add_left (le_trans (Nat.mul_le_mul_right _ hlen.1.le) hnl) _)]
  simp only [hcorr, add_zero, Nat.add_sub_cancel_left]
  rw [collect_eq]

/-- **C70**, equal numbers of eigenvectors: `fast_ap` gives `A R^T`.

Missing: different numbers of eigenvectors (`C70_uneven_violated`). -/
theorem C70_even_partial (wide debug dynAdds : Bool) (D : Disc K) (hN : D.nCells ≤ 2 ^ 31)
    (hD : D.Sound) (pe : PatchEval K) (hpe : pe.Faithful D) (gdiag : ℕ → K)
    (hg : ∀ c x, c < D.nCells → D.owned c = true → x ∈ D.cellDofs c →
      gdiag x = D.A x x ∧ gdiag x ≠ 0)
    (first : ℕ) (cs : List (CopyData K)) (hlen : cs.length = D.nAgg)
    (hcs : ∀ (a : ℕ) (c : CopyData K), cs[a]? = some c → ExactLocal D a c)
    (heven : ∀ c ∈ cs, ∀ d ∈ cs, c.eigenvectors.length = d.eigenvectors.length)
    (hout : ∀ a, a < D.nAgg → D.HasOutside a)
    (es esH : List WSEvent) (hes : LegalSchedule D.nAgg es) (hesH : LegalSchedule D.nAgg esH) :
    ∃ mats ap, fastAP wide debug dynAdds D.nCells D.owned D.u D.nAgg D.conn pe gdiag first
        (collect cs) es esH = .ok (mats, ap) ∧
      ∀ k x, k < (rowsOf cs).length →
        ap x (first + k) = ∑ y ∈ range D.nDofs, D.A x y * mats.R (first + k) y := by
  obtain ⟨m, hm⟩ : ∃ m, ∀ c ∈ cs, c.eigenvectors.length = m := by
    cases cs with
    | nil => exact ⟨0, by simp⟩
    | cons c cs => exact ⟨c.eigenvectors.length, fun d hd => heven d hd c (by simp)⟩
  obtain ⟨mats, ap, h1, h2⟩ := C23_fast_ap wide debug dynAdds D hN hD pe hpe gdiag hg first m cs hlen
    (fun a c hc => ⟨hcs a c hc, hm c (List.mem_of_getElem? hc)⟩) (Or.inl hout) es esH hes hesH
  refine ⟨mats, ap, h1, fun k x hk => h2 k x ?_⟩
  have : (rowsOf cs).length = (cs.flatMap (·.eigenvectors)).length := by
    simp [rowsOf, List.length_flatMap]
  rw [this, length_flatMap_uniform cs m hm, hlen] at hk
  exact hk

/-- The hypotheses are met by `exDisc` with one eigenvector on each agglomerate. -/
example : ∃ mats ap, fastAP true true true 3 (fun _ => true) (fun c => c / 2 + 1) 2 exDisc.conn
    (canonicalEval exDisc) (fun x => exDisc.A x x) 5 (collect [exLocal0, exLocal1])
    (wsSequential 2) (wsSequential 2) = .ok (mats, ap) ∧
    ∀ k x, k < 2 → ap x (5 + k) = ∑ y ∈ range 4, exDisc.A x y * mats.R (5 + k) y := by
  refine C70_even_partial true true true exDisc (by decide) exDisc_sound (canonicalEval exDisc)
    (canonicalEval_faithful exDisc exDisc_sound) (fun x => exDisc.A x x) ?_ 5
    [exLocal0, exLocal1] rfl ?_ (by decide) ?_ _ _ (wsSequential_legal 2) (wsSequential_legal 2)
  · intro c x hc _ hx
    refine ⟨rfl, ?_⟩
    have hx4 := exDisc_sound.dofs_lt c x hx
    simp only [exDisc] at hx4
    interval_cases x <;> decide +kernel
  · intro a c ha
    match a with
    | 0 =>
      simp only [List.getElem?_cons_zero, Option.some.injEq] at ha
      subst ha; exact exLocal0_exact
    | 1 =>
      simp only [List.getElem?_cons_succ, List.getElem?_cons_zero, Option.some.injEq] at ha
      subst ha; exact exLocal1_exact
    | a + 2 => simp at ha
  · intro a ha
    simp only [exDisc] at ha
    interval_cases a
    · exact ⟨1, by decide, by decide, 2, by decide, by decide⟩
    · exact ⟨2, by decide, by decide, 1, by decide, by decide⟩

/-- The first agglomerate of `exDisc` with two eigenvectors. -/
def exLocalTwo : CopyData ℚ := ⟨[0, 1], [[1, 1, 1], [1, 0, -1]], [1, 2, 1], [0, 1, 2]⟩

/-- Two eigenvectors on the first agglomerate, one on the second: the third row gets no correction,
although `A R^T` has the entry -1 there. -/
example : (match fastAP true true true 3 (fun _ => true) (fun c => c / 2 + 1) 2 exDisc.conn
    (canonicalEval exDisc) (fun x => exDisc.A x x) 0 (collect [exLocalTwo, exLocal1])
    (wsSequential 2) (wsSequential 2) with
    | .ok (mats, ap) => decide (ap 1 2 = 0) &&
        decide (((List.range 4).map fun y => exDisc.A 1 y * mats.R 2 y).sum = -1)
    | _ => false) = true := by
  decide +kernel

end

end Mfmg
