import Verif.Lemmas.AnyBasis
import Verif.Props.Numbering
import Verif.Props.Richer

/-!
# C121: which basis of the coarse space the eigensolvers return
-/

set_option autoImplicit false

namespace Mfmg

open Spec Matrix

section cycles

variable {K : Type} [Field K] [LinearOrder K] [IsStrictOrderedRing K] {n : ℕ}

omit [IsStrictOrderedRing K] in
/-- The coarse correction depends on the space only. -/
theorem corrected_same {m m' : ℕ} {A : Matrix (Fin n) (Fin n) K} (hA : IsSpd A) {R : Matrix (Fin m) (Fin n) K}
    {R' : Matrix (Fin m') (Fin n) K} (hR : IndependentRows R) (hR' : IndependentRows R') (h : SameCoarseSpace R R')
    (e : Fin n → K) : corrected A R' e = corrected A R e := by
  obtain ⟨⟨W, hW⟩, W', hW'⟩ := h
  -- the restricted residual after the correction with `R` vanishes for `R'` too
  have hres : R'.mulVec (A.mulVec (corrected A R e)) = 0 := by
    rw [hW', ← Matrix.mulVec_mulVec, corrected_residual hA hR, Matrix.mulVec_zero]
  obtain ⟨z, hz⟩ : ∃ z, z = (galerkin R A)⁻¹.mulVec (R.mulVec (A.mulVec e)) := ⟨_, rfl⟩
  have hc : corrected A R e = e - R'.transpose.mulVec (W.transpose.mulVec z) := by
    rw [corrected, ← hz]
    conv_lhs => rw [hW, Matrix.transpose_mul, ← Matrix.mulVec_mulVec]
  rw [hc]
  refine corrected_eq hA hR' e ?_
  rw [hc, Matrix.mulVec_sub, Matrix.mulVec_sub, sub_eq_zero] at hres
  rw [hres, galerkin, ← Matrix.mulVec_mulVec, ← Matrix.mulVec_mulVec]

omit [IsStrictOrderedRing K] in
/-- **C121**, two levels: restriction matrices with the same coarse space give the same result of every application, for
every relaxation smoother, any numbers of processes and smoothing steps and both modes.  The full claim is this for
any number of levels; it is false, see `C121_levels_violated`. -/
theorem C121_two_levels_partial (debug timer : Bool) (p : Params) (type : Option (List Char))
    (k : SmootherKind) (kind : Relaxation) (hk : dealiiSmoother debug true type = .ok k)
    (hk' : k.relaxation = some kind) (procs : List (List (Fin n)))
    (solve : ∀ m, Matrix (Fin m) (Fin m) K → (Fin m → K) → Fin m → K) (hsolve : ∀ m, SolvesExactly (solve m))
    (A : Matrix (Fin n) (Fin n) K) (hA : IsSpd A) {m m' : ℕ} (R : Matrix (Fin m) (Fin n) K)
    (R' : Matrix (Fin m') (Fin n) K) (hR : IndependentRows R) (hR' : IndependentRows R') (h : SameCoarseSpace R R')
    (hlev : p.maxLevels.getD 2 = 2) (hfast : p.fastAp.getD false = false) (x b : Fin n → K) :
    ∃ y, TwoLevelGives debug timer p type procs solve A R x b y ∧
      TwoLevelGives debug timer p type procs solve A R' x b y := by
  have hxs : A.mulVec (A⁻¹.mulVec b) = b := mulVec_inv (spd_det hA) b
  obtain ⟨y, h1, h2⟩ := twoLevelGives_err debug timer p type k kind hk hk' procs solve hsolve hA hR hlev hfast x b _ hxs
    _ rfl
  obtain ⟨y', h1', h2'⟩ := twoLevelGives_err debug timer p type k kind hk hk' procs solve hsolve hA hR' hlev hfast x b _
    hxs _ rfl
  rw [corrected_same hA hR hR' h, ← h2] at h2'
  obtain rfl : y' = y := sub_right_injective h2'
  exact ⟨_, h1, h1'⟩

omit [LinearOrder K] [IsStrictOrderedRing K] in
/-- Two hierarchies whose components correspond to each other after the basis functions of all levels were multiplied
with numbers. -/
theorem vmult_scale {dims : ℕ → ℕ} (s : ∀ l, Fin (dims l) → K)
    (H H' : Hierarchy (fun l => Fin (dims l) → K))
    (D D' : Data K (fun l => Fin (dims l) → K)) (hH : IsLinear H D) (hH' : IsLinear H' D')
    (hn : H'.numLevels = H.numLevels) (hs : H'.nSmoothingSteps = H.nSmoothingSteps)
    (hp : H'.isPreconditioner = H.isPreconditioner)
    (hmode : H.isPreconditioner = true ∨ 2 ≤ H.numLevels)
    (hA : ∀ l x, D'.A l (unscaleVec (s l) x) = weighVec (s l) (D.A l x))
    (hB : ∀ l r, D'.B l (weighVec (s l) r) = unscaleVec (s l) (D.B l r))
    (hR : ∀ l x, D'.R l (weighVec (s l) x) = weighVec (s (l + 1)) (D.R l x))
    (hP : ∀ l y, D'.P l (unscaleVec (s (l + 1)) y) = unscaleVec (s l) (D.P l y))
    (hC : ∀ l r, D'.C l (weighVec (s l) r) = unscaleVec (s l) (D.C l r)) :
    ∀ fresh fresh' b x, ∃ y, (H.vmult fresh x b).result = .ok y ∧
      (H'.vmult fresh' (unscaleVec (s 0) x) (weighVec (s 0) b)).result = .ok (unscaleVec (s 0) y) := by
  intro fresh fresh' b x
  refine ⟨_, C04_cycle_is_textbook H D hH fresh x b hmode, ?_⟩
  rw [C04_cycle_is_textbook H' D' hH' fresh' _ _ (by rw [hp, hn]; exact hmode), hp, hn, hs]
  have h := fun x => cycle_transport_dual D D' (fun l => unscaleLin (s l)) (fun l => scaleLin (s l)) hA hB hR hP hC
    H.nSmoothingSteps (H.numLevels - 1) 0 b x
  have hx : (if H.isPreconditioner = true then 0 else unscaleVec (s 0) x)
      = unscaleLin (s 0) (if H.isPreconditioner = true then 0 else x) := by
    split_ifs
    · exact (unscaleVec_zero _).symm
    · rfl
  rw [hx]
  exact congrArg Outcome.ok (h (if H.isPreconditioner = true then 0 else x))

omit [IsStrictOrderedRing K] in
/-- **C121**, signs and lengths: if the basis functions of all levels are multiplied with numbers other than zero (on
the coarse levels this is what happens when the eigensolver returns vectors with other signs or lengths), every
application gives the same function, for all four smoothers, any number of levels and processes, and any two exact
coarse solvers.  Vectors of coefficients are divided by the numbers and right-hand sides multiplied. -/
theorem C121_scaling (debug timer : Bool) (p : Params) (type : Option (List Char)) (k : SmootherKind)
    (hk : dealiiSmoother debug true type = .ok k) (dims : ℕ → ℕ)
    (procs : ∀ l, List (List (Fin (dims l)))) (graph : ∀ l, Fin (dims l) → Fin (dims l) → Bool)
    (A : Matrix (Fin (dims 0)) (Fin (dims 0)) K) (hA : IsSpd A)
    (R : ∀ l, Matrix (Fin (dims (l + 1))) (Fin (dims l)) K) (hR : ∀ l, IndependentRows (R l))
    (solve solve' : ∀ l, Matrix (Fin (dims l)) (Fin (dims l)) K → (Fin (dims l) → K) → Fin (dims l) → K)
    (hsolve : ∀ l, SolvesExactly (solve l)) (hsolve' : ∀ l, SolvesExactly (solve' l))
    (hpos : 0 < p.maxLevels.getD 2) (hfast : p.fastAp.getD false = false)
    (hmode : p.isPreconditioner.getD true = true ∨ 2 ≤ p.maxLevels.getD 2)
    (s : ∀ l, Fin (dims l) → K) (hs : ∀ l i, s l i ≠ 0) :
    ∃ H H' : Hierarchy (fun l => Fin (dims l) → K),
      (buildHierarchy debug timer (some p)
        (.ok (fullHelpers debug type dims procs graph A R solve))).result = .ok H ∧
      (buildHierarchy debug timer (some p)
        (.ok (fullHelpers debug type dims procs graph (scaleMatrix (s 0) A)
          (fun l => scaleRestriction (s (l + 1)) (s l) (R l)) solve'))).result = .ok H' ∧
      ∀ fresh fresh' b x, ∃ y, (H.vmult fresh x b).result = .ok y ∧
        (H'.vmult fresh' (unscaleVec (s 0) x) (weighVec (s 0) b)).result = .ok (unscaleVec (s 0) y) := by
  have hA' := spd_scale (hs 0) hA
  have hR' := fun l => independentRows_scale (hs (l + 1)) (hs l) (hR l)
  have hop : ∀ l x, (coarseMatrix dims (scaleMatrix (s 0) A)
      (fun l => scaleRestriction (s (l + 1)) (s l) (R l)) l).mulVec (unscaleVec (s l) x)
        = weighVec (s l) ((coarseMatrix dims A R l).mulVec x) := by
    intro l x
    rw [coarseMatrix_scale dims hs, scaleMatrix_mulVec (hs l)]
  have hinv : ∀ l x, (coarseMatrix dims (scaleMatrix (s 0) A)
      (fun l => scaleRestriction (s (l + 1)) (s l) (R l)) l)⁻¹.mulVec (weighVec (s l) x)
        = unscaleVec (s l) ((coarseMatrix dims A R l)⁻¹.mulVec x) := by
    intro l x
    have h1 := mulVec_inv (spd_det (coarseMatrix_spd dims A hA R hR l)) x
    have h2 := hop l ((coarseMatrix dims A R l)⁻¹.mulVec x)
    rw [h1] at h2
    rw [← h2, Matrix.mulVec_mulVec, Matrix.nonsing_inv_mul _ (Ne.isUnit (spd_det (coarseMatrix_spd dims _ hA' _ hR' l))),
      Matrix.one_mulVec]
  cases hrel : k.relaxation with
  | some kind =>
    rw [fullHelpers_relaxation debug type k kind hk hrel, fullHelpers_relaxation debug type k kind hk hrel]
    obtain ⟨H, e, h1, h2, h3, h4⟩ := matrixHelpers_build debug timer p type k kind hk hrel dims procs A hA R hR
      solve hsolve hpos hfast
    obtain ⟨H', e', h1', h2', h3', h4'⟩ := matrixHelpers_build debug timer p type k kind hk hrel dims procs _ hA' _ hR'
      solve' hsolve' hpos hfast
    refine ⟨H, H', e, e', vmult_scale s H H' _ _ h1 h1' (h2'.trans h2.symm) (h4'.trans h4.symm)
      (h3'.trans h3.symm) (by rw [h3, h2]; exact hmode.imp id (fun h => by omega)) hop ?_
      (fun l x => scaleRestriction_mulVec (hs l) (R l) x)
      (fun l x => scaleRestriction_transpose (hs (l + 1)) (R l) x) hinv⟩
    intro l r
    change relaxVmult kind (coarseMatrix dims _ _ l) (procs l) (weighVec (s l) r)
      = unscaleVec (s l) (relaxVmult kind (coarseMatrix dims A R l) (procs l) r)
    rw [coarseMatrix_scale dims hs, relaxVmult_scale (hs l)]
  | none =>
    obtain rfl : k = .ilu := by cases k <;> simp_all [SmootherKind.relaxation]
    obtain ⟨H, e, h1, h2, h3, h4⟩ := fullHelpers_build debug timer p type hk dims procs graph A hA R hR
      solve hsolve hpos hfast
    obtain ⟨H', e', h1', h2', h3', h4'⟩ := fullHelpers_build debug timer p type hk dims procs graph _ hA' _ hR'
      solve' hsolve' hpos hfast
    refine ⟨H, H', e, e', vmult_scale s H H' _ _ h1 h1' (h2'.trans h2.symm) (h4'.trans h4.symm)
      (h3'.trans h3.symm) (by rw [h3, h2]; exact hmode.imp id (fun h => by omega)) hop ?_
      (fun l x => scaleRestriction_mulVec (hs l) (R l) x)
      (fun l x => scaleRestriction_transpose (hs (l + 1)) (R l) x) hinv⟩
    intro l r
    change iluVmult (graph l) (coarseMatrix dims _ _ l) (procs l)
      (weighVec (s l) r) = unscaleVec (s l) (iluVmult (graph l) (coarseMatrix dims A R l) (procs l) r)
    rw [coarseMatrix_scale dims hs, iluVmult_scale (hs l)]

end cycles

section setup

variable {K : Type} [Field K]

/-- The value of an extended vector. -/
theorem extend_getD (dofs : List ℕ) (v : List K) (hv : v.length = dofs.length) (x : ℕ) :
    extend dofs v x = if x ∈ dofs then v.getD (dofs.idxOf x) 0 else 0 := by
  induction dofs generalizing v with
  | nil => simp [extend]
  | cons d dofs ih =>
    cases v with
    | nil => simp at hv
    | cons a v =>
      have := ih v (by simpa using hv)
      by_cases h : x = d
      · subst h
        simp [extend]
      · have h' : (x == d) = false := by simpa using h
        have h'' : d ≠ x := fun e => h e.symm
        rw [extend, List.zip_cons_cons, List.lookup_cons, h']
        change extend dofs v x = _
        rw [this]
        simp [h, h'', List.idxOf_cons_ne]

/-- Combinations of vectors are combinations of the extended vectors. -/
theorem extend_combination {dofs : List ℕ} {vs : List (List K)} (hvs : ∀ v ∈ vs, v.length = dofs.length) {v : List K}
    (hv : v.length = dofs.length) {w : Fin vs.length → K} (h : ∀ i, v.getD i 0 = ∑ j, w j * vs[j].getD i 0) (x : ℕ) :
    extend dofs v x = ∑ j, w j * extend dofs vs[j] x := by
  rw [extend_getD dofs v hv]
  have e : ∀ j : Fin vs.length, extend dofs vs[j] x = if x ∈ dofs then vs[j].getD (dofs.idxOf x) 0 else 0 :=
    fun j => extend_getD dofs _ (hvs _ (List.getElem_mem j.isLt)) x
  by_cases hx : x ∈ dofs
  · simp only [e, if_pos hx]
    exact h _
  · simp only [e, if_neg hx, mul_zero, Finset.sum_const_zero]

/-- The agglomerates of two set-ups whose vectors span the same spaces. -/
theorem same_copies {name : String} {q q' : ProcFem K} (hm : SameSpaces name q q') {u : UserIndex}
    {cs cs' : List (CopyData K)} (h : q.Result name u cs) (h' : q'.Result name u cs') (hlen : cs'.length = cs.length) :
    List.Forall₂ SameSpace cs cs' := by
  rw [List.forall₂_iff_get]
  refine ⟨hlen.symm, ?_⟩
  intro i h1 h2
  have e1 := h.solved i _ (List.getElem?_eq_getElem h1)
  have e2 := h'.solved i _ (List.getElem?_eq_getElem h2)
  have e3 : q'.aggCells u i = q.aggCells u i := by simp only [ProcFem.aggCells, hm.mesh]
  obtain ⟨c', h3, h4⟩ := hm.same _ _ e1
  rw [e3, h3] at e2
  cases e2
  exact h4

omit [Field K] in
/-- A row and the agglomerate that corresponds to its own. -/
theorem rows_related {P : CopyData K → CopyData K → Prop} {cs cs' : List (CopyData K)} (h : List.Forall₂ P cs cs')
    {c : CopyData K} {v : List K} (hr : (c, v) ∈ rowsOf cs) :
    v ∈ c.eigenvectors ∧ c ∈ cs ∧ ∃ c', c' ∈ cs' ∧ P c c' ∧ ∀ v' ∈ c'.eigenvectors, (c', v') ∈ rowsOf cs' := by
  induction h with
  | nil => simp [rowsOf] at hr
  | @cons d d' cs cs' hd _ ih =>
    rw [rowsOf, List.flatMap_cons, List.mem_append] at hr
    rcases hr with hr | hr
    · obtain ⟨w, hw, e⟩ := List.mem_map.1 hr
      cases e
      refine ⟨hw, List.mem_cons_self, d', List.mem_cons_self, hd, ?_⟩
      intro v' hv'
      rw [rowsOf, List.flatMap_cons, List.mem_append]
      exact Or.inl (List.mem_map.2 ⟨v', hv', rfl⟩)
    · obtain ⟨h0, h0', c', h1, h2, h3⟩ := ih hr
      refine ⟨h0, List.mem_cons_of_mem _ h0', c', List.mem_cons_of_mem _ h1, h2, ?_⟩
      intro v' hv'
      rw [rowsOf, List.flatMap_cons, List.mem_append]
      exact Or.inr (h3 v' hv')

/-- One matrix contains the rows of the other if on every agglomerate the vectors are combinations. -/
theorem assembled_contains {gdiag : ℕ → K} {cs cs' : List (CopyData K)}
    (h : List.Forall₂ (fun c c' : CopyData K => c'.dofMap = c.dofMap ∧ c'.diag = c.diag ∧
      ∀ v ∈ c.eigenvectors, IsCombination c'.eigenvectors v) cs cs')
    (hw : ∀ c ∈ cs, c.WellFormed) (hw' : ∀ c ∈ cs', c.WellFormed) {M M' : Entries K}
    (hM : ∀ (p : ℕ) (c : CopyData K) (v : List K), (rowsOf cs)[p]? = some (c, v) →
      ∀ x, M p x = extend c.dofMap c.diag x / gdiag x * extend c.dofMap v x)
    (hM' : ∀ (p : ℕ) (c : CopyData K) (v : List K), (rowsOf cs')[p]? = some (c, v) →
      ∀ x, M' p x = extend c.dofMap c.diag x / gdiag x * extend c.dofMap v x) (n : ℕ) :
    ContainsRows (M'.block (rowsOf cs').length n) (M.block (rowsOf cs).length n) := by
  have hrow : ∀ i : Fin (rowsOf cs).length, ∃ u : Fin (rowsOf cs').length → K, ∀ x, M i x = ∑ k, u k * M' k x := by
    intro i
    obtain ⟨⟨c, v⟩, hcv⟩ : ∃ cv, (rowsOf cs)[i.val]? = some cv := ⟨_, List.getElem?_eq_getElem i.isLt⟩
    obtain ⟨hv, hc, c', hc', ⟨e1, e2, hcomb⟩, hrows⟩ := rows_related h (List.mem_of_getElem? hcv)
    obtain ⟨w, hwv⟩ := hcomb v hv
    have hf : ∀ j : Fin c'.eigenvectors.length, ∃ k : Fin (rowsOf cs').length,
        (rowsOf cs')[k.val]? = some (c', c'.eigenvectors[j]) := by
      intro j
      obtain ⟨k, hk, hk'⟩ := List.getElem_of_mem (hrows _ (List.getElem_mem j.isLt))
      exact ⟨⟨k, hk⟩, by rw [List.getElem?_eq_getElem hk, hk']; rfl⟩
    choose f hf using hf
    refine ⟨fun k => ∑ j, if f j = k then w j else 0, ?_⟩
    intro x
    have e3 := extend_combination (dofs := c.dofMap)
      (fun v hv => by rw [(hw' c' hc').vec_length v hv, e1]) ((hw c hc).vec_length v hv) hwv x
    rw [hM i c v hcv x, e3, Finset.mul_sum]
    simp only [Finset.sum_mul, ite_mul, zero_mul]
    rw [Finset.sum_comm]
    refine Finset.sum_congr rfl fun j _ => ?_
    rw [Finset.sum_ite_eq]
    simp only [Finset.mem_univ, if_true]
    rw [hM' (f j) c' _ (hf j) x, e1, e2]
    ring
  choose u hu using hrow
  exact ⟨Matrix.of u, by ext i x; exact hu i x.val⟩

/-- **C121**, the set-up: if on every agglomerate the eigensolver returns another basis of the same space, on any number
of processes, the agglomerates are the same and the restriction matrices have the same coarse space. -/
theorem C121_setup (debug dynAdds matrixFree : Bool) (dim : ℕ) (ap : AggParams) (strat : Strategy)
    (hap : dispatch dim ap = .ok strat) (ep : EigParams) (name : String) (hep : Selects matrixFree ep name)
    (procs procs' : List (ProcFem K)) (hm : List.Forall₂ (SameSpaces name) procs procs')
    (hs : ∀ q ∈ procs, q.share.Sound debug) (hq : ∀ q ∈ procs, q.Faithful name)
    (hs' : ∀ q ∈ procs', q.share.Sound debug) (hq' : ∀ q ∈ procs', q.Faithful name) (gdiag : ℕ → K) :
    ∃ (us : List UserIndex) (a a' : Assembled K) (m m' : ℕ),
      setupRestrictor debug dynAdds matrixFree dim ap ep gdiag (procs.map fun q => (q.share, fun _ => 0)) = .ok (us, a) ∧
      setupRestrictor debug dynAdds matrixFree dim ap ep gdiag (procs'.map fun q => (q.share, fun _ => 0)) = .ok (us, a') ∧
      (∀ r x, m ≤ r → a.R r x = 0) ∧ (∀ r x, m' ≤ r → a'.R r x = 0) ∧
      ∀ n, SameCoarseSpace (a.R.block m n) (a'.R.block m' n) := by
  obtain ⟨rs, h1, h2⟩ := setupShares_spec hap hep procs hs hq
  obtain ⟨rs', h1', h2'⟩ := setupShares_spec hap hep procs' hs' hq'
  have hwf := setup_wf h2
  have hwf' := setup_wf h2'
  obtain ⟨a, h3, h4, h5⟩ := C20_rows debug dynAdds gdiag (rs.map Prod.snd) hwf
  obtain ⟨a', h3', h4', h5'⟩ := C20_rows debug dynAdds gdiag (rs'.map Prod.snd) hwf'
  have hboth : rs'.map Prod.fst = rs.map Prod.fst ∧
      List.Forall₂ SameSpace (rs.map Prod.snd).flatten (rs'.map Prod.snd).flatten := by
    clear h1 h1' h3 h4 h5 h3' h4' h5' hs hq hs' hq' hwf hwf'
    induction hm generalizing rs rs' with
    | nil =>
      cases h2
      cases h2'
      exact ⟨rfl, .nil⟩
    | @cons q q' procs procs' hm _ ih =>
      cases h2 with
      | @cons _ r _ rs hr hrs =>
        cases h2' with
        | @cons _ r' _ rs' hr' hrs' =>
          obtain ⟨i1, i2⟩ := ih rs hrs rs' hrs'
          have e := hr'.2
          rw [hm.agglomerate, hr.2] at e
          obtain ⟨e1, e2⟩ := Prod.mk.inj (Outcome.ok.inj e)
          refine ⟨by rw [List.map_cons, List.map_cons, i1, e1], ?_⟩
          rw [List.map_cons, List.map_cons, List.flatten_cons, List.flatten_cons]
          exact List.rel_append (same_copies hm hr.1 (e1 ▸ hr'.1) e2.symm) i2
  have hok : ∀ (rs : List (UserIndex × List (CopyData K))) procs a,
      setupShares debug matrixFree dim ap ep procs = .ok (rs.map Prod.fst, rs.map fun r => collect r.2) →
      assembleAll debug dynAdds gdiag ((rs.map Prod.snd).map collect) = .ok a →
      setupRestrictor debug dynAdds matrixFree dim ap ep gdiag procs = .ok (rs.map Prod.fst, a) := by
    intro rs procs a h h'
    rw [List.map_map] at h'
    simp only [setupRestrictor, h, Outcome.ok_bind]
    rw [show (rs.map fun r => collect r.2) = rs.map (collect ∘ Prod.snd) from rfl, h']
    rfl
  have hflat : ∀ {css : List (List (CopyData K))}, (∀ cs ∈ css, ∀ c ∈ cs, c.WellFormed) →
      ∀ c ∈ css.flatten, c.WellFormed := by
    intro css h c hc
    obtain ⟨cs, e1, e2⟩ := List.mem_flatten.1 hc
    exact h cs e1 c e2
  refine ⟨rs.map Prod.fst, a, a', _, _, hok rs _ a h1 h3, hboth.1 ▸ hok rs' _ a' h1' h3',
    fun r x hr => h5 r hr x, fun r x hr => h5' r hr x, ?_⟩
  intro n
  refine ⟨assembled_contains (hboth.2.imp fun c c' h => ⟨h.dofMap, h.diag, h.forth⟩) (hflat hwf) (hflat hwf') h4 h4' n,
    assembled_contains (hboth.2.flip.imp fun c c' h => ⟨h.dofMap.symm, h.diag.symm, h.back⟩) (hflat hwf') (hflat hwf)
      h4' h4 n⟩

end setup

section violated

/-- Three levels with two, two and one unknowns. -/
def twoTwoOne : ℕ → ℕ
  | 0 => 2
  | 1 => 2
  | _ + 2 => 1

/-- A chain of two unknowns, held at both ends. -/
def heldChain : Matrix (Fin 2) (Fin 2) ℚ := !![2, -1; -1, 2]

/-- Restriction matrices of the three levels. -/
def twoTwoOneRestriction (Q : Matrix (Fin 2) (Fin 2) ℚ) (q : Matrix (Fin 1) (Fin 2) ℚ) :
    ∀ l, Matrix (Fin (twoTwoOne (l + 1))) (Fin (twoTwoOne l)) ℚ
  | 0 => Q
  | 1 => q
  | _ + 2 => (1 : Matrix (Fin 1) (Fin 1) ℚ)

/-- All rows on one process. -/
def twoTwoOneProcs (l : ℕ) : List (List (Fin (twoTwoOne l))) := [List.finRange _]

theorem heldChain_spd : IsSpd heldChain := by
  refine ⟨by ext i j; fin_cases i <;> fin_cases j <;> rfl, ?_⟩
  intro v hv
  have e : v ⬝ᵥ heldChain.mulVec v = v 0 ^ 2 + (v 0 - v 1) ^ 2 + v 1 ^ 2 := by
    simp [heldChain, Matrix.mulVec, dotProduct, Fin.sum_univ_two]
    ring
  rw [e]
  by_contra h
  have h0 : v 0 = 0 := by nlinarith [sq_nonneg (v 0 - v 1), sq_nonneg (v 0), sq_nonneg (v 1)]
  have h1 : v 1 = 0 := by nlinarith [sq_nonneg (v 0 - v 1), sq_nonneg (v 0), sq_nonneg (v 1)]
  exact hv (by ext i; fin_cases i <;> assumption)

theorem one_independent (n : ℕ) : IndependentRows (1 : Matrix (Fin n) (Fin n) ℚ) := by
  intro y hy
  simpa using hy

theorem sumDifference_rows : IndependentRows (!![1, 1; 1, -1] : Matrix (Fin 2) (Fin 2) ℚ) := by
  intro y hy
  have h0 := congrFun hy 0
  have h1 := congrFun hy 1
  simp [Matrix.mulVec, dotProduct, Fin.sum_univ_two] at h0 h1
  have e0 : y 0 = 0 := by linarith
  have e1 : y 1 = 0 := by linarith
  exact funext fun i => by fin_cases i <;> assumption

theorem row_independent (q : Matrix (Fin 1) (Fin 2) ℚ) (h : q 0 0 ≠ 0) : IndependentRows q := by
  intro y hy
  have h0 := congrFun hy 0
  simp [Matrix.mulVec, dotProduct, h] at h0
  exact funext fun i => by fin_cases i; exact h0

theorem twoTwoOne_independent {Q : Matrix (Fin 2) (Fin 2) ℚ} (hQ : IndependentRows Q) {q : Matrix (Fin 1) (Fin 2) ℚ}
    (hq : q 0 0 ≠ 0) (l : ℕ) : IndependentRows (twoTwoOneRestriction Q q l) := by
  match l with
  | 0 => exact hQ
  | 1 => exact row_independent q hq
  | l + 2 => exact one_independent 1

theorem sumDifference_independent (l : ℕ) :
    IndependentRows (twoTwoOneRestriction !![1, 1; 1, -1] !![1 / 2, 1 / 2] l) :=
  twoTwoOne_independent sumDifference_rows (by norm_num) l

theorem oneFirst_independent (l : ℕ) : IndependentRows (twoTwoOneRestriction 1 !![1, 0] l) :=
  twoTwoOne_independent (one_independent 2) (by norm_num) l

theorem inv_two (M : Matrix (Fin 1) (Fin 1) ℚ) (h : M = !![2]) (r : Fin 1 → ℚ) : M⁻¹.mulVec r = ![r 0 / 2] := by
  rw [h, show (!![2] : Matrix (Fin 1) (Fin 1) ℚ)⁻¹ = !![1 / 2] from Matrix.inv_eq_right_inv (by
    ext i j; fin_cases i; fin_cases j; simp)]
  ext i
  fin_cases i
  simp [Matrix.mulVec, dotProduct]
  ring

/-- Jacobi smoothing of two unknowns on one process. -/
theorem jacobi_two (M : Matrix (Fin 2) (Fin 2) ℚ) (r : Fin 2 → ℚ) :
    relaxVmult .jacobi M [List.finRange 2] r = ![r 0 / M 0 0, r 1 / M 1 1] := by
  funext i
  fin_cases i <;> simp [relaxVmult, localVmult]

/-- The method with the basis of the unknowns themselves on the middle level. -/
theorem oneFirst_result :
    cycle (matrixData .jacobi twoTwoOne twoTwoOneProcs heldChain (twoTwoOneRestriction 1 !![1, 0])) 1 2 0
      (![1, 0] : Fin 2 → ℚ) (0 : Fin 2 → ℚ) = (![21 / 32, 5 / 16] : Fin 2 → ℚ) := by
  obtain ⟨D, hD⟩ : ∃ D, D = matrixData .jacobi twoTwoOne twoTwoOneProcs heldChain (twoTwoOneRestriction 1 !![1, 0]) :=
    ⟨_, rfl⟩
  have m1 : (coarseMatrix twoTwoOne heldChain (twoTwoOneRestriction 1 !![1, 0]) 1 : Matrix (Fin 2) (Fin 2) ℚ) = heldChain := by
    change galerkin (1 : Matrix (Fin 2) (Fin 2) ℚ) heldChain = heldChain
    rw [galerkin, Matrix.transpose_one, Matrix.mul_one, Matrix.one_mul]
  have m2 : (coarseMatrix twoTwoOne heldChain (twoTwoOneRestriction 1 !![1, 0]) 2 : Matrix (Fin 1) (Fin 1) ℚ) = !![2] := by
    change galerkin (!![1, 0] : Matrix (Fin 1) (Fin 2) ℚ) (coarseMatrix twoTwoOne heldChain _ 1) = !![2]
    rw [m1]
    ext i j
    fin_cases i
    fin_cases j
    simp [galerkin, heldChain, Matrix.mul_apply, Fin.sum_univ_two]
  have c2 : ∀ r : Fin 1 → ℚ, cycle D 1 0 2 r (0 : Fin 1 → ℚ) = (![r 0 / 2] : Fin 1 → ℚ) := by
    intro r
    rw [hD]
    exact inv_two _ m2 r
  have c1 : cycle D 1 1 1 (![0, 1 / 2] : Fin 2 → ℚ) (0 : Fin 2 → ℚ) = (![1 / 8, 5 / 16] : Fin 2 → ℚ) := by
    have e : ∀ r : Fin 2 → ℚ, cycle D 1 1 1 r (0 : Fin 2 → ℚ) =
        (let M : Matrix (Fin 2) (Fin 2) ℚ := coarseMatrix twoTwoOne heldChain (twoTwoOneRestriction 1 !![1, 0]) 1
         let x1 := (0 : Fin 2 → ℚ) + relaxVmult .jacobi M [List.finRange 2] (r - M.mulVec 0)
         let x2 := x1 + (!![1, 0] : Matrix (Fin 1) (Fin 2) ℚ).transpose.mulVec
           (cycle D 1 0 2 ((!![1, 0] : Matrix (Fin 1) (Fin 2) ℚ).mulVec (r - M.mulVec x1)) (0 : Fin 1 → ℚ))
         x2 + relaxVmult .jacobi M [List.finRange 2] (r - M.mulVec x2)) := by
      intro r
      rw [hD]
      rfl
    have e1 : (0 : Fin 2 → ℚ) + relaxVmult .jacobi heldChain [List.finRange 2] (![0, 1 / 2] - heldChain.mulVec 0)
        = ![0, 1 / 4] := by
      rw [jacobi_two]
      ext i
      fin_cases i <;> simp [heldChain]
      norm_num
    have e2 : (!![1, 0] : Matrix (Fin 1) (Fin 2) ℚ).mulVec (![0, 1 / 2] - heldChain.mulVec ![0, 1 / 4]) = ![1 / 4] := by
      ext i
      fin_cases i
      simp [heldChain, Matrix.mulVec, dotProduct, Fin.sum_univ_two]
    have e3 : (!![1, 0] : Matrix (Fin 1) (Fin 2) ℚ).transpose.mulVec ![1 / 8] = ![1 / 8, 0] := by
      ext i
      fin_cases i <;> simp [Matrix.mulVec, dotProduct]
    have e4 : (![(![1 / 4] : Fin 1 → ℚ) 0 / 2] : Fin 1 → ℚ) = ![1 / 8] := by
      ext i
      fin_cases i
      norm_num
    rw [e]
    simp only [m1]
    rw [e1, e2, c2, e4, e3, jacobi_two]
    ext i
    fin_cases i <;> simp [heldChain] <;> norm_num
  have e : ∀ r : Fin 2 → ℚ, cycle D 1 2 0 r (0 : Fin 2 → ℚ) =
      (let x1 := (0 : Fin 2 → ℚ) + relaxVmult .jacobi heldChain [List.finRange 2] (r - heldChain.mulVec 0)
       let x2 := x1 + (1 : Matrix (Fin 2) (Fin 2) ℚ).transpose.mulVec
         (cycle D 1 1 1 ((1 : Matrix (Fin 2) (Fin 2) ℚ).mulVec (r - heldChain.mulVec x1)) (0 : Fin 2 → ℚ))
       x2 + relaxVmult .jacobi heldChain [List.finRange 2] (r - heldChain.mulVec x2)) := by
    intro r
    rw [hD]
    rfl
  rw [← hD, e]
  have e1 : (0 : Fin 2 → ℚ) + relaxVmult .jacobi heldChain [List.finRange 2] (![1, 0] - heldChain.mulVec 0)
      = ![1 / 2, 0] := by
    rw [jacobi_two]
    ext i
    fin_cases i <;> simp [heldChain]
  have e2 : (![1, 0] : Fin 2 → ℚ) - heldChain.mulVec ![1 / 2, 0] = ![0, 1 / 2] := by
    ext i
    fin_cases i <;> simp [heldChain]
  simp only [e1]
  rw [e2, Matrix.one_mulVec, c1, Matrix.transpose_one, Matrix.one_mulVec, jacobi_two]
  ext i
  fin_cases i <;> simp [heldChain] <;> norm_num

/-- The method with sum and difference of the unknowns on the middle level. -/
theorem sumDifference_result :
    cycle (matrixData .jacobi twoTwoOne twoTwoOneProcs heldChain
      (twoTwoOneRestriction !![1, 1; 1, -1] !![1 / 2, 1 / 2])) 1 2 0
      (![1, 0] : Fin 2 → ℚ) (0 : Fin 2 → ℚ) = (![2 / 3, 1 / 3] : Fin 2 → ℚ) := by
  obtain ⟨D, hD⟩ : ∃ D, D = matrixData .jacobi twoTwoOne twoTwoOneProcs heldChain
    (twoTwoOneRestriction !![1, 1; 1, -1] !![1 / 2, 1 / 2]) := ⟨_, rfl⟩
  have m1 : (coarseMatrix twoTwoOne heldChain (twoTwoOneRestriction !![1, 1; 1, -1] !![1 / 2, 1 / 2]) 1 :
      Matrix (Fin 2) (Fin 2) ℚ) = !![2, 0; 0, 6] := by
    change galerkin (!![1, 1; 1, -1] : Matrix (Fin 2) (Fin 2) ℚ) heldChain = !![2, 0; 0, 6]
    ext i j
    fin_cases i <;> fin_cases j <;> simp [galerkin, heldChain, Matrix.mul_apply, Fin.sum_univ_two] <;> norm_num
  have c2 : cycle D 1 0 2 (0 : Fin 1 → ℚ) (0 : Fin 1 → ℚ) = (0 : Fin 1 → ℚ) := by
    rw [hD]
    change (coarseMatrix twoTwoOne heldChain (twoTwoOneRestriction !![1, 1; 1, -1] !![1 / 2, 1 / 2]) 2)⁻¹.mulVec 0 = 0
    rw [Matrix.mulVec_zero]
  have c1 : cycle D 1 1 1 (![1 / 2, -1 / 2] : Fin 2 → ℚ) (0 : Fin 2 → ℚ) = (![1 / 4, -1 / 12] : Fin 2 → ℚ) := by
    have e : ∀ r : Fin 2 → ℚ, cycle D 1 1 1 r (0 : Fin 2 → ℚ) =
        (let M : Matrix (Fin 2) (Fin 2) ℚ := coarseMatrix twoTwoOne heldChain (twoTwoOneRestriction !![1, 1; 1, -1] !![1 / 2, 1 / 2]) 1
         let x1 := (0 : Fin 2 → ℚ) + relaxVmult .jacobi M [List.finRange 2] (r - M.mulVec 0)
         let x2 := x1 + (!![1 / 2, 1 / 2] : Matrix (Fin 1) (Fin 2) ℚ).transpose.mulVec
           (cycle D 1 0 2 ((!![1 / 2, 1 / 2] : Matrix (Fin 1) (Fin 2) ℚ).mulVec (r - M.mulVec x1)) (0 : Fin 1 → ℚ))
         x2 + relaxVmult .jacobi M [List.finRange 2] (r - M.mulVec x2)) := by
      intro r
      rw [hD]
      rfl
    have e1 : (0 : Fin 2 → ℚ) + relaxVmult .jacobi !![2, 0; 0, 6] [List.finRange 2]
        (![1 / 2, -1 / 2] - (!![2, 0; 0, 6] : Matrix (Fin 2) (Fin 2) ℚ).mulVec 0) = ![1 / 4, -1 / 12] := by
      rw [jacobi_two]
      ext i
      fin_cases i <;> simp <;> norm_num
    have e2 : (![1 / 2, -1 / 2] : Fin 2 → ℚ)
        - (!![2, 0; 0, 6] : Matrix (Fin 2) (Fin 2) ℚ).mulVec ![1 / 4, -1 / 12] = 0 := by
      ext i
      fin_cases i <;> simp <;> norm_num
    have e3 : (!![1 / 2, 1 / 2] : Matrix (Fin 1) (Fin 2) ℚ).mulVec
        (![1 / 2, -1 / 2] - (!![2, 0; 0, 6] : Matrix (Fin 2) (Fin 2) ℚ).mulVec ![1 / 4, -1 / 12]) = 0 := by
      rw [e2, Matrix.mulVec_zero]
    rw [e]
    simp only [m1]
    rw [e1, e3, c2, Matrix.mulVec_zero, add_zero, e2, jacobi_two]
    ext i
    fin_cases i <;> simp
  have e : ∀ r : Fin 2 → ℚ, cycle D 1 2 0 r (0 : Fin 2 → ℚ) =
      (let x1 := (0 : Fin 2 → ℚ) + relaxVmult .jacobi heldChain [List.finRange 2] (r - heldChain.mulVec 0)
       let x2 := x1 + (!![1, 1; 1, -1] : Matrix (Fin 2) (Fin 2) ℚ).transpose.mulVec
         (cycle D 1 1 1 ((!![1, 1; 1, -1] : Matrix (Fin 2) (Fin 2) ℚ).mulVec (r - heldChain.mulVec x1)) (0 : Fin 2 → ℚ))
       x2 + relaxVmult .jacobi heldChain [List.finRange 2] (r - heldChain.mulVec x2)) := by
    intro r
    rw [hD]
    rfl
  rw [← hD, e]
  have e1 : (0 : Fin 2 → ℚ) + relaxVmult .jacobi heldChain [List.finRange 2] (![1, 0] - heldChain.mulVec 0)
      = ![1 / 2, 0] := by
    rw [jacobi_two]
    ext i
    fin_cases i <;> simp [heldChain]
  have e2 : (!![1, 1; 1, -1] : Matrix (Fin 2) (Fin 2) ℚ).mulVec (![1, 0] - heldChain.mulVec ![1 / 2, 0])
      = ![1 / 2, -1 / 2] := by
    ext i
    fin_cases i <;> simp [heldChain, Matrix.mulVec, dotProduct, Fin.sum_univ_two]
    norm_num
  have e3 : (!![1, 1; 1, -1] : Matrix (Fin 2) (Fin 2) ℚ).transpose.mulVec ![1 / 4, -1 / 12] = ![1 / 6, 1 / 3] := by
    ext i
    fin_cases i <;> simp [Matrix.mulVec, dotProduct, Fin.sum_univ_two] <;> norm_num
  simp only [e1]
  rw [e2, c1, e3, jacobi_two]
  ext i
  fin_cases i <;> simp [heldChain] <;> norm_num

/-- **C121** does not hold for other changes of the basis on more than two levels: the coarse spaces of both coarse
levels are the same, seen from the finest one, and still the results differ, because the smoother on the middle level
works with the basis. -/
theorem C121_levels_violated (debug timer : Bool) (type : Option (List Char))
    (hk : dealiiSmoother debug true type = .ok .jacobi)
    (solve : ∀ l, Matrix (Fin (twoTwoOne l)) (Fin (twoTwoOne l)) ℚ → (Fin (twoTwoOne l) → ℚ) → Fin (twoTwoOne l) → ℚ)
    (hsolve : ∀ l, SolvesExactly (solve l)) :
    ∃ (Q Q' : Matrix (Fin 2) (Fin 2) ℚ) (q q' : Matrix (Fin 1) (Fin 2) ℚ)
      (H H' : Hierarchy (fun l => Fin (twoTwoOne l) → ℚ)),
      SameCoarseSpace Q Q' ∧ SameCoarseSpace (q * Q) (q' * Q') ∧
      (∀ l, IndependentRows (twoTwoOneRestriction Q q l)) ∧ (∀ l, IndependentRows (twoTwoOneRestriction Q' q' l)) ∧
      (buildHierarchy debug timer (some { maxLevels := some 3 }) (.ok (matrixHelpers debug type twoTwoOne twoTwoOneProcs
        heldChain (twoTwoOneRestriction Q q) solve))).result = .ok H ∧
      (buildHierarchy debug timer (some { maxLevels := some 3 }) (.ok (matrixHelpers debug type twoTwoOne twoTwoOneProcs
        heldChain (twoTwoOneRestriction Q' q') solve))).result = .ok H' ∧
      ∃ b : Fin 2 → ℚ, ∀ fresh x, (H.vmult fresh x b).result ≠ (H'.vmult fresh x b).result := by
  obtain ⟨H, e, h1, h2, h3, h4⟩ := matrixHelpers_build debug timer { maxLevels := some 3 } type _ .jacobi hk rfl
    twoTwoOne twoTwoOneProcs heldChain heldChain_spd (twoTwoOneRestriction 1 !![1, 0]) oneFirst_independent solve hsolve
    (by decide) rfl
  obtain ⟨H', e', h1', h2', h3', h4'⟩ := matrixHelpers_build debug timer { maxLevels := some 3 } type _ .jacobi hk rfl
    twoTwoOne twoTwoOneProcs heldChain heldChain_spd (twoTwoOneRestriction !![1, 1; 1, -1] !![1 / 2, 1 / 2])
    sumDifference_independent solve hsolve (by decide) rfl
  have hq : (!![1, 0] : Matrix (Fin 1) (Fin 2) ℚ) * (1 : Matrix (Fin 2) (Fin 2) ℚ)
      = (!![1 / 2, 1 / 2] : Matrix (Fin 1) (Fin 2) ℚ) * (!![1, 1; 1, -1] : Matrix (Fin 2) (Fin 2) ℚ) := by
    ext i j
    fin_cases i
    fin_cases j <;> simp [Matrix.mul_apply, Fin.sum_univ_two]
    norm_num
  refine ⟨1, !![1, 1; 1, -1], !![1, 0], !![1 / 2, 1 / 2], H, H', ⟨⟨!![1 / 2, 1 / 2; 1 / 2, -1 / 2], ?_⟩,
    ⟨_, (Matrix.mul_one _).symm⟩⟩, ?_, oneFirst_independent, sumDifference_independent, e, e', ![1, 0], ?_⟩
  · ext i j
    fin_cases i <;> fin_cases j <;> simp [Matrix.mul_apply, Fin.sum_univ_two] <;> norm_num
  · rw [hq]
    exact ⟨⟨1, (Matrix.one_mul _).symm⟩, ⟨1, (Matrix.one_mul _).symm⟩⟩
  · intro fresh x
    have r := C04_cycle_is_textbook H _ h1 fresh x ![1, 0] (Or.inl h3)
    have r' := C04_cycle_is_textbook H' _ h1' fresh x ![1, 0] (Or.inl h3')
    rw [h2, h3, h4] at r
    rw [h2', h3', h4'] at r'
    have s : (H.vmult fresh x ![1, 0]).result = .ok (![21 / 32, 5 / 16] : Fin 2 → ℚ) :=
      r.trans (congrArg Outcome.ok oneFirst_result)
    have s' : (H'.vmult fresh x ![1, 0]).result = .ok (![2 / 3, 1 / 3] : Fin 2 → ℚ) :=
      r'.trans (congrArg Outcome.ok sumDifference_result)
    intro h
    have h5 := Outcome.ok.inj (s.symm.trans (h.trans s'))
    have h6 := congrFun h5 (0 : Fin 2)
    norm_num at h6

end violated

section examples

example (x b : Fin 2 → ℚ) :=
  C121_two_levels_partial true true {} none _ .symmetricGaussSeidel rfl rfl [[0], [1]] exInverse exInverse_exact heldChain
    heldChain_spd (1 : Matrix (Fin 2) (Fin 2) ℚ) (!![1, 1; 1, -1] : Matrix (Fin 2) (Fin 2) ℚ)
    (by intro y hy; simpa using hy) (sumDifference_independent 0)
    ⟨⟨!![1 / 2, 1 / 2; 1 / 2, -1 / 2], by
      ext i j
      fin_cases i <;> fin_cases j <;> simp [Matrix.mul_apply, Fin.sum_univ_two] <;> norm_num⟩,
      ⟨_, (Matrix.mul_one _).symm⟩⟩ rfl rfl x b

/-- The opposite sign of every coarse vector. -/
example :=
  C121_scaling true true { maxLevels := some 3 } none _ rfl twoTwoOne twoTwoOneProcs (fun _ _ _ => true) heldChain
    heldChain_spd (twoTwoOneRestriction 1 !![1, 0]) oneFirst_independent (fun l => exInverse (twoTwoOne l))
    (fun l => exInverse (twoTwoOne l)) (fun _ => exInverse_exact _) (fun _ => exInverse_exact _) (by decide) rfl
    (Or.inl rfl) (fun l _ => if l = 0 then 1 else -1) (by intro l i; split_ifs <;> norm_num)

example := C121_levels_violated true true (some "Jacobi".toList) rfl (fun l => exInverse (twoTwoOne l))
  (fun _ => exInverse_exact _)

/-- The process of the example of C80 whose eigensolver returns the constant with the factor minus three. -/
def rowFemMinus : ProcFem ℚ :=
  { rowFem lapMat 0 with
    share := { (rowFem lapMat 0).share with
      solver := fun cells name g => do
        let c ← (rowFem lapMat 0).share.solver cells name g
        .ok { c with eigenvectors := c.eigenvectors.map fun v => v.map fun a => -3 * a } } }

theorem getD_map_factor (a : ℚ) (v : List ℚ) (i : ℕ) : (v.map fun x => a * x).getD i 0 = a * v.getD i 0 := by
  rw [List.getD_eq_getElem?_getD, List.getD_eq_getElem?_getD, List.getElem?_map]
  cases v[i]? <;> simp

example (gdiag : ℕ → ℚ) :=
  C121_setup true false false 2 ⟨some "block", none, some 2, some 1, none⟩ (.block 2 1 1) (by decide +kernel)
    ⟨some "lanczos", false⟩ "lanczos" ⟨rfl, Or.inl rfl, by simp⟩ [rowFem lapMat 0] [rowFemMinus]
    (.cons ⟨rfl, fun _ _ _ _ => rfl, by
      intro cells c h
      cases h
      refine ⟨_, rfl, rfl, rfl, ?_, ?_⟩
      · intro v hv
        obtain rfl := List.mem_singleton.1 hv
        refine ⟨fun _ => -1 / 3, fun i => ?_⟩
        change _ = ∑ j : Fin 1, _ * ([(((rowDofs cells).map fun _ => (1 : ℚ)).map fun a => -3 * a)][j]).getD i 0
        rw [Fin.sum_univ_one]
        change _ = -1 / 3 * (((rowDofs cells).map fun _ => (1 : ℚ)).map fun a => -3 * a).getD i 0
        rw [getD_map_factor]
        ring
      · intro v hv
        obtain rfl := List.mem_singleton.1 hv
        refine ⟨fun _ => -3, fun i => ?_⟩
        change _ = ∑ j : Fin 1, _ * ([(rowDofs cells).map fun _ => (1 : ℚ)][j]).getD i 0
        rw [Fin.sum_univ_one]
        exact getD_map_factor _ _ i⟩ .nil)
    (by simpa using rowFem_sound lapMat 0) (by simpa using rowFem_faithful lapMat 0 lapMat_support)
    (by
      simp only [List.mem_singleton, forall_eq]
      exact ⟨rfl, rfl, row4_sound, (rowFem_sound lapMat 0).forward, fun _ _ _ _ _ _ => rfl, fun _ _ _ => rfl,
        wsSequential_legal⟩)
    (by
      simp only [List.mem_singleton, forall_eq]
      refine ⟨lapMat_support, ?_⟩
      intro cells h1 h2 h3
      obtain ⟨c, e1, e2, e3, e4⟩ := (rowFem_faithful lapMat 0 lapMat_support).solves cells h1 h2 h3
      refine ⟨{ c with eigenvectors := c.eigenvectors.map fun v => v.map fun a => -3 * a }, ?_, ?_, e3, e4⟩
      · change ((rowFem lapMat 0).share.solver cells "lanczos" [] >>= fun c => _) = _
        rw [e1]
        rfl
      · obtain ⟨w1, w2, w3⟩ := e2
        refine ⟨w1, w2, ?_⟩
        intro v hv
        obtain ⟨v', hv', rfl⟩ := List.mem_map.1 hv
        rw [List.length_map]
        exact w3 v' hv') gdiag

end examples

end Mfmg
