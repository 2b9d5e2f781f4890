import Verif.Lemmas.Collective
import Verif.Props.Restriction
import Verif.Props.LocalEig

/-!
# Collective calls (C76)
-/

set_option autoImplicit false

namespace Mfmg

/-! ## Preparations -/

theorem Proc.bind_assoc {α β γ : Type} (p : Proc α) (f : α → Proc β) (g : β → Proc γ) :
    ((p >>= f) >>= g) = (p >>= fun a => f a >>= g) := by
  change (p.bind f).bind g = p.bind fun a => (f a).bind g
  induction p with
  | done o => cases o <;> rfl
  | call c op send next ih =>
    simp only [Proc.bind]
    exact congrArg _ (funext ih)

theorem take_idxOf (c : List ℕ) (r : ℕ) : c.take (c.idxOf r) = membersBefore c r := by
  unfold membersBefore
  induction c with
  | nil => rfl
  | cons a c ih =>
    by_cases h : a = r
    · subst h; simp
    · rw [List.idxOf_cons_ne _ h, List.take_succ_cons, ih,
        List.takeWhile_cons_of_pos (by simp [h])]

section

variable {K : Type} [Field K]

omit [Field K] in
theorem LocalInput.Fine.collected {I : SetupInput} {L : LocalInput K} (h : L.Fine I) (l : ℕ) :
    ∃ cs, mapOutcome id (L.work l) = .ok cs ∧ (∀ c ∈ cs, c.WellFormed) ∧
      (collect cs).eigenvectors.length = L.rowCount l ∧ L.work l = cs.map .ok := by
  have key : ∀ w : List (Outcome (CopyData K)), (∀ o ∈ w, ∃ c, o = .ok c ∧ c.WellFormed) →
      ∃ cs, mapOutcome id w = .ok cs ∧ (∀ c ∈ cs, c.WellFormed) ∧
        (cs.map fun c => c.eigenvectors.length).sum = (w.map vectorCount).sum ∧ w = cs.map .ok := by
    intro w
    induction w with
    | nil => exact fun _ => ⟨[], rfl, by simp, rfl, rfl⟩
    | cons o w ih =>
      intro hw
      obtain ⟨c, rfl, hc⟩ := hw o (by simp)
      obtain ⟨cs, h1, h2, h3, h4⟩ := ih fun o ho => hw o (by simp [ho])
      refine ⟨c :: cs, by simp [mapOutcome, h1], ?_, by simp [h3, vectorCount], by rw [List.map_cons, ← h4]⟩
      simpa using ⟨hc, h2⟩
  obtain ⟨cs, h1, h2, h3, h4⟩ := key (L.work l) (h.work l)
  refine ⟨cs, h1, h2, ?_, h4⟩
  rw [collect_eq, LocalInput.rowCount, ← h3]
  simp [List.length_flatMap]

/-- What a member knows of the restriction matrix of level `l`. -/
def PartSpec (c : List ℕ) (L : ℕ → LocalInput K) (l r : ℕ) (R : RestrictorPart K) : Prop :=
  R.first = ((membersBefore c r).map fun q => (L q).rowCount l).sum ∧
    R.rows = (L r).rowCount l ∧ R.total = (c.map fun q => (L q).rowCount l).sum ∧
    ∀ ws, (L r).work l = ws.map .ok → ∀ k w v, (rowsOf ws)[k]? = some (w, v) → ∀ x,
      R.matrices.V (R.first + k) x = extend w.dofMap v x ∧
      R.matrices.R (R.first + k) x = extend w.dofMap w.diag x / (L r).gdiag x * extend w.dofMap v x

theorem settles_pattern (c : List ℕ) (n : ℕ → ℕ) :
    Settles c (fun r p => p = (((membersBefore c r).map n).sum, (c.map n).sum))
      fun r => patternProc c (c.idxOf r) (n r) := by
  unfold patternProc
  refine (settles_gatherCounts c n).bind fun l hl => ?_
  refine (settles_syncs c _).bind fun _ _ => ?_
  refine settles_pure fun r hr => ?_
  rw [hl r hr, rowsBefore, ← List.map_take, take_idxOf]

theorem settles_restriction (I : SetupInput) (L : ℕ → LocalInput K) (c : List ℕ) (l : ℕ)
    (cs : ℕ → List (CopyData K)) (hcs : ∀ r ∈ c, (∀ x ∈ cs r, x.WellFormed) ∧
      (collect (cs r)).eigenvectors.length = (L r).rowCount l ∧ (L r).work l = (cs r).map .ok) :
    Settles c (PartSpec c L l) fun r => restrictionProc I (L r) c (c.idxOf r) (cs r) := by
  unfold restrictionProc
  refine (settles_pattern c fun r => (collect (cs r)).eigenvectors.length).bind fun p hp => ?_
  refine (settles_syncs c _).bind fun _ _ => ?_
  refine (settles_lift_ok (post := fun r a => AddsRows (L r).gdiag (rowsOf (cs r)) (p r).1
    ⟨fun _ _ => 0, fun _ _ => 0, fun _ _ => 0⟩ a) fun r hr => ?_).bind fun a ha => ?_
  · exact assemble_spec I.debug true (L r).gdiag (p r).1 (cs r) (hcs r hr).1
      ⟨fun _ _ => 0, fun _ _ => 0, fun _ _ => 0⟩ (fun _ _ _ => rfl)
  refine (settles_syncs c _).bind fun _ _ => ?_
  refine settles_pure fun r hr => ?_
  have hmap : ∀ q ∈ c, (collect (cs q)).eigenvectors.length = (L q).rowCount l :=
    fun q hq => (hcs q hq).2.1
  refine ⟨?_, (hcs r hr).2.1, ?_, ?_⟩
  · change (p r).1 = _
    rw [hp r hr]
    exact congrArg List.sum (List.map_congr_left fun q hq =>
      hmap q ((List.takeWhile_sublist _).subset hq))
  · change (p r).2 = _
    rw [hp r hr]
    exact congrArg List.sum (List.map_congr_left hmap)
  · intro ws hws k w v hk x
    have hw : ws = cs r := by
      have := hws.symm.trans (hcs r hr).2.2
      exact List.map_injective_iff.2 (fun _ _ h => Outcome.ok.inj h) this
    subst hw
    have e := ha r hr ((p r).1 + k) x
    rw [rowsMat_add, rowsMat_add, hk] at e
    exact ⟨by simpa [fV] using e.2.1, by simpa [fR] using e.1⟩

omit [Field K] in
theorem settles_check (I : SetupInput) (L : ℕ → LocalInput K) (c : List ℕ)
    (hL : ∀ r ∈ c, (L r).Fine I) :
    Settles c (fun _ _ => True) fun r => checkProc I (L r) c := by
  unfold checkProc
  by_cases hd : I.debug = true
  · simp only [if_pos hd]
    refine (settles_syncs c _).bind fun _ _ => ?_
    refine (settles_lift (post := fun _ _ => True) _ fun _ _ _ _ => trivial).bind fun _ _ => ?_
    refine (settles_syncs c _).bind fun _ _ => ?_
    refine settles_lift_ok fun r hr => ⟨(), ?_, trivial⟩
    rw [(hL r hr).weights hd]
    simp [Outcome.assert]
  · simp only [if_neg hd]
    exact settles_pure (a := fun _ => ()) fun _ _ => trivial

theorem settles_setup (I : SetupInput) (L : ℕ → LocalInput K) (c : List ℕ)
    (hL : ∀ r ∈ c, (L r).Fine I) (l : ℕ) :
    Settles c (PartSpec c L l) fun r => setupRestrictorProc I (L r) c (c.idxOf r) l := by
  unfold setupRestrictorProc
  refine (settles_lift (post := fun _ _ => True) _ fun _ _ _ _ => trivial).bind fun _ _ => ?_
  refine (settles_lift_ok (post := fun r cs => (∀ x ∈ cs, x.WellFormed) ∧
      (collect cs).eigenvectors.length = (L r).rowCount l ∧ (L r).work l = cs.map .ok) fun r hr => ?_).bind fun cs hcs => ?_
  · exact (hL r hr).collected l
  refine (settles_restriction I L c l cs hcs).bind fun R hR => ?_
  by_cases hf : (!I.fastAp && !I.matrixFree) = true
  · simp only [if_pos hf]
    exact (settles_check I L c hL).bind fun _ _ => settles_pure hR
  · simp only [if_neg hf]
    exact settles_pure hR

theorem settles_buildRestrictor (I : SetupInput) (L : ℕ → LocalInput K) (c : List ℕ)
    (hL : ∀ r ∈ c, (L r).Fine I) (l : ℕ) :
    Settles c (PartSpec c L l) fun r => buildRestrictorProc I (L r) c (c.idxOf r) l := by
  unfold buildRestrictorProc diagonalProc
  refine (settles_syncs c _).bind fun _ _ => ?_
  refine (settles_setup I L c hL l).bind fun R hR => ?_
  by_cases hf : I.fastAp = true
  · simp only [if_pos hf]
    refine (settles_syncs c _).bind fun _ _ => ?_
    refine (settles_lift_ok (post := fun _ _ => True) fun r hr =>
      ⟨(), (hL r hr).fastWork l, trivial⟩).bind fun _ _ => ?_
    exact (settles_syncs c _).bind fun _ _ => settles_pure hR
  · simp only [if_neg hf]
    exact settles_pure hR

theorem settles_columns (c : List ℕ) (n : ℕ) :
    Settles c (fun _ _ => True) fun _ => columnsProc c n := by
  induction n with
  | zero => exact settles_pure (a := fun _ => ()) fun _ _ => trivial
  | succ n ih => exact (settles_syncs c _).bind fun _ _ => ih

theorem settles_multiplyTranspose (I : SetupInput) (L : ℕ → LocalInput K) (c : List ℕ) (l l' : ℕ)
    (R : ℕ → RestrictorPart K) (hR : ∀ r ∈ c, PartSpec c L l' r (R r)) :
    Settles c (fun _ _ => True) fun r => multiplyTransposeProc I c l (R r) := by
  unfold multiplyTransposeProc
  by_cases hf : (I.matrixFree && l == 0) = true
  · simp only [if_pos hf]
    refine (settles_syncs c _).bind fun _ _ => ?_
    have : Settles c (fun _ _ => True) fun r => columnsProc c (R r).total :=
      (settles_columns c (c.map fun q => (L q).rowCount l').sum).congr fun r hr => by
        rw [(hR r hr).2.2.1]
    exact this.bind fun _ _ => settles_syncs c _
  · simp only [if_neg hf]
    exact settles_syncs c _

/-- What a member knows after the set-up of the levels from `l` on. -/
def PartsSpec (c : List ℕ) (L : ℕ → LocalInput K) (n l r : ℕ) (Rs : List (RestrictorPart K)) :
    Prop :=
  Rs.length = n ∧ ∀ i R, Rs[i]? = some R → PartSpec c L (l + i) r R

theorem settles_levels (I : SetupInput) (L : ℕ → LocalInput K) (c : List ℕ)
    (hL : ∀ r ∈ c, (L r).Fine I) (left l : ℕ) :
    Settles c (PartsSpec c L (left - 1) l) fun r => levelsProc I (L r) c (c.idxOf r) left l := by
  induction left generalizing l with
  | zero => exact settles_pure (a := fun _ => []) fun _ _ => ⟨rfl, by simp⟩
  | succ left ih =>
    cases left with
    | zero =>
      simp only [levelsProc]
      refine (settles_lift (post := fun _ _ => True) _ fun _ _ _ _ => trivial).bind fun _ _ => ?_
      exact (settles_syncs c _).bind fun _ _ =>
        settles_pure (a := fun _ => []) fun _ _ => ⟨rfl, by simp⟩
    | succ left =>
      simp only [levelsProc]
      refine (settles_lift (post := fun _ _ => True) _ fun _ _ _ _ => trivial).bind fun _ _ => ?_
      refine (settles_syncs c _).bind fun _ _ => ?_
      refine (settles_buildRestrictor I L c hL l).bind fun R hR => ?_
      have tail : Settles c (PartsSpec c L (left + 1) l) fun r =>
          syncs c ["mmult"] >>= fun _ =>
            levelsProc I (L r) c (c.idxOf r) (left + 1) (l + 1) >>= fun rest =>
              pure (R r :: rest) := by
        refine (settles_syncs c _).bind fun _ _ => ?_
        refine (ih (l + 1)).bind fun rest hrest => ?_
        refine settles_pure fun r hr => ⟨by simp [(hrest r hr).1], fun i P hP => ?_⟩
        cases i with
        | zero =>
          simp only [List.getElem?_cons_zero, Option.some.injEq] at hP
          rw [← hP]
          exact hR r hr
        | succ i =>
          rw [List.getElem?_cons_succ] at hP
          have := (hrest r hr).2 i P hP
          rwa [show l + 1 + i = l + (i + 1) by omega] at this
      by_cases hf : (!I.fastAp) = true
      · simp only [if_pos hf]
        exact (settles_multiplyTranspose I L c l l R hR).bind fun _ _ => tail
      · simp only [if_neg hf]
        exact tail

theorem settles_hierarchy (I : SetupInput) (L : ℕ → LocalInput K) (c : List ℕ)
    (hL : ∀ r ∈ c, (L r).Fine I) (levels : ℕ) :
    Settles c (PartsSpec c L (levels - 1) 0)
      fun r => hierarchyProc I (L r) c (c.idxOf r) levels := by
  unfold hierarchyProc
  refine (settles_lift (post := fun _ _ => True) _ fun _ _ _ _ => trivial).bind fun _ _ => ?_
  refine (settles_lift (post := fun _ _ => True) _ fun _ _ _ _ => trivial).bind fun _ _ => ?_
  exact (settles_syncs c _).bind fun _ _ => settles_levels I L c hL levels 0

/-! ## C76 -/

/-- **C76**, set-up: on every communicator, with any share of the mesh on every member (none
included), any number of levels, with and without matrices and `fast_ap`: if the own computations of
all members succeed, no member ever waits in vain, whatever the processes outside the communicator do.
In the end all members have a hierarchy in which their rows start where the rows of the members before
them end and contain the weighted eigenvectors of their agglomerates, or none has one (for instance because of an unknown smoother).
Missing: members whose own computations fail, see `C76_exception_violated`. -/
theorem C76_setup_partial (I : SetupInput) (L : ℕ → LocalInput K) (c : List ℕ) (hc : c ≠ [])
    (hL : ∀ r ∈ c, (L r).Fine I) (levels : ℕ) (s : ℕ → Proc (List (RestrictorPart K)))
    (hs : ∀ r ∈ c, s r = hierarchyProc I (L r) c (c.idxOf r) levels) :
    NobodyWaits c s ∧ ∀ cs t, Executes cs s t → (∀ r ∈ c, Ended (t r)) →
      (∀ r ∈ c, ∃ Rs, Returned (t r) Rs ∧ Rs.length = levels - 1 ∧
        ∀ l R, Rs[l]? = some R →
          R.first = ((membersBefore c r).map fun q => (L q).rowCount l).sum ∧
          R.rows = (L r).rowCount l ∧ R.total = (c.map fun q => (L q).rowCount l).sum ∧
          ∀ ws, (L r).work l = ws.map .ok → ∀ k w v, (rowsOf ws)[k]? = some (w, v) → ∀ x,
            R.matrices.V (R.first + k) x = extend w.dofMap v x ∧
            R.matrices.R (R.first + k) x
              = extend w.dofMap w.diag x / (L r).gdiag x * extend w.dofMap v x) ∨
      ∀ r ∈ c, ∀ Rs, ¬ Returned (t r) Rs := by
  have h := (settles_hierarchy I L c hL levels).congr fun r hr => (hs r hr).symm
  refine ⟨h.nobodyWaits hc, fun cs t he ht => ?_⟩
  rcases h.final hc he ht with h | h
  · refine .inl fun r hr => ?_
    obtain ⟨Rs, h1, h2, h3⟩ := h r hr
    exact ⟨Rs, h1, h2, fun l R hR => by simpa [PartSpec] using h3 l R hR⟩
  · refine .inr fun r hr Rs hR => ?_
    obtain ⟨o, h1, h2⟩ := h r hr
    rw [Returned, h1] at hR
    injection hR with hR
    exact h2 Rs hR

omit [Field K] in
/-- Position of the vectors of the `i`-th agglomerate if every agglomerate has `n` of them. -/
theorem rowsOf_getElem_mul {α : Type} (n : ℕ) (f : α → CopyData K) (l : List α)
    (hn : ∀ a ∈ l, (f a).eigenvectors.length = n) (i k : ℕ) (a : α) (v : List K) (ha : l[i]? = some a)
    (hv : (f a).eigenvectors[k]? = some v) : (rowsOf (l.map f))[i * n + k]? = some (f a, v) := by
  induction l generalizing i with
  | nil => simp at ha
  | cons b l ih =>
    have hcons : rowsOf ((b :: l).map f) = (f b).eigenvectors.map (fun v => (f b, v)) ++ rowsOf (l.map f) := by
      simp [rowsOf]
    have hb : ((f b).eigenvectors.map (fun v => (f b, v))).length = n := by simp [hn b (by simp)]
    rw [hcons]
    cases i with
    | zero =>
      simp only [List.getElem?_cons_zero, Option.some.injEq] at ha
      subst ha
      have hk : k < (f b).eigenvectors.length := (List.getElem?_eq_some_iff.1 hv).1
      rw [Nat.zero_mul, Nat.zero_add, List.getElem?_append_left (by simpa using hk), List.getElem?_map, hv]
      rfl
    | succ i =>
      rw [List.getElem?_cons_succ] at ha
      rw [List.getElem?_append_right (by rw [hb, Nat.succ_mul]; omega), hb,
        show (i + 1) * n + k - n = i * n + k by rw [Nat.succ_mul]; omega]
      exact ih (fun a h => hn a (by simp [h])) i ha

/-- **C76**, matrix-free set-up with an iterative eigensolver: if it finds the `n` requested vectors for every
agglomerate, and all members return, then the `k`-th vector of the `i`-th agglomerate of a member is in row
`i n + k` of the rows of this member, at the dofs of that agglomerate and with its weights.
(Partial as `C76_setup_partial`.) -/
theorem C76_matrix_free_partial (I : SetupInput) (L : ℕ → LocalInput K) (c : List ℕ) (hc : c ≠ [])
    (hL : ∀ r ∈ c, (L r).Fine I) (levels : ℕ) (s : ℕ → Proc (List (RestrictorPart K)))
    (hs : ∀ r ∈ c, s r = hierarchyProc I (L r) c (c.idxOf r) levels) (n : ℕ) (S : EigenSolvers K)
    (name : List Char) (solve : (ℕ → ℕ → K) → List K × List (List K)) (hname : IterativeSolver S name solve)
    (hn : ∀ M, (solve M).1.length = n ∧ (solve M).2.length = n) (patches : ℕ → List (WorkPatch K))
    (hwork : ∀ x ∈ c, (L x).work 0 = (patches x).map (localWorkerFree I.debug (some name) n S)) :
    ∀ cs t, Executes cs s t → (∀ r ∈ c, Ended (t r)) → ∀ r ∈ c, ∀ R Rs, Returned (t r) (R :: Rs) →
      ∀ i k p v, (patches r)[i]? = some p → (solve p.A).2[k]? = some v → ∀ x,
        R.matrices.R (R.first + (i * n + k)) x
          = extend p.dofMap p.diag x / (L r).gdiag x * extend p.dofMap v x := by
  intro cs t he ht r hr R Rs hret i k p v hp hv x
  rcases (C76_setup_partial I L c hc hL levels s hs).2 cs t he ht with h | h
  · obtain ⟨Rs', h1, -, h2⟩ := h r hr
    have hRs : Rs' = R :: Rs := by
      rw [Returned] at h1 hret
      rw [hret] at h1
      injection h1 with h1
      exact (Outcome.ok.inj h1).symm
    have h3 := h2 0 R (by rw [hRs]; rfl)
    let f : WorkPatch K → CopyData K := fun p => ⟨(solve p.A).1, (solve p.A).2, p.diag, p.dofMap⟩
    have hf : (L r).work 0 = ((patches r).map f).map .ok := by
      rw [hwork r hr, List.map_map]
      apply List.map_congr_left
      intro q _
      rw [localWorkerFree, (C59_aligned_partial I.debug n q.size q.A [] q.diag S name solve hname hn).2,
        Outcome.ok_bind]
      rfl
    exact (h3.2.2.2 _ hf _ _ _ (rowsOf_getElem_mul n f (patches r) (fun q _ => (hn q.A).2) i k p v hp hv) x).2
  · exact absurd hret (h r hr _)

end

theorem settles_smooth (c : List ℕ) (n : ℕ) :
    Settles c (fun _ _ => True) fun _ => smoothProc c n := by
  induction n with
  | zero => exact settles_pure (a := fun _ => ()) fun _ _ => trivial
  | succ n ih => exact (settles_syncs c _).bind fun _ _ => ih

/-- **C76**, application: no member ever waits in vain in `vmult`, for any number of levels and
smoothing steps. -/
theorem C76_cycle (c : List ℕ) (hc : c ≠ []) (steps levels : ℕ) (s : ℕ → Proc Unit)
    (hs : ∀ r ∈ c, s r = cycleProc c steps levels) : NobodyWaits c s := by
  have key : ∀ n, Settles c (fun _ _ => True) fun _ => cycleProc c steps n := by
    intro n
    induction n with
    | zero => exact settles_pure (a := fun _ => ()) fun _ _ => trivial
    | succ n ih =>
      cases n with
      | zero => exact settles_syncs c _
      | succ n =>
        simp only [cycleProc]
        refine (settles_smooth c steps).bind fun _ _ => ?_
        refine (settles_syncs c _).bind fun _ _ => ?_
        refine ih.bind fun _ _ => ?_
        exact (settles_syncs c _).bind fun _ _ => settles_smooth c steps
  exact ((key levels).congr fun r hr => (hs r hr).symm).nobodyWaits hc

theorem leads_syncs {α : Type} {c : List ℕ} {Q : (ℕ → Proc α) → Prop} (ops : List String)
    {f : ℕ → Unit → Proc α} (h : Leads c Q fun r => f r ()) :
    Leads c Q fun r => (syncs c ops >>= f r) := by
  induction ops with
  | nil => exact h
  | cons op ops ih =>
    exact .call _ op (fun _ => 0) (fun r _ => (syncs c ops >>= f r)) (fun _ _ => rfl) ih

/-- **C76**, AMGX on all processes: nobody waits in vain, and every process gets the numbers of all. -/
theorem C76_amgx_world (world : List ℕ) (hw : world ≠ []) (nnz : ℕ → ℕ) (s : ℕ → Proc (List ℕ))
    (hs : ∀ r ∈ world, s r = amgxProc world world (nnz r)) :
    NobodyWaits world s ∧ ∀ cs t, Executes cs s t → (∀ r ∈ world, Ended (t r)) →
      ∀ r ∈ world, Returned (t r) (world.map nnz) := by
  have key : Leads world (fun t => ∀ r ∈ world, Returned (t r) (world.map nnz))
      fun r => amgxProc world world (nnz r) :=
    leads_syncs _ (.call _ "MPI_Allgather" nnz (fun _ l => .done (.ok l)) (fun _ _ => rfl)
      (.now _ fun _ _ => rfl))
  have hset : Settles world (fun _ l => l = world.map nnz)
      fun r => amgxProc world world (nnz r) :=
    (settles_syncs world _).bind fun _ _ => settles_gatherCounts world nnz
  have h := hset.congr fun r hr => (hs r hr).symm
  have hkey := Leads.congr (fun s t hst h r hr => by rw [← hst r hr]; exact h r hr) key
    fun r hr => (hs r hr).symm
  refine ⟨h.nobodyWaits hw, fun cs t he ht => ?_⟩
  have := hkey.executes' (fun s t hst h r hr => by rw [← hst r hr]; exact h r hr)
    (fun s t hP d hst r hr => hst.ended (hP r hr)) he
  cases this with
  | now _ h => exact h
  | call _ op send next h _ => exact absurd (.mk t op send next ⟨hw, h⟩) (no_step_ended hw ht)

/-! ## Violations -/

theorem lift_fail {α β : Type} {o : Outcome α} (h : ∀ a, o ≠ .ok a) (f : α → Proc β) :
    ∃ o', (Proc.ofOutcome o >>= f) = .done o' := by
  obtain ⟨o', h, _⟩ := bind_done_fail h f
  exact ⟨o', h⟩

section

variable {K : Type} [Field K]

/-- **C76 is violated** by exceptions: if the eigenproblems of one member fail and those of another
one do not, the other one waits for ever. -/
theorem C76_exception_violated (I : SetupInput) (L : ℕ → LocalInput K) (c : List ℕ) (q r : ℕ)
    (hq : q ∈ c) (hr : r ∈ c) (hI : I.helpers = .ok () ∧ I.partitioner = .ok () ∧
      I.smoother 0 = .ok ()) (levels : ℕ) (hlevels : 2 ≤ levels)
    (hfail : ∀ cs, mapOutcome id ((L q).work 0) ≠ .ok cs)
    (hok : ∃ cs, mapOutcome id ((L r).work 0) = .ok cs)
    (s : ℕ → Proc (List (RestrictorPart K)))
    (hs : ∀ x ∈ c, s x = hierarchyProc I (L x) c (c.idxOf x) levels) : WaitsForEver s r := by
  obtain ⟨n, rfl⟩ : ∃ n, levels = n + 2 := ⟨levels - 2, by omega⟩
  obtain ⟨cs, hcs⟩ := hok
  refine Leads.waits hr hq (Leads.congr ?_ ?_ fun x hx => (hs x hx).symm)
  · intro s t hst h
    rw [← hst r hr, ← hst q hq]
    exact h
  have hdebug : Outcome.assert I.debug (decide (0 < n + 2)) = .ok () := by simp [Outcome.assert]
  have hlift : ∀ {β : Type} (f : Unit → Proc β), (Proc.ofOutcome (.ok ()) >>= f) = f () := fun _ => rfl
  simp only [hierarchyProc, hI.1, hdebug, hlift]
  refine leads_syncs _ ?_
  simp only [levelsProc, hI.2.2, hlift]
  refine leads_syncs _ ?_
  simp only [buildRestrictorProc, diagonalProc, Proc.bind_assoc]
  refine leads_syncs _ ?_
  simp only [setupRestrictorProc, hI.2.1, hlift, Proc.bind_assoc]
  refine .now _ ⟨?_, ?_⟩
  · simp only [hcs]
    exact ⟨_, _, _, rfl⟩
  · exact lift_fail hfail _

/-- **C76 is violated**: a matrix-free hierarchy with the eigensolver `lapack` (or `arpack`) throws on
the members that have agglomerates, as documented, but a member without agglomerates does not notice
and waits for ever. -/
theorem C76_no_agglomerates_violated (I : SetupInput) (L : ℕ → LocalInput K) (c : List ℕ) (q r : ℕ)
    (hq : q ∈ c) (hr : r ∈ c) (hI : I.helpers = .ok () ∧ I.partitioner = .ok () ∧
      I.smoother 0 = .ok ()) (levels : ℕ) (hlevels : 2 ≤ levels) (name : List Char)
    (hname : name = chars! "lapack" ∨ name = chars! "arpack") (n : ℕ) (S : EigenSolvers K)
    (patches : ℕ → List (WorkPatch K)) (hpq : patches q ≠ []) (hpr : patches r = [])
    (hwork : ∀ x ∈ c, (L x).work 0 = (patches x).map (localWorkerFree I.debug (some name) n S))
    (s : ℕ → Proc (List (RestrictorPart K)))
    (hs : ∀ x ∈ c, s x = hierarchyProc I (L x) c (c.idxOf x) levels) : WaitsForEver s r := by
  refine C76_exception_violated I L c q r hq hr hI levels hlevels ?_ ?_ s hs
  · intro cs
    rw [hwork q hq]
    obtain ⟨p, ps, hp⟩ := List.exists_cons_of_ne_nil hpq
    rw [hp]
    obtain ⟨⟨w, hw⟩, w', hw'⟩ := C57_matrix_free_throws I.debug n p.size p.A p.diag S
    rcases hname with rfl | rfl <;>
      simp [mapOutcome, localWorkerFree, hw, hw']
  · rw [hwork r hr, hpr]
    exact ⟨[], rfl⟩

end

/-- **C76 is violated**: an AMGX solver set up on a communicator `c` that leaves out some process of
the world hangs on every member of `c`, when the process left out has nothing to do with it. -/
theorem C76_amgx_violated (world c : List ℕ) (nnz : ℕ → ℕ) (w : ℕ) (hw : w ∈ world) (hwc : w ∉ c)
    (s : ℕ → Proc (List ℕ)) (hs : ∀ r ∈ c, s r = amgxProc world c (nnz r)) (hend : Ended (s w))
    (r : ℕ) (hr : r ∈ c) : WaitsForEver s r := by
  obtain ⟨o, ho⟩ := hend
  have hc : c ≠ [] := List.ne_nil_of_mem hr
  have hne : world ≠ c := fun e => hwc (e ▸ hw)
  -- the invariant: in the first call on `c`, or blocked in the call on `world`
  have inv : ∀ cs t, Executes cs s t → t w = .done o ∧
      ((∀ x ∈ c, t x = amgxProc world c (nnz x)) ∨
        ∀ x ∈ c, t x = gatherCounts world (nnz x)) := by
    intro cs t he
    have : ∀ cs (s t : ℕ → Proc (List ℕ)), Executes cs s t → s w = .done o →
        ((∀ x ∈ c, s x = amgxProc world c (nnz x)) ∨ ∀ x ∈ c, s x = gatherCounts world (nnz x)) →
        t w = .done o ∧ ((∀ x ∈ c, t x = amgxProc world c (nnz x)) ∨
          ∀ x ∈ c, t x = gatherCounts world (nnz x)) := by
      intro cs s t he
      induction he with
      | nil s => exact fun h1 h2 => ⟨h1, h2⟩
      | cons d cs s t u hst _ ih =>
        intro h1 h2
        refine ih (hst.ended h1) ?_
        cases hst with
        | mk op send next hm =>
          have hwd : w ∉ d := fun hd => by
            have := hm.2 w hd
            rw [h1] at this
            cases this
          rcases h2 with h2 | h2
          · by_cases hdc : d = c
            · subst hdc
              refine .inr fun x hx => ?_
              have h3 := hm.2 x hx
              rw [h2 x hx] at h3
              injection h3 with _ _ _ h4
              dsimp only
              rw [if_pos hx, ← h4]
              rfl
            · refine .inl fun x hx => ?_
              have : x ∉ d := fun hd => by
                have h3 := hm.2 x hd
                rw [h2 x hx] at h3
                injection h3 with h4
                exact hdc h4.symm
              dsimp only
              rw [if_neg this, h2 x hx]
          · refine .inr fun x hx => ?_
            have : x ∉ d := fun hd => by
              have h3 := hm.2 x hd
              rw [h2 x hx] at h3
              injection h3 with h4
              exact hwd (h4 ▸ hw)
            dsimp only
            rw [if_neg this, h2 x hx]
    exact this cs s t he ho (.inl hs)
  intro cs t he hend
  obtain ⟨o', ho'⟩ := hend
  rcases (inv cs t he).2 with h | h
  · have := h r hr
    rw [ho'] at this
    cases this
  · have := h r hr
    rw [ho'] at this
    cases this

/-! ## Examples -/

/-- Three processes; the second one has no agglomerates. -/
def exWork : ℕ → LocalInput ℚ
  | 0 => ⟨fun _ => [.ok exAgg0, .ok exAgg1], fun _ => .ok (), exGdiag, true⟩
  | 2 => ⟨fun _ => [.ok exAgg2], fun _ => .ok (), exGdiag, true⟩
  | _ => ⟨fun _ => [], fun _ => .ok (), exGdiag, true⟩

def exSetupInput (fastAp matrixFree : Bool) : SetupInput :=
  ⟨true, fastAp, matrixFree, .ok (), .ok (), fun _ => .ok (), fun _ => .ok (), true⟩

theorem exWork_fine (I : SetupInput) (r : ℕ) : (exWork r).Fine I := by
  have h0 : exAgg0.WellFormed :=
    exRanks_wf [exAgg0, exAgg1] (by simp [exRanks]) _ (List.mem_cons_self ..)
  have h1 : exAgg1.WellFormed := exRanks_wf [exAgg0, exAgg1] (by simp [exRanks])
    _ (List.mem_cons_of_mem _ (List.mem_cons_self ..))
  have h2 : exAgg2.WellFormed := exRanks_wf [exAgg2] (by simp [exRanks]) _ (List.mem_cons_self ..)
  match r with
  | 0 => exact ⟨fun _ o ho => by
      simp only [exWork, List.mem_cons, List.not_mem_nil, or_false] at ho
      rcases ho with rfl | rfl
      · exact ⟨_, rfl, h0⟩
      · exact ⟨_, rfl, h1⟩, fun _ => rfl, fun _ => rfl⟩
  | 1 => exact ⟨fun _ o ho => by simp [exWork] at ho, fun _ => rfl, fun _ => rfl⟩
  | 2 => exact ⟨fun _ o ho => by
      simp only [exWork, List.mem_cons, List.not_mem_nil, or_false] at ho
      subst ho
      exact ⟨_, rfl, h2⟩, fun _ => rfl, fun _ => rfl⟩
  | n + 3 => exact ⟨fun _ o ho => by simp [exWork] at ho, fun _ => rfl, fun _ => rfl⟩

/-- The hypotheses of `C76_setup_partial` are met by a communicator whose ranks are not the world
ranks, with a member that owns nothing. -/
example (fastAp matrixFree : Bool) :
    NobodyWaits [2, 1, 0] (fun r => if r ∈ [2, 1, 0] then
      hierarchyProc (exSetupInput fastAp matrixFree) (exWork r) [2, 1, 0]
        (List.idxOf r [2, 1, 0]) 2 else .done (.throws "busy")) :=
  (C76_setup_partial (exSetupInput fastAp matrixFree) exWork [2, 1, 0] (by simp)
    (fun r _ => exWork_fine _ r) 2 _ fun r hr => by rw [if_pos hr]).1

/-- Two agglomerates of two dofs, the second one with a common dof. -/
def exPatches : ℕ → List (WorkPatch ℚ)
  | 0 => [⟨2, fun _ _ => 1, [2, 1], [0, 1]⟩, ⟨2, fun _ _ => 1, [1, 2], [1, 2]⟩]
  | _ => []

/-- An eigensolver that always finds the same vector. -/
def exSolver : EigenSolvers ℚ :=
  ⟨fun _ => ([], []), fun _ => ([0], [[1, -1]]), fun _ => ([], []), fun _ => ([], [])⟩

/-- The hypotheses of `C76_matrix_free_partial`: the second agglomerate of the first process is in its second row. -/
example (cs : List (List ℕ)) (t : ℕ → Proc (List (RestrictorPart ℚ)))
    (he : Executes cs (fun r => hierarchyProc (exSetupInput false true)
      ⟨fun _ => (exPatches r).map (localWorkerFree true (some (chars! "lanczos")) 1 exSolver), fun _ => .ok (),
        exGdiag, true⟩ [0, 1] (List.idxOf r [0, 1]) 2) t) (ht : ∀ r ∈ [0, 1], Ended (t r))
    (R : RestrictorPart ℚ) (hR : Returned (t 0) [R]) :
    R.matrices.R (R.first + 1) 2 = 2 / exGdiag 2 * (-1) := by
  have h := C76_matrix_free_partial (exSetupInput false true) (fun r =>
    ⟨fun _ => (exPatches r).map (localWorkerFree true (some (chars! "lanczos")) 1 exSolver), fun _ => .ok (),
      exGdiag, true⟩) [0, 1] (by simp) (fun r _ => ⟨fun _ o ho => ?_, fun _ => rfl, fun _ => rfl⟩) 2 _
    (fun _ _ => rfl) 1 exSolver (chars! "lanczos") (fun _ => ([0], [[1, -1]])) (Or.inl ⟨rfl, rfl⟩)
    (fun _ => ⟨rfl, rfl⟩) exPatches (fun _ _ => rfl) cs t he ht 0 (by simp) R [] hR 1 0 _ _ rfl rfl 2
  · simpa [extend_cons] using h
  · match r with
    | 0 =>
      simp only [exPatches, List.map_cons, List.map_nil, List.mem_cons, List.not_mem_nil, or_false] at ho
      rcases ho with rfl | rfl
      · exact ⟨⟨[0], [[1, -1]], [2, 1], [0, 1]⟩, rfl, by decide, rfl, by decide⟩
      · exact ⟨⟨[0], [[1, -1]], [1, 2], [1, 2]⟩, rfl, by decide, rfl, by decide⟩
    | n + 1 => simp [exPatches] at ho

/-- The first rows and the totals in this case. -/
example : ((membersBefore [2, 1, 0] 0).map fun q => (exWork q).rowCount 0).sum = 2 ∧
    ([2, 1, 0].map fun q => (exWork q).rowCount 0).sum = 6 := by decide

/-- The hypotheses of `C76_cycle`. -/
example : NobodyWaits [0, 1] fun _ => cycleProc [0, 1] 2 3 :=
  C76_cycle [0, 1] (by simp) 2 3 _ fun _ _ => rfl

/-- The hypotheses of `C76_amgx_world`. -/
example : NobodyWaits [0, 1] fun r => amgxProc [0, 1] [0, 1] (r + 5) :=
  (C76_amgx_world [0, 1] (by simp) (fun r => r + 5) _ fun _ _ => rfl).1

/-- The hypotheses of `C76_no_agglomerates_violated` (and with it of `C76_exception_violated`): the
second of two processes has no agglomerates. -/
example (S : EigenSolvers ℚ) (p : WorkPatch ℚ) :
    let patches : ℕ → List (WorkPatch ℚ) := fun r => if r = 0 then [p] else []
    let L : ℕ → LocalInput ℚ := fun r =>
      ⟨fun _ => (patches r).map (localWorkerFree true (some (chars! "lapack")) 1 S),
        fun _ => .ok (), fun _ => 1, true⟩
    WaitsForEver (fun r => hierarchyProc (exSetupInput false true) (L r) [0, 1]
      (List.idxOf r [0, 1]) 2) 1 :=
  C76_no_agglomerates_violated (exSetupInput false true) _ [0, 1] 0 1 (by simp) (by simp)
    ⟨rfl, rfl, rfl⟩ 2 (le_refl 2) _ (.inl rfl) 1 S (fun r => if r = 0 then [p] else [])
    (by simp) (by simp) (fun _ _ => rfl) _ fun _ _ => rfl

/-- The hypotheses of `C76_amgx_violated`: a solver on two of three processes. -/
example : WaitsForEver (fun r => if r < 2 then amgxProc [0, 1, 2] [0, 1] 7 else .done (.ok [])) 0 :=
  C76_amgx_violated [0, 1, 2] [0, 1] (fun _ => 7) 2 (by simp) (by simp) _
    (fun r hr => by
      simp only [List.mem_cons, List.not_mem_nil, or_false] at hr
      rcases hr with rfl | rfl <;> rfl) ⟨.ok [], rfl⟩ 0 (by simp)

end Mfmg
