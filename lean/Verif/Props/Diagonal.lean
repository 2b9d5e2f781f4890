import Verif.Lemmas.Diagonal
import Verif.Props.Restriction

/-!
# The weights of the restriction matrix come from the true diagonal (C79)
-/

set_option autoImplicit false

namespace Mfmg

section

variable {K : Type}

/-- **C79**, diagonal.  For every matrix and every distribution of the dofs, `get_diagonal` returns on every
process exactly the diagonal elements of the global matrix at the locally relevant dofs, including those that
other processes own, and nothing at other dofs. -/
theorem C79_diagonal [Zero K] (diagElement : ℕ → K) (owned relevant : List (List ℕ))
    (howner : ∀ rel ∈ relevant, ∀ i ∈ rel, ∃ o ∈ owned, i ∈ o) :
    (getDiagonal diagElement owned relevant).length = relevant.length ∧
    ∀ (p : ℕ) (x : RankVector K) (rel : List ℕ), (getDiagonal diagElement owned relevant)[p]? = some x →
      relevant[p]? = some rel →
      (∀ i ∈ rel, x i = some (diagElement i)) ∧ ∀ i, i ∉ rel → x i = none := by
  refine ⟨by simp [getDiagonal], ?_⟩
  intro p x rel hx hrel
  simp only [getDiagonal, List.getElem?_map, hrel, Option.map_some, Option.some.injEq] at hx
  subst hx
  have key := importGhosts_eq diagElement owned rel (howner rel (List.mem_of_getElem? hrel))
  exact ⟨fun i hi => by rw [key, if_pos hi], fun i hi => by rw [key, if_neg hi]⟩

/-- The two processes of `exRanks`: dofs 0 and 1 belong to the first, 2 and 3 to the second. -/
def exOwnedDofs : List (List ℕ) := [[0, 1], [2, 3]]
def exRelevant : List (List ℕ) := [[0, 1, 2], [1, 2, 3]]

theorem exDistributed : Distributed exOwnedDofs exRelevant exRanks where
  owner := by decide
  relevant := by
    simp only [exRelevant, exRanks, List.forall₂_cons, List.Forall₂.nil, and_true]
    constructor <;> intro c hc <;> simp only [List.mem_cons, List.not_mem_nil, or_false] at hc
    · rcases hc with rfl | rfl <;> decide
    · subst hc; decide

example : ∃ x, (getDiagonal exGdiag exOwnedDofs exRelevant)[0]? = some x ∧ x 2 = some 4 ∧ x 3 = none := by
  have h := (C79_diagonal exGdiag exOwnedDofs exRelevant exDistributed.owner).2 0 _ [0, 1, 2] rfl rfl
  exact ⟨_, rfl, by rw [h.1 2 (by decide)]; rfl, h.2 3 (by decide)⟩

variable [Field K] [DecidableEq K]

omit [DecidableEq K] in
/-- What the assembly receives on the processes when the diagonal comes from `get_diagonal`. -/
theorem getDiagonal_stored (diagElement : ℕ → K) {owned relevant : List (List ℕ)} {css : List (List (CopyData K))}
    (hd : Distributed owned relevant css) :
    (∀ p ∈ (getDiagonal diagElement owned relevant).zip css, ∀ c ∈ p.2, ∀ i ∈ c.dofMap,
      p.1 i = some (diagElement i)) ∧
    ((getDiagonal diagElement owned relevant).zip css).map Prod.snd = css := by
  obtain ⟨howner, hrel⟩ := hd
  unfold getDiagonal
  generalize hf : importGhosts (owned.map (ownedDiagonal diagElement)) = f
  have hval : ∀ rel ∈ relevant, ∀ i ∈ rel, f rel i = some (diagElement i) := by
    intro rel hr i hi
    rw [← hf, importGhosts_eq diagElement owned rel (howner rel hr), if_pos hi]
  clear hf howner
  induction hrel with
  | nil => simp
  | @cons rel cs relevant css h _ ih =>
    obtain ⟨h1, h2⟩ := ih fun r hr => hval r (List.mem_cons_of_mem _ hr)
    constructor
    · intro p hp c hc i hi
      rw [List.map_cons, List.zip_cons_cons] at hp
      rcases List.mem_cons.1 hp with rfl | hp
      · exact hval rel List.mem_cons_self i (h c hc i hi)
      · exact h1 p hp c hc i hi
    · simp [h2]

omit [Field K] [DecidableEq K] in
theorem procRows_snd (ps : List (RankVector K × List (CopyData K))) :
    (procRows ps).map Prod.snd = rowsOf (ps.map Prod.snd).flatten := by
  induction ps with
  | nil => rfl
  | cons p ps ih =>
    rw [List.map_cons, List.flatten_cons, rowsOf_append, ← ih]
    simp [procRows, Function.comp_def]

omit [Field K] [DecidableEq K] in
theorem mem_procRows {ps : List (RankVector K × List (CopyData K))} {x : RankVector K} {c : CopyData K} {v : List K} :
    (x, c, v) ∈ procRows ps ↔ ∃ cs, (x, cs) ∈ ps ∧ c ∈ cs ∧ v ∈ c.eigenvectors := by
  simp only [procRows, rowsOf, List.mem_flatMap, List.mem_map, Prod.mk.injEq]
  constructor
  · rintro ⟨p, hp, cv, ⟨c', hc', v', hv', rfl⟩, rfl, h⟩
    cases h
    exact ⟨p.2, hp, hc', hv'⟩
  · rintro ⟨cs, hp, hc, hv⟩
    exact ⟨_, hp, _, ⟨c, hc, v, hv, rfl⟩, rfl, rfl⟩

/-- **C79**, weights.  With the diagonal from `get_diagonal`, if it has no zero at the dofs of the agglomerates,
the assembly on any number of processes succeeds, in debug and release builds: no process reads an element that
it does not store, every entry is a finite number, and the matrix is the one computed from the true global
diagonal (`C20_rows` and the later claims about it apply).  Full claim: this for every evaluator that follows the
documentation; missing: diagonals with zeros, for which it is false (`C79_constrained_violated`). -/
theorem C79_weights_partial (debug debug' dynAdds : Bool) (diagElement : ℕ → K) (owned relevant : List (List ℕ))
    (css : List (List (CopyData K))) (hcs : ∀ cs ∈ css, ∀ c ∈ cs, c.WellFormed)
    (hd : Distributed owned relevant css)
    (hne : ∀ cs ∈ css, ∀ c ∈ cs, ∀ i ∈ c.dofMap, diagElement i ≠ 0) :
    ∃ M a, restrictionProcs debug (((getDiagonal diagElement owned relevant).zip css).map fun p =>
        (p.1, collect p.2)) = .ok M ∧
      assembleAll debug' dynAdds diagElement (css.map collect) = .ok a ∧
      ∀ p i, M p i = .fin (a.R p i) := by
  obtain ⟨hval, hsnd⟩ := getDiagonal_stored diagElement hd
  generalize (getDiagonal diagElement owned relevant).zip css = ps at hval hsnd ⊢
  subst hsnd
  obtain ⟨M, hM, hM'⟩ := restrictionProcs_spec debug ps
    (fun p hp c hc => hcs _ (List.mem_map_of_mem hp) c hc) (fun p hp c hc _ i hi => ⟨_, hval p hp c hc i hi⟩)
  obtain ⟨a, ha, h1, h2⟩ := C20_rows debug' dynAdds diagElement (ps.map Prod.snd) hcs
  refine ⟨M, a, hM, ha, ?_⟩
  intro p i
  rw [hM', ← procRows_snd] at *
  cases hp : (procRows ps)[p]? with
  | none =>
    rw [h2 p (by simpa using List.getElem?_eq_none_iff.1 hp)]
  | some r =>
    obtain ⟨x, c, v⟩ := r
    obtain ⟨cs, hx, hc, hv⟩ := mem_procRows.1 (List.mem_of_getElem? hp)
    rw [h1 p c v (by simp [hp])]
    simp only [rowAt, entryAt]
    split_ifs with hi
    · rw [show x i = _ from hval _ hx c hc i hi]
      simp [Flt.quotient, hne cs (List.mem_map_of_mem hx) c hc i hi, Flt.times]
    · simp [extend_not_mem hi]

example : ∃ M a, restrictionProcs false (((getDiagonal exGdiag exOwnedDofs exRelevant).zip exRanks).map fun p =>
      (p.1, collect p.2)) = .ok M ∧
    assembleAll true true exGdiag (exRanks.map collect) = .ok a ∧ M 5 3 = .fin 2 := by
  obtain ⟨M, a, hM, ha, h⟩ := C79_weights_partial false true true exGdiag exOwnedDofs exRelevant exRanks exRanks_wf
    exDistributed (by decide +kernel)
  refine ⟨M, a, hM, ha, ?_⟩
  obtain ⟨a', h', h1, -⟩ := C20_rows true true exGdiag exRanks exRanks_wf
  obtain rfl : a = a' := by rw [ha] at h'; exact Outcome.ok.inj h'
  rw [h, h1 5 exAgg2 [1, 2] rfl]
  norm_num [exAgg2, exGdiag, extend_cons]

/-- **C79**, when the matrix is usable.  With the diagonal from `get_diagonal` the assembly never fails, and all
its entries are finite numbers exactly if the global diagonal has no zero at any dof of an agglomerate that has an
eigenvector. -/
theorem C79_finite_iff (debug : Bool) (diagElement : ℕ → K) (owned relevant : List (List ℕ))
    (css : List (List (CopyData K))) (hcs : ∀ cs ∈ css, ∀ c ∈ cs, c.WellFormed)
    (hd : Distributed owned relevant css) :
    ∃ M, restrictionProcs debug (((getDiagonal diagElement owned relevant).zip css).map fun p =>
        (p.1, collect p.2)) = .ok M ∧
      ((∀ p i, M p i ≠ .bad) ↔
        ∀ cs ∈ css, ∀ c ∈ cs, c.eigenvectors ≠ [] → ∀ i ∈ c.dofMap, diagElement i ≠ 0) := by
  obtain ⟨hval, hsnd⟩ := getDiagonal_stored diagElement hd
  generalize (getDiagonal diagElement owned relevant).zip css = ps at hval hsnd ⊢
  subst hsnd
  obtain ⟨M, hM, hM'⟩ := restrictionProcs_spec debug ps
    (fun p hp c hc => hcs _ (List.mem_map_of_mem hp) c hc) (fun p hp c hc _ i hi => ⟨_, hval p hp c hc i hi⟩)
  refine ⟨M, hM, ?_, ?_⟩
  · intro h cs hcs' c hc hne i hi h0
    obtain ⟨⟨x, cs'⟩, hp, rfl⟩ := List.mem_map.1 hcs'
    obtain ⟨v, hv⟩ := List.exists_mem_of_ne_nil _ hne
    obtain ⟨p, hp'⟩ := List.getElem?_of_mem (mem_procRows.2 ⟨cs', hp, hc, hv⟩)
    apply h p i
    rw [hM', hp']
    have hx : x i = some (diagElement i) := hval _ hp c hc i hi
    simp [rowAt, entryAt, hi, hx, h0, Flt.quotient, Flt.times]
  · intro h p i
    rw [hM']
    cases hp : (procRows ps)[p]? with
    | none => simp
    | some r =>
      obtain ⟨x, c, v⟩ := r
      obtain ⟨cs, hx, hc, hv⟩ := mem_procRows.1 (List.mem_of_getElem? hp)
      simp only [rowAt, entryAt]
      split_ifs with hi
      · rw [show x i = _ from hval _ hx c hc i hi]
        simp [Flt.quotient, h cs (List.mem_map_of_mem hx) c hc (List.ne_nil_of_mem hv) i hi, Flt.times]
      · simp

/-- A diagonal with a zero at dof 2. -/
example : ∃ M, restrictionProcs true (((getDiagonal (fun i => if i = 2 then 0 else exGdiag i) exOwnedDofs
      exRelevant).zip exRanks).map fun p => (p.1, collect p.2)) = .ok M ∧ ∃ p i, M p i = .bad := by
  obtain ⟨M, hM, h⟩ := C79_finite_iff true (fun i => if i = 2 then 0 else exGdiag i) exOwnedDofs exRelevant exRanks
    exRanks_wf exDistributed
  refine ⟨M, hM, ?_⟩
  by_contra hn
  exact (h.1 fun p i hb => hn ⟨p, i, hb⟩) _ (List.mem_cons_self) exAgg1 (by simp) (by simp [exAgg1]) 2 (by decide) rfl

theorem foldl_bad {K : Type} [Field K] (f : ℕ → Flt K) (l : List ℕ) :
    l.foldl (fun (s : Flt K) c => s.plus (f c)) .bad = .bad := by
  induction l with
  | nil => rfl
  | cons a l ih => rw [List.foldl_cons]; exact ih

omit [DecidableEq K] in
theorem rowProduct_bad (M : Entries (Flt K)) (row : ℕ) (cols : List ℕ) (i : ℕ) (hi : i ∈ cols) (h : M row i = .bad)
    (y : ℕ → K) : rowProduct M row cols y = .bad := by
  unfold rowProduct
  generalize (Flt.fin (0 : K)) = s
  induction cols generalizing s with
  | nil => cases hi
  | cons a cols ih =>
    rw [List.foldl_cons]
    rcases List.mem_cons.1 hi with rfl | hi
    · rw [h, Flt.times, Flt.plus_bad, foldl_bad fun c => (M row c).times (y c)]
    · exact ih hi _

/-- **C79 is violated** for evaluators that follow the documentation of
`DealIIMatrixFreeMeshEvaluator::get_diagonal`, "Constrained degrees of freedom are set to zero": whatever the
agglomerates, the eigenvectors (even when they vanish at the constrained dofs) and the other elements of the
diagonal are, nothing reports an error, every row of an agglomerate with a constrained dof has an entry that is
not a finite number there, and the product of such a row with any vector, even the zero vector, is not a finite
number. -/
theorem C79_constrained_violated (debug : Bool) (ps : List (RankVector K × List (CopyData K)))
    (hwf : ∀ p ∈ ps, ∀ c ∈ p.2, c.WellFormed) (hst : Stored ps) (constrained : ℕ → Prop)
    (hzero : ∀ p ∈ ps, ∀ i, constrained i → ∀ g, p.1 i = some g → g = 0) :
    ∃ M, restrictionProcs debug (ps.map fun p => (p.1, collect p.2)) = .ok M ∧
      ∀ (p : ℕ) (c : CopyData K) (v : List K), (rowsOf (ps.map Prod.snd).flatten)[p]? = some (c, v) →
        ∀ i ∈ c.dofMap, constrained i →
          M p i = .bad ∧ ∀ y : ℕ → K, rowProduct M p c.dofMap y = .bad := by
  obtain ⟨M, hM, hM'⟩ := restrictionProcs_spec debug ps hwf hst
  refine ⟨M, hM, ?_⟩
  intro p c v hp i hi hcon
  have hbad : M p i = .bad := by
    rw [← procRows_snd, List.getElem?_map, Option.map_eq_some_iff] at hp
    obtain ⟨⟨x, cv⟩, hp, rfl⟩ := hp
    obtain ⟨cs, hx, hc, hv⟩ := mem_procRows.1 (List.mem_of_getElem? hp)
    obtain ⟨g, hg⟩ := hst _ hx c hc (List.ne_nil_of_mem hv) i hi
    have hg0 := hzero _ hx i hcon g hg
    rw [hM', hp]
    simp only [rowAt, entryAt, if_pos hi]
    rw [show x i = _ from hg, hg0]
    simp [Flt.quotient, Flt.times]
  exact ⟨hbad, rowProduct_bad M p c.dofMap i hi hbad⟩

/-- Boundary dof 0 constrained: the first two rows are lost, on one of the two processes. -/
example : ∃ M, restrictionProcs false ((exRanks.map fun cs => ((fun i => some (if i = 0 then 0 else exGdiag i) :
      RankVector ℚ), cs)).map fun p => (p.1, collect p.2)) = .ok M ∧
    M 0 0 = .bad ∧ M 1 0 = .bad ∧ rowProduct M 0 [0, 1] (fun _ => 0) = .bad := by
  obtain ⟨M, hM, h⟩ := C79_constrained_violated false (exRanks.map fun cs =>
      ((fun i => some (if i = 0 then 0 else exGdiag i) : RankVector ℚ), cs))
    (by
      intro p hp
      obtain ⟨cs, hcs, rfl⟩ := List.mem_map.1 hp
      exact exRanks_wf cs hcs)
    (by
      intro p hp
      obtain ⟨cs, hcs, rfl⟩ := List.mem_map.1 hp
      intro c _ _ i _
      exact ⟨_, rfl⟩)
    (fun i => i = 0)
    (by
      intro p hp
      obtain ⟨cs, hcs, rfl⟩ := List.mem_map.1 hp
      rintro i rfl g hg
      simpa using hg.symm)
  have h0 := h 0 exAgg0 [1, 1] rfl 0 (by decide) rfl
  have h1 := h 1 exAgg0 [1, -1] rfl 0 (by decide) rfl
  exact ⟨M, hM, h0.1, h1.1, h0.2 _⟩

/-- **C79**, ghosts.  The assembly needs the diagonal at every dof of the agglomerates with eigenvectors of a
process, whoever owns it: it succeeds exactly if each process stores all of them.  An evaluator that returns a
vector without ghost elements stops the program in debug builds and is undefined behaviour in release builds. -/
theorem C79_ghosts (debug : Bool) (ps : List (RankVector K × List (CopyData K)))
    (hwf : ∀ p ∈ ps, ∀ c ∈ p.2, c.WellFormed) :
    (Stored ps → ∃ M, restrictionProcs debug (ps.map fun p => (p.1, collect p.2)) = .ok M) ∧
    (¬ Stored ps →
      (debug = true → restrictionProcs debug (ps.map fun p => (p.1, collect p.2)) = .aborted) ∧
      (debug = false → ∃ why, restrictionProcs debug (ps.map fun p => (p.1, collect p.2)) = .ub why)) := by
  refine ⟨fun h => ?_, fun h => ⟨?_, ?_⟩⟩
  · obtain ⟨M, hM, -⟩ := restrictionProcs_spec debug ps hwf h
    exact ⟨M, hM⟩
  · rintro rfl
    rw [restrictionProcs_missing true ps hwf h]
    rfl
  · rintro rfl
    exact ⟨_, by rw [restrictionProcs_missing false ps hwf h]; rfl⟩

/-- Two processes that return only their own elements: the agglomerate of dofs 2, 1 needs dof 2 on the first. -/
example : restrictionProcs true (((exOwnedDofs.map (ownedDiagonal exGdiag)).zip exRanks).map fun p =>
      (p.1, collect p.2)) = .aborted := by
  refine ((C79_ghosts true ((exOwnedDofs.map (ownedDiagonal exGdiag)).zip exRanks) ?_).2 ?_).1 rfl
  · intro p hp c hc
    exact exRanks_wf p.2 (List.of_mem_zip hp).2 c hc
  · intro h
    obtain ⟨g, hg⟩ := h (ownedDiagonal exGdiag [0, 1], [exAgg0, exAgg1]) (by simp [exOwnedDofs, exRanks]) exAgg1
      (by simp) (by simp [exAgg1]) 2 (by decide)
    have hg : ownedDiagonal exGdiag [0, 1] 2 = some g := hg
    rw [ownedDiagonal_eq] at hg
    simp at hg

end

end Mfmg
