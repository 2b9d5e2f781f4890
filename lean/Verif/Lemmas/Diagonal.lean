import Verif.Spec.Diagonal
import Verif.Lemmas.Restriction

/-!
# Lemmas on the weights from the diagonal
-/

set_option autoImplicit false

namespace Mfmg

section

variable {K : Type}

/-! ### The diagonal -/

theorem ownedDiagonal_eq [Zero K] (diag : ℕ → K) (owned : List ℕ) (i : ℕ) :
    ownedDiagonal diag owned i = if i ∈ owned then some (diag i) else none := by
  have key : ∀ (l : List ℕ) (x : RankVector K),
      l.foldl (fun x val => fun i => if i = val then some (diag val) else x i) x i
        = if i ∈ l then some (diag i) else x i := by
    intro l
    induction l with
    | nil => intro x; simp
    | cons a l ih =>
      intro x
      rw [List.foldl_cons, ih]
      by_cases h : i ∈ l
      · simp [h]
      · by_cases h' : i = a
        · subst h'; simp
        · simp [h, h']
  rw [ownedDiagonal, key]
  split_ifs <;> rfl

theorem importGhosts_eq [Zero K] (diag : ℕ → K) (owned : List (List ℕ)) (rel : List ℕ)
    (h : ∀ i ∈ rel, ∃ o ∈ owned, i ∈ o) (i : ℕ) :
    importGhosts (owned.map (ownedDiagonal diag)) rel i = if i ∈ rel then some (diag i) else none := by
  unfold importGhosts
  split_ifs with hi
  · have h' := h i hi
    clear h hi
    induction owned with
    | nil => simp at h'
    | cons o owned ih =>
      rw [List.map_cons, List.findSome?_cons, ownedDiagonal_eq]
      by_cases ho : i ∈ o
      · simp [ho]
      · simp only [ho, if_false]
        apply ih
        obtain ⟨o', h1, h2⟩ := h'
        rcases List.mem_cons.1 h1 with rfl | h1
        · exact absurd h2 ho
        · exact ⟨o', h1, h2⟩
  · rfl

/-! ### Numbers -/

theorem Flt.plus_zero [AddMonoid K] (a : Flt K) : a.plus (.fin 0) = a := by
  cases a <;> simp [Flt.plus]

theorem Flt.zero_plus [AddMonoid K] (a : Flt K) : Flt.plus (.fin 0) a = a := by
  cases a <;> simp [Flt.plus]

theorem Flt.plus_assoc [AddMonoid K] (a b c : Flt K) : (a.plus b).plus c = a.plus (b.plus c) := by
  cases a <;> cases b <;> cases c <;> simp [Flt.plus, add_assoc]

theorem Flt.plus_bad [Add K] (a : Flt K) : a.plus .bad = .bad := by
  cases a <;> rfl

/-- A matrix of floating-point numbers given by its rows `p, p+1, …`. -/
def rowsFlt [AddMonoid K] : List (ℕ → Flt K) → ℕ → Entries (Flt K)
  | [], _, _, _ => .fin 0
  | f :: l, p, r, x => (if r = p then f x else .fin 0).plus (rowsFlt l (p + 1) r x)

theorem rowsFlt_append [AddMonoid K] (l l' : List (ℕ → Flt K)) (p r x : ℕ) :
    rowsFlt (l ++ l') p r x = (rowsFlt l p r x).plus (rowsFlt l' (p + l.length) r x) := by
  induction l generalizing p with
  | nil => simp [rowsFlt, Flt.zero_plus]
  | cons f l ih =>
    simp only [List.cons_append, rowsFlt, ih, List.length_cons]
    rw [show p + 1 + l.length = p + (l.length + 1) by omega, Flt.plus_assoc]

theorem rowsFlt_lt [AddMonoid K] (l : List (ℕ → Flt K)) {p r : ℕ} (h : r < p) (x : ℕ) :
    rowsFlt l p r x = .fin 0 := by
  induction l generalizing p with
  | nil => rfl
  | cons f l ih =>
    simp [rowsFlt, ih (show r < p + 1 by omega), show r ≠ p by omega, Flt.plus_zero]

theorem rowsFlt_add [AddMonoid K] (l : List (ℕ → Flt K)) (p r x : ℕ) :
    rowsFlt l p (p + r) x = match l[r]? with
      | some f => f x
      | none => .fin 0 := by
  induction l generalizing p r with
  | nil => simp [rowsFlt]
  | cons f l ih =>
    cases r with
    | zero => simp [rowsFlt, rowsFlt_lt, Flt.plus_zero]
    | succ r =>
      have := ih (p + 1) r
      rw [show p + 1 + r = p + (r + 1) by omega] at this
      simp only [rowsFlt, this, List.getElem?_cons_succ, show p + (r + 1) ≠ p by omega, if_false, Flt.zero_plus]

/-- `b` is `a` with the rows `l` added from row `p` on. -/
def AddsFlt [AddMonoid K] (l : List (ℕ → Flt K)) (p : ℕ) (a b : Entries (Flt K)) : Prop :=
  ∀ r x, b r x = (a r x).plus (rowsFlt l p r x)

theorem AddsFlt.refl [AddMonoid K] (p : ℕ) (a : Entries (Flt K)) : AddsFlt [] p a a := by
  intro r x
  simp [rowsFlt, Flt.plus_zero]

theorem AddsFlt.trans [AddMonoid K] {l l' : List (ℕ → Flt K)} {p : ℕ} {a b c : Entries (Flt K)}
    (h : AddsFlt l p a b) (h' : AddsFlt l' (p + l.length) b c) : AddsFlt (l ++ l') p a c := by
  intro r x
  rw [h' r x, h r x, rowsFlt_append, Flt.plus_assoc]

variable [Field K] [DecidableEq K]

/-- Entry of a row at dof `i`. -/
def entryAt (x : RankVector K) (ds : List ℕ) (ws ev : List K) (i : ℕ) : Flt K :=
  if i ∈ ds then
    match x i with
    | some g => (Flt.quotient (extend ds ws i) g).times (extend ds ev i)
    | none => .fin 0
  else .fin 0

/-- What reading an element that is not stored does. -/
def missing {α : Type} (debug : Bool) : Outcome α :=
  if debug then .aborted else .ub "element not stored on this process"

omit [Field K] [DecidableEq K] in
theorem read_none {x : RankVector K} {i : ℕ} (debug : Bool) (h : x i = none) : x.read debug i = missing debug := by
  simp [RankVector.read, h, missing]

theorem missing_bind {α β : Type} (debug : Bool) (f : α → Outcome β) :
    (missing debug >>= f) = missing debug := by
  cases debug <;> rfl

theorem entryLoop_spec (debug : Bool) (x : RankVector K) (row : ℕ) (dofs : List ℕ) (diag : List K)
    (ev : List K) (j : ℕ) (M : Entries (Flt K)) (h1 : j + ev.length = dofs.length)
    (h2 : j + ev.length = diag.length) (hnd : (dofs.drop j).Nodup)
    (hst : ∀ i ∈ dofs.drop j, ∃ g, x i = some g) :
    ∃ M', entryLoop debug x row dofs diag ev j M = .ok M' ∧
      AddsFlt [entryAt x (dofs.drop j) (diag.drop j) ev] row M M' := by
  induction ev generalizing j M with
  | nil =>
    refine ⟨M, rfl, ?_⟩
    intro r i
    have : dofs.drop j = [] := List.drop_eq_nil_of_le (by simp at h1; omega)
    simp [rowsFlt, this, entryAt, Flt.plus_zero]
  | cons v ev ih =>
    simp only [List.length_cons] at h1 h2
    have hj : j < dofs.length := by omega
    have hj' : j < diag.length := by omega
    have hd1 : dofs.drop j = dofs[j] :: dofs.drop (j + 1) := (List.getElem_cons_drop hj).symm
    have hd2 : diag.drop j = diag[j] :: diag.drop (j + 1) := (List.getElem_cons_drop hj').symm
    rw [hd1] at hnd hst ⊢
    rw [hd2]
    obtain ⟨hnot, hnd'⟩ := List.nodup_cons.1 hnd
    obtain ⟨g, hg⟩ := hst dofs[j] List.mem_cons_self
    obtain ⟨M', e, h⟩ := ih (j + 1) (addFlt M row dofs[j] ((Flt.quotient diag[j] g).times v)) (by omega) (by omega)
      hnd' (fun i hi => hst i (List.mem_cons_of_mem _ hi))
    refine ⟨M', ?_, ?_⟩
    · simp only [entryLoop, Outcome.get_eq (List.getElem?_eq_getElem hj),
        Outcome.get_eq (List.getElem?_eq_getElem hj'), Outcome.ok_bind, RankVector.read, hg, e]
    · intro r i
      rw [h r i]
      simp only [rowsFlt, Flt.plus_zero, addFlt]
      by_cases hr : r = row
      · subst hr
        by_cases hi : i = dofs[j]
        · subst hi
          simp only [and_self, if_true, entryAt, hnot, if_false, Flt.plus_zero, List.mem_cons, true_or, hg,
            extend_cons]
        · simp only [hi, and_false, if_false, if_true, entryAt, List.mem_cons, false_or, extend_cons]
      · simp [hr, Flt.plus_zero]

theorem entryLoop_missing (debug : Bool) (x : RankVector K) (row : ℕ) (dofs : List ℕ) (diag : List K)
    (ev : List K) (j : ℕ) (M : Entries (Flt K)) (h1 : j + ev.length = dofs.length)
    (h2 : j + ev.length = diag.length) (hmiss : ∃ i ∈ dofs.drop j, x i = none) :
    entryLoop debug x row dofs diag ev j M = missing debug := by
  induction ev generalizing j M with
  | nil =>
    have : dofs.drop j = [] := List.drop_eq_nil_of_le (by simp at h1; omega)
    simp [this] at hmiss
  | cons v ev ih =>
    simp only [List.length_cons] at h1 h2
    have hj : j < dofs.length := by omega
    have hj' : j < diag.length := by omega
    have hd1 : dofs.drop j = dofs[j] :: dofs.drop (j + 1) := (List.getElem_cons_drop hj).symm
    rw [hd1] at hmiss
    simp only [entryLoop, Outcome.get_eq (List.getElem?_eq_getElem hj),
        Outcome.get_eq (List.getElem?_eq_getElem hj'), Outcome.ok_bind]
    cases hx : x dofs[j] with
    | none => rw [read_none debug hx, missing_bind]
    | some g =>
      simp only [RankVector.read, hx, Outcome.ok_bind]
      apply ih (j + 1) _ (by omega) (by omega)
      obtain ⟨i, hi, hxi⟩ := hmiss
      rcases List.mem_cons.1 hi with rfl | hi
      · rw [hx] at hxi; cases hxi
      · exact ⟨i, hi, hxi⟩

/-- The row of an eigenvector. -/
def rowAt (x : RankVector K) (c : CopyData K) (v : List K) : ℕ → Flt K := entryAt x c.dofMap c.diag v

theorem rowLoop_spec (debug : Bool) (x : RankVector K) (first : ℕ) (c : CopyData K) (hc : c.WellFormed)
    (hst : c.eigenvectors ≠ [] → ∀ i ∈ c.dofMap, ∃ g, x i = some g)
    (evs pre vs post : List (List K)) (hevs : evs = pre ++ vs ++ post)
    (hvs : ∀ v ∈ vs, v ∈ c.eigenvectors) (M : Entries (Flt K)) :
    ∃ M', rowLoop debug x first evs c.dofMap c.diag vs.length pre.length M
        = .ok (pre.length + vs.length, M') ∧
      AddsFlt (vs.map (rowAt x c)) (first + pre.length) M M' := by
  induction vs generalizing pre M with
  | nil => exact ⟨M, by simp [rowLoop], by simpa using AddsFlt.refl _ M⟩
  | cons v vs ih =>
    have hmem := hvs v List.mem_cons_self
    have hv := hc.vec_length v hmem
    have hget : evs[pre.length]? = some v := by simp [hevs]
    obtain ⟨M1, h1, h1'⟩ := entryLoop_spec debug x (first + pre.length) c.dofMap c.diag v 0 M
      (by omega) (by have := hc.diag_length; omega) (by simpa using hc.nodup)
      (by simpa using hst (List.ne_nil_of_mem hmem))
    obtain ⟨M2, h2, h2'⟩ := ih (pre ++ [v]) (by simp [hevs])
      (fun w hw => hvs w (List.mem_cons_of_mem _ hw)) M1
    refine ⟨M2, ?_, ?_⟩
    · rw [List.length_cons, rowLoop, Outcome.get_eq hget]
      simp only [Outcome.ok_bind, hv, beq_self_eq_true, Outcome.assert_true, h1]
      simp only [List.length_append, List.length_cons, List.length_nil, Nat.zero_add] at h2
      rw [h2]
      simp [Nat.add_comm, Nat.add_left_comm]
    · have h1'' : AddsFlt [rowAt x c v] (first + pre.length) M M1 := by simpa [rowAt] using h1'
      have := h1''.trans (l' := vs.map (rowAt x c)) (by simpa [Nat.add_assoc] using h2')
      simpa using this

theorem rowLoop_missing (debug : Bool) (x : RankVector K) (first : ℕ) (c : CopyData K) (hc : c.WellFormed)
    (hmiss : ∃ i ∈ c.dofMap, x i = none) (evs pre vs post : List (List K)) (hevs : evs = pre ++ vs ++ post)
    (hvs : ∀ v ∈ vs, v ∈ c.eigenvectors) (hne : vs ≠ []) (M : Entries (Flt K)) :
    rowLoop debug x first evs c.dofMap c.diag vs.length pre.length M = missing debug := by
  obtain ⟨v, vs, rfl⟩ := List.exists_cons_of_ne_nil hne
  have hv := hc.vec_length v (hvs v List.mem_cons_self)
  have hget : evs[pre.length]? = some v := by simp [hevs]
  rw [List.length_cons, rowLoop, Outcome.get_eq hget]
  simp only [Outcome.ok_bind, hv, beq_self_eq_true, Outcome.assert_true]
  rw [entryLoop_missing debug x _ _ _ v 0 M (by omega) (by have := hc.diag_length; omega) (by simpa using hmiss),
    missing_bind]

theorem agglomerateLoop_spec (debug : Bool) (x : RankVector K) (first : ℕ) (s : Collected K)
    (pre cs : List (CopyData K)) (hs : s = collect (pre ++ cs)) (hcs : ∀ c ∈ cs, c.WellFormed)
    (hst : ∀ c ∈ cs, c.eigenvectors ≠ [] → ∀ i ∈ c.dofMap, ∃ g, x i = some g) (M : Entries (Flt K)) :
    ∃ M', agglomerateLoop debug x first s (cs.map (fun c => c.eigenvectors.length))
        pre.length (rowsOf pre).length M = .ok M' ∧
      AddsFlt ((rowsOf cs).map fun cv => rowAt x cv.1 cv.2) (first + (rowsOf pre).length) M M' := by
  induction cs generalizing pre M with
  | nil => exact ⟨M, by simp [agglomerateLoop], by simpa [rowsOf] using AddsFlt.refl _ M⟩
  | cons c cs ih =>
    have hlen : (pre.flatMap (·.eigenvectors)).length = (rowsOf pre).length := by
      simp [rowsOf, List.length_flatMap]
    obtain ⟨M1, h1, h1'⟩ := rowLoop_spec debug x first c (hcs c List.mem_cons_self) (hst c List.mem_cons_self)
      s.eigenvectors (pre.flatMap (·.eigenvectors)) c.eigenvectors
      (cs.flatMap (·.eigenvectors)) (by simp [hs, collect_eq]) (fun v hv => hv) M
    rw [hlen] at h1 h1'
    have hpre : (rowsOf (pre ++ [c])).length = (rowsOf pre).length + c.eigenvectors.length := by
      simp [rowsOf]
    obtain ⟨M2, h2, h2'⟩ := ih (pre ++ [c]) (by simp [hs])
      (fun d hd => hcs d (List.mem_cons_of_mem _ hd)) (fun d hd => hst d (List.mem_cons_of_mem _ hd)) M1
    refine ⟨M2, ?_, ?_⟩
    · have hm : s.dofMaps[pre.length]? = some c.dofMap := by simp [hs, collect_eq]
      have hd : s.diag[pre.length]? = some c.diag := by simp [hs, collect_eq]
      rw [hpre] at h2
      simp only [List.length_append, List.length_cons, List.length_nil, Nat.zero_add] at h2
      rw [List.map_cons]
      simp only [agglomerateLoop, Outcome.get_eq hm, Outcome.get_eq hd, Outcome.ok_bind, h1, h2]
    · have := h1'.trans (l' := (rowsOf cs).map fun cv => rowAt x cv.1 cv.2)
        (by simpa [hpre, Nat.add_assoc] using h2')
      simpa [rowsOf, Function.comp_def] using this

theorem agglomerateLoop_missing (debug : Bool) (x : RankVector K) (first : ℕ) (s : Collected K)
    (pre cs : List (CopyData K)) (hs : s = collect (pre ++ cs)) (hcs : ∀ c ∈ cs, c.WellFormed)
    (hmiss : ∃ c ∈ cs, c.eigenvectors ≠ [] ∧ ∃ i ∈ c.dofMap, x i = none) (M : Entries (Flt K)) :
    agglomerateLoop debug x first s (cs.map (fun c => c.eigenvectors.length))
        pre.length (rowsOf pre).length M = missing debug := by
  induction cs generalizing pre M with
  | nil => simp at hmiss
  | cons c cs ih =>
    have hlen : (pre.flatMap (·.eigenvectors)).length = (rowsOf pre).length := by
      simp [rowsOf, List.length_flatMap]
    have hm : s.dofMaps[pre.length]? = some c.dofMap := by simp [hs, collect_eq]
    have hd : s.diag[pre.length]? = some c.diag := by simp [hs, collect_eq]
    rw [List.map_cons]
    simp only [agglomerateLoop, Outcome.get_eq hm, Outcome.get_eq hd, Outcome.ok_bind]
    by_cases hhead : c.eigenvectors ≠ [] ∧ ∃ i ∈ c.dofMap, x i = none
    · have := rowLoop_missing debug x first c (hcs c List.mem_cons_self) hhead.2
        s.eigenvectors (pre.flatMap (·.eigenvectors)) c.eigenvectors
        (cs.flatMap (·.eigenvectors)) (by simp [hs, collect_eq]) (fun v hv => hv) hhead.1 M
      rw [hlen] at this
      rw [this, missing_bind]
    · obtain ⟨M1, h1, -⟩ := rowLoop_spec debug x first c (hcs c List.mem_cons_self) (by
          intro hne i hi
          cases hx : x i with
          | none => exact absurd ⟨hne, i, hi, hx⟩ hhead
          | some g => exact ⟨g, rfl⟩)
        s.eigenvectors (pre.flatMap (·.eigenvectors)) c.eigenvectors
        (cs.flatMap (·.eigenvectors)) (by simp [hs, collect_eq]) (fun v hv => hv) M
      rw [hlen] at h1
      rw [h1]
      have hpre : (rowsOf (pre ++ [c])).length = (rowsOf pre).length + c.eigenvectors.length := by
        simp [rowsOf]
      have h2 := ih (pre ++ [c]) (by simp [hs]) (fun d hd => hcs d (List.mem_cons_of_mem _ hd)) (by
        obtain ⟨d, hd, h⟩ := hmiss
        rcases List.mem_cons.1 hd with rfl | hd
        · exact absurd h hhead
        · exact ⟨d, hd, h⟩) M1
      rw [hpre] at h2
      simp only [List.length_append, List.length_cons, List.length_nil, Nat.zero_add] at h2
      simp only [Outcome.ok_bind, h2]

/-- The rows of all processes as functions. -/
def procFlt (ps : List (RankVector K × List (CopyData K))) : List (ℕ → Flt K) :=
  (procRows ps).map fun r => rowAt r.1 r.2.1 r.2.2

omit [Field K] [DecidableEq K] in
theorem rowsBefore_procs (pre ps : List (RankVector K × List (CopyData K))) :
    rowsBefore ((pre ++ ps).map fun p => (collect p.2).eigenvectors.length) pre.length = (procRows pre).length := by
  rw [rowsBefore, ← List.map_take, List.take_left']
  · induction pre with
    | nil => simp [procRows]
    | cons p pre ih =>
      simp only [List.map_cons, List.sum_cons, ih, procRows, List.flatMap_cons, List.length_append,
        List.length_map]
      simp [collect_eq, rowsOf]
  · rfl

theorem assembleProcs_spec (debug : Bool) (pre ps : List (RankVector K × List (CopyData K)))
    (counts : List ℕ) (hcounts : counts = (pre ++ ps).map fun p => (collect p.2).eigenvectors.length)
    (hwf : ∀ p ∈ ps, ∀ c ∈ p.2, c.WellFormed) (hst : Stored ps) (M : Entries (Flt K)) :
    ∃ M', assembleProcs debug counts (ps.map fun p => (p.1, collect p.2)) pre.length M = .ok M' ∧
      AddsFlt (procFlt ps) (procRows pre).length M M' := by
  induction ps generalizing pre M with
  | nil => exact ⟨M, by simp [assembleProcs], by simpa [procFlt, procRows] using AddsFlt.refl _ M⟩
  | cons p ps ih =>
    obtain ⟨M1, h1, h1'⟩ := agglomerateLoop_spec debug p.1 (procRows pre).length (collect p.2) [] p.2 rfl
      (hwf p List.mem_cons_self) (hst p List.mem_cons_self) M
    have hpre : (procRows (pre ++ [p])).length = (procRows pre).length + (rowsOf p.2).length := by
      simp [procRows]
    obtain ⟨M2, h2, h2'⟩ := ih (pre ++ [p]) (by simp [hcounts])
      (fun d hd => hwf d (List.mem_cons_of_mem _ hd)) (fun d hd => hst d (List.mem_cons_of_mem _ hd)) M1
    refine ⟨M2, ?_, ?_⟩
    · have hn : (collect p.2).nLocal = p.2.map fun c => c.eigenvectors.length := by simp [collect_eq]
      have hl : ((collect p.2).nLocal.length == (collect p.2).dofMaps.length) = true := by simp [collect_eq]
      rw [List.map_cons, assembleProcs, hl, hcounts, rowsBefore_procs, hn]
      have h1e : agglomerateLoop debug p.1 (procRows pre).length (collect p.2)
          (p.2.map fun c => c.eigenvectors.length) 0 0 M = .ok M1 := by simpa [rowsOf] using h1
      simp only [Outcome.assert_true, Outcome.ok_bind, h1e]
      rw [hcounts] at h2
      simpa using h2
    · rw [hpre] at h2'
      have h1'' : AddsFlt ((rowsOf p.2).map fun cv => rowAt p.1 cv.1 cv.2) (procRows pre).length M M1 := by
        simpa [rowsOf] using h1'
      have := h1''.trans (l' := procFlt ps) (by simpa using h2')
      simpa [procFlt, procRows, Function.comp_def] using this

theorem assembleProcs_missing (debug : Bool) (pre ps : List (RankVector K × List (CopyData K)))
    (counts : List ℕ) (hcounts : counts = (pre ++ ps).map fun p => (collect p.2).eigenvectors.length)
    (hwf : ∀ p ∈ ps, ∀ c ∈ p.2, c.WellFormed) (hst : ¬ Stored ps) (M : Entries (Flt K)) :
    assembleProcs debug counts (ps.map fun p => (p.1, collect p.2)) pre.length M = missing debug := by
  induction ps generalizing pre M with
  | nil => exact absurd (by intro p hp; cases hp) hst
  | cons p ps ih =>
    have hn : (collect p.2).nLocal = p.2.map fun c => c.eigenvectors.length := by simp [collect_eq]
    have hl : ((collect p.2).nLocal.length == (collect p.2).dofMaps.length) = true := by simp [collect_eq]
    rw [List.map_cons, assembleProcs, hl, hn]
    simp only [Outcome.assert_true, Outcome.ok_bind]
    by_cases hhead : ∃ c ∈ p.2, c.eigenvectors ≠ [] ∧ ∃ i ∈ c.dofMap, p.1 i = none
    · have := agglomerateLoop_missing debug p.1 (rowsBefore counts pre.length) (collect p.2) [] p.2 rfl
        (hwf p List.mem_cons_self) hhead M
      have h' : agglomerateLoop debug p.1 (rowsBefore counts pre.length) (collect p.2)
          (p.2.map fun c => c.eigenvectors.length) 0 0 M = missing debug := by simpa [rowsOf] using this
      rw [h', missing_bind]
    · have hst' : ∀ c ∈ p.2, c.eigenvectors ≠ [] → ∀ i ∈ c.dofMap, ∃ g, p.1 i = some g := by
        intro c hc hne i hi
        cases hx : p.1 i with
        | none => exact absurd ⟨c, hc, hne, i, hi, hx⟩ hhead
        | some g => exact ⟨g, rfl⟩
      obtain ⟨M1, h1, -⟩ := agglomerateLoop_spec debug p.1 (rowsBefore counts pre.length) (collect p.2) [] p.2 rfl
        (hwf p List.mem_cons_self) hst' M
      have h' : agglomerateLoop debug p.1 (rowsBefore counts pre.length) (collect p.2)
          (p.2.map fun c => c.eigenvectors.length) 0 0 M = .ok M1 := by simpa [rowsOf] using h1
      rw [h', Outcome.ok_bind]
      have := ih (pre ++ [p]) (by simp [hcounts]) (fun d hd => hwf d (List.mem_cons_of_mem _ hd)) (by
        intro h
        apply hst
        intro q hq
        rcases List.mem_cons.1 hq with rfl | hq
        · exact hst'
        · exact h q hq) M1
      simpa using this

/-- The whole assembly. -/
theorem restrictionProcs_spec (debug : Bool) (ps : List (RankVector K × List (CopyData K)))
    (hwf : ∀ p ∈ ps, ∀ c ∈ p.2, c.WellFormed) (hst : Stored ps) :
    ∃ M, restrictionProcs debug (ps.map fun p => (p.1, collect p.2)) = .ok M ∧
      ∀ p i, M p i = match (procRows ps)[p]? with
        | some r => rowAt r.1 r.2.1 r.2.2 i
        | none => .fin 0 := by
  obtain ⟨M, h, h'⟩ := assembleProcs_spec debug [] ps _ rfl hwf hst fun _ _ => .fin 0
  refine ⟨M, ?_, ?_⟩
  · rw [restrictionProcs, ← h]
    simp [Function.comp_def]
  · intro p i
    have := rowsFlt_add (procFlt ps) 0 p i
    rw [Nat.zero_add] at this
    rw [h' p i, Flt.zero_plus]
    simp only [procRows, List.flatMap_nil, List.length_nil] at this ⊢
    rw [this, procFlt, List.getElem?_map]
    simp only [procRows]
    cases (List.flatMap (fun p => (rowsOf p.2).map fun cv => (p.1, cv)) ps)[p]? <;> rfl

theorem restrictionProcs_missing (debug : Bool) (ps : List (RankVector K × List (CopyData K)))
    (hwf : ∀ p ∈ ps, ∀ c ∈ p.2, c.WellFormed) (hst : ¬ Stored ps) :
    restrictionProcs debug (ps.map fun p => (p.1, collect p.2)) = missing debug := by
  rw [restrictionProcs, ← assembleProcs_missing debug [] ps _ rfl hwf hst fun _ _ => .fin 0]
  simp [Function.comp_def]

end

end Mfmg
