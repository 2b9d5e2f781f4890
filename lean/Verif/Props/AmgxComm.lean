import Verif.Spec.AmgxComm
import Verif.Props.Amgx
import Mathlib.Data.List.Sort

/-!
# C51: the communication lists for AMGX
-/

set_option autoImplicit false

namespace Mfmg

theorem bufColumns_pattern (rows cols : List ℕ) : bufColumns (patternBuffer rows cols) = cols := by
  unfold bufColumns patternBuffer
  simp only [List.cons_append, List.nil_append, List.getD_cons_zero]
  rw [← List.drop_drop]
  simp

theorem bufRows_pattern (rows cols : List ℕ) : bufRows (patternBuffer rows cols) = rows := by
  unfold bufRows patternBuffer
  simp

theorem mem_orderedInsert (j : ℕ) (s : List ℕ) (a : ℕ) : a ∈ orderedInsert j s ↔ a = j ∨ a ∈ s := by
  induction s with
  | nil => simp [orderedInsert]
  | cons k s ih =>
    unfold orderedInsert
    split_ifs with h1 h2
    · simp
    · subst h2; simp
    · simp [ih]; tauto

theorem orderedInsert_sorted (j : ℕ) (s : List ℕ) (h : s.Pairwise (· < ·)) :
    (orderedInsert j s).Pairwise (· < ·) := by
  induction s with
  | nil => simp [orderedInsert]
  | cons k s ih =>
    rw [List.pairwise_cons] at h
    unfold orderedInsert
    split_ifs with h1 h2
    · rw [List.pairwise_cons]
      refine ⟨?_, List.pairwise_cons.2 h⟩
      intro a ha
      rcases List.mem_cons.1 ha with rfl | ha
      · exact h1
      · exact h1.trans (h.1 a ha)
    · exact List.pairwise_cons.2 h
    · rw [List.pairwise_cons]
      refine ⟨?_, ih h.2⟩
      intro a ha
      rcases (mem_orderedInsert j s a).1 ha with rfl | ha
      · omega
      · exact h.1 a ha

theorem recvHalo_spec (cols rows : List ℕ) :
    (recvHalo cols rows).Pairwise (· < ·) ∧ ∀ g, g ∈ recvHalo cols rows ↔ g ∈ cols ∧ g ∈ rows := by
  have key : ∀ (l s : List ℕ), s.Pairwise (· < ·) →
      (l.foldl (fun s c => if c ∈ rows then orderedInsert c s else s) s).Pairwise (· < ·) ∧
      ∀ g, g ∈ l.foldl (fun s c => if c ∈ rows then orderedInsert c s else s) s
        ↔ g ∈ s ∨ (g ∈ l ∧ g ∈ rows) := by
    intro l
    induction l with
    | nil => intro s hs; simpa using hs
    | cons c l ih =>
      intro s hs
      rw [List.foldl_cons]
      by_cases hc : c ∈ rows
      · rw [if_pos hc]
        obtain ⟨h1, h2⟩ := ih _ (orderedInsert_sorted c s hs)
        refine ⟨h1, fun g => ?_⟩
        rw [h2, mem_orderedInsert, List.mem_cons]
        constructor
        · rintro ((rfl | h) | h)
          · exact Or.inr ⟨Or.inl rfl, hc⟩
          · exact Or.inl h
          · exact Or.inr ⟨Or.inr h.1, h.2⟩
        · rintro (h | ⟨rfl | h, h'⟩)
          · exact Or.inl (Or.inr h)
          · exact Or.inl (Or.inl rfl)
          · exact Or.inr ⟨h, h'⟩
      · rw [if_neg hc]
        obtain ⟨h1, h2⟩ := ih s hs
        refine ⟨h1, fun g => ?_⟩
        rw [h2, List.mem_cons]
        constructor
        · rintro (h | h)
          · exact Or.inl h
          · exact Or.inr ⟨Or.inr h.1, h.2⟩
        · rintro (h | ⟨rfl | h, h'⟩)
          · exact Or.inl h
          · exact absurd h' hc
          · exact Or.inr ⟨h, h'⟩
  obtain ⟨h1, h2⟩ := key cols [] List.Pairwise.nil
  exact ⟨h1, fun g => by rw [recvHalo, h2]; simp⟩

theorem mem_sendHalo (rows cols : List ℕ) (j : ℕ) :
    j ∈ sendHalo rows cols ↔ ∃ h : j < rows.length, rows[j] ∈ cols := by
  unfold sendHalo
  rw [List.mem_filter, List.mem_range]
  constructor
  · rintro ⟨h1, h2⟩
    refine ⟨h1, ?_⟩
    simpa [h1] using h2
  · rintro ⟨h1, h2⟩
    exact ⟨h1, by simpa [h1] using h2⟩

theorem sendHalo_map (rows cols : List ℕ) :
    (sendHalo rows cols).map (fun j => rows.getD j 0) = rows.filter (fun g => decide (g ∈ cols)) := by
  unfold sendHalo
  have h : rows = (List.range rows.length).map (fun j => rows.getD j 0) := by
    apply List.ext_getElem
    · simp
    · intro i h1 h2
      simp [h1]
  conv_rhs => rw [h, List.filter_map]
  rfl

theorem foldl_hashInsert (l s : List ℕ) (hs : s.Nodup) :
    (l.foldl hashInsert s).Nodup ∧ ∀ j, j ∈ l.foldl hashInsert s ↔ j ∈ s ∨ j ∈ l := by
  induction l generalizing s with
  | nil => simpa using hs
  | cons a l ih =>
    have h1 : (hashInsert s a).Nodup := by
      unfold hashInsert
      split_ifs with h
      · exact hs
      · rw [List.nodup_append]
        refine ⟨hs, by simp, ?_⟩
        rintro x hx y hy rfl
        simp at hy; subst hy; exact h hx
    have h2 : ∀ j, j ∈ hashInsert s a ↔ j ∈ s ∨ j = a := by
      intro j
      unfold hashInsert
      split_ifs with h
      · constructor
        · exact Or.inl
        · rintro (h' | rfl)
          · exact h'
          · exact h
      · simp
    obtain ⟨h3, h4⟩ := ih _ h1
    refine ⟨h3, fun j => ?_⟩
    rw [List.foldl_cons, h4, h2, List.mem_cons, or_assoc]

/-- The ranks in a list of buffers with ranks to which something is sent. -/
def sendsTo (rank : ℕ) (rows : List ℕ) (e : List ℕ × ℕ) : Bool :=
  decide (e.2 ≠ rank) && decide ((sendHalo rows (bufColumns e.1)).length > 0)

theorem sendLoop_lists (rank : ℕ) (rows : List ℕ) (l : List (List ℕ × ℕ)) (s : SendLists) :
    (sendLoop rank rows l s).neighbors = s.neighbors ++ (l.filter (sendsTo rank rows)).map Prod.snd ∧
    (sendLoop rank rows l s).rowHalo = s.rowHalo ++
      (l.filter (sendsTo rank rows)).map (fun e => sendHalo rows (bufColumns e.1)) := by
  induction l generalizing s with
  | nil => simp [sendLoop]
  | cons e l ih =>
    obtain ⟨buf, i⟩ := e
    unfold sendLoop
    by_cases h1 : i ≠ rank
    · by_cases h2 : (sendHalo rows (bufColumns buf)).length > 0
      · have hc : sendsTo rank rows (buf, i) = true := by simp [sendsTo, h1]; omega
        simp only [h1, h2, if_true, ne_eq, not_false_eq_true]
        rw [(ih _).1, (ih _).2, List.filter_cons_of_pos hc]
        simp
      · have hc : ¬ sendsTo rank rows (buf, i) = true := by simp only [sendsTo, h2]; simp
        simp only [h1, h2, if_true, if_false, ne_eq, not_false_eq_true]
        rw [(ih _).1, (ih _).2, List.filter_cons_of_neg hc]
        simp
    · have hc : ¬ sendsTo rank rows (buf, i) = true := by simp only [sendsTo, h1]; simp
      simp only [h1, if_false]
      rw [(ih _).1, (ih _).2, List.filter_cons_of_neg hc]
      simp

theorem sendLoop_sent (rank : ℕ) (rows : List ℕ) (l : List (List ℕ × ℕ)) (s : SendLists)
    (hs : s.sent.Nodup) :
    (sendLoop rank rows l s).sent.Nodup ∧ ∀ j, j ∈ (sendLoop rank rows l s).sent ↔
      j ∈ s.sent ∨ ∃ e ∈ l, e.2 ≠ rank ∧ j ∈ sendHalo rows (bufColumns e.1) := by
  induction l generalizing s with
  | nil => simpa [sendLoop] using hs
  | cons e l ih =>
    obtain ⟨buf, i⟩ := e
    unfold sendLoop
    by_cases h1 : i ≠ rank
    · obtain ⟨f1, f2⟩ := foldl_hashInsert (sendHalo rows (bufColumns buf)) s.sent hs
      simp only [h1, if_true, ne_eq, not_false_eq_true]
      have fin : ∀ s' : SendLists, s'.sent = (sendHalo rows (bufColumns buf)).foldl hashInsert s.sent →
          (sendLoop rank rows l s').sent.Nodup ∧ ∀ j, j ∈ (sendLoop rank rows l s').sent ↔
            j ∈ s.sent ∨ ∃ e ∈ (buf, i) :: l, e.2 ≠ rank ∧ j ∈ sendHalo rows (bufColumns e.1) := by
        intro s' e
        obtain ⟨g1, g2⟩ := ih s' (e ▸ f1)
        refine ⟨g1, fun j => ?_⟩
        rw [g2, e]
        simp only [f2, List.mem_cons, exists_eq_or_imp, h1, ne_eq, not_false_eq_true, true_and, or_assoc]
      split_ifs with h2
      · exact fin _ rfl
      · exact fin _ rfl
    · simp only [h1, if_false]
      obtain ⟨g1, g2⟩ := ih s hs
      refine ⟨g1, fun j => ?_⟩
      rw [g2]
      simp only [List.mem_cons, exists_eq_or_imp, h1, false_and, false_or]

def receivesFrom (rank : ℕ) (cols : List ℕ) (e : List ℕ × ℕ) : Bool :=
  decide (e.2 ≠ rank) && decide ((recvHalo cols (bufRows e.1)).length > 0)

theorem recvLoop_lists (rank : ℕ) (cols : List ℕ) (l : List (List ℕ × ℕ)) (s : List (List ℕ)) :
    recvLoop rank cols l s = s ++
      (l.filter (receivesFrom rank cols)).map (fun e => recvHalo cols (bufRows e.1)) := by
  induction l generalizing s with
  | nil => simp [recvLoop]
  | cons e l ih =>
    obtain ⟨buf, i⟩ := e
    unfold recvLoop
    by_cases h1 : i ≠ rank
    · by_cases h2 : (recvHalo cols (bufRows buf)).length > 0
      · have hc : receivesFrom rank cols (buf, i) = true := by simp [receivesFrom, h1]; omega
        simp only [h1, h2, if_true, ne_eq, not_false_eq_true]
        rw [ih, List.filter_cons_of_pos hc]
        simp
      · have hc : ¬ receivesFrom rank cols (buf, i) = true := by simp only [receivesFrom, h2]; simp
        simp only [h1, h2, if_true, if_false, ne_eq, not_false_eq_true]
        rw [ih, List.filter_cons_of_neg hc]
    · have hc : ¬ receivesFrom rank cols (buf, i) = true := by simp only [receivesFrom, h1]; simp
      simp only [h1, if_false]
      rw [ih, List.filter_cons_of_neg hc]


theorem mapM_get_range {α : Type} (r : List α) (w : String) (n : ℕ) :
    (List.range n).mapM (fun i => Outcome.get r i w)
      = if n ≤ r.length then Outcome.ok (r.take n) else Outcome.ub w := by
  induction n with
  | zero => simp
  | succ n ih =>
    rw [List.range_succ, List.mapM_append, ih]
    by_cases h : n + 1 ≤ r.length
    · rw [if_pos (by omega), if_pos h]
      have : r.take (n + 1) = r.take n ++ [r[n]] := by
        rw [List.take_add_one, List.getElem?_eq_getElem (by omega)]; rfl
      rw [this, Outcome.ok_bind, List.mapM_cons, Outcome.get,
        List.getElem?_eq_getElem (show n < r.length by omega)]
      rfl
    · rw [if_neg h]
      by_cases h' : n ≤ r.length
      · rw [if_pos h']
        simp [Outcome.get, List.getElem?_eq_none (show r.length ≤ n by omega)]
      · rw [if_neg h']
        rfl

/-- The processes (with their ranks) to which a process sends. -/
def sendSide (P : List ProcPattern) (rank : ℕ) (pat : ProcPattern) : List (ProcPattern × ℕ) :=
  P.zipIdx.filter fun e => decide (e.2 ≠ rank) && decide (e.1.needs pat)

/-- The processes (with their ranks) from which a process receives. -/
def recvSide (P : List ProcPattern) (rank : ℕ) (pat : ProcPattern) : List (ProcPattern × ℕ) :=
  P.zipIdx.filter fun e => decide (e.2 ≠ rank) && decide (pat.needs e.1)

theorem sendHalo_pos (p q : ProcPattern) :
    (sendHalo p.rows q.cols).length > 0 ↔ q.needs p := by
  rw [gt_iff_lt, List.length_pos_iff_exists_mem]
  unfold ProcPattern.needs
  constructor
  · rintro ⟨j, hj⟩
    obtain ⟨h, h'⟩ := (mem_sendHalo _ _ _).1 hj
    exact ⟨_, List.getElem_mem h, h'⟩
  · rintro ⟨g, hg, hc⟩
    obtain ⟨j, h, rfl⟩ := List.getElem_of_mem hg
    exact ⟨j, (mem_sendHalo _ _ _).2 ⟨h, hc⟩⟩

theorem recvHalo_pos (p q : ProcPattern) :
    (recvHalo p.cols q.rows).length > 0 ↔ p.needs q := by
  rw [gt_iff_lt, List.length_pos_iff_exists_mem]
  unfold ProcPattern.needs
  simp only [(recvHalo_spec _ _).2]
  constructor
  · rintro ⟨g, h1, h2⟩; exact ⟨g, h2, h1⟩
  · rintro ⟨g, h1, h2⟩; exact ⟨g, h2, h1⟩

theorem zipIdx_buffers (P : List ProcPattern) :
    (P.map fun q => patternBuffer q.rows q.cols).zipIdx
      = P.zipIdx.map (fun e => (patternBuffer e.1.rows e.1.cols, e.2)) := by
  rw [List.zipIdx_map]
  rfl

/-- The lists built by the constructor, in closed form. -/
theorem commOn_eq (n : ℕ) (P : List ProcPattern) (rank : ℕ) (pat : ProcPattern) :
    ∃ sent : List ℕ, sent.Nodup ∧
      (∀ j, j ∈ sent ↔ ∃ h : j < pat.rows.length, ∃ e ∈ P.zipIdx, e.2 ≠ rank ∧ pat.rows[j] ∈ e.1.cols) ∧
      commOn n P rank pat =
        if (sendSide P rank pat).length ≤ (recvSide P rank pat).length then
          Outcome.ok
            { neighbors := (sendSide P rank pat).map Prod.snd
              send := (sendSide P rank pat).map fun e =>
                (sendHalo pat.rows e.1.cols).map (localMap pat.rows.length sent).at
              recv := ((recvSide P rank pat).take (sendSide P rank pat).length).map fun e =>
                (recvHalo pat.cols e.1.rows).map (haloMap n pat.rows pat.cols).at
              sent := sent
              halo := haloMap n pat.rows pat.cols
              rowMap := localMap pat.rows.length sent }
        else Outcome.ub "recv_halo[i]" := by
  have hs := sendLoop_lists rank pat.rows (P.map fun q => patternBuffer q.rows q.cols).zipIdx ⟨[], [], []⟩
  have ht := sendLoop_sent rank pat.rows (P.map fun q => patternBuffer q.rows q.cols).zipIdx ⟨[], [], []⟩
    List.nodup_nil
  have hr := recvLoop_lists rank pat.cols (P.map fun q => patternBuffer q.rows q.cols).zipIdx []
  have e1 : (P.map fun q => patternBuffer q.rows q.cols).zipIdx.filter (sendsTo rank pat.rows)
      = (sendSide P rank pat).map (fun e => (patternBuffer e.1.rows e.1.cols, e.2)) := by
    rw [zipIdx_buffers, List.filter_map, sendSide]
    congr 2
    funext e
    simp only [sendsTo, Function.comp, bufColumns_pattern, sendHalo_pos]
  have e2 : (P.map fun q => patternBuffer q.rows q.cols).zipIdx.filter (receivesFrom rank pat.cols)
      = (recvSide P rank pat).map (fun e => (patternBuffer e.1.rows e.1.cols, e.2)) := by
    rw [zipIdx_buffers, List.filter_map, recvSide]
    congr 2
    funext e
    simp only [receivesFrom, Function.comp, bufRows_pattern, recvHalo_pos]
  rw [e1] at hs
  rw [e2] at hr
  simp only [List.nil_append, List.map_map, Function.comp_def, bufColumns_pattern] at hs
  simp only [List.nil_append, List.map_map, Function.comp_def, bufRows_pattern] at hr
  refine ⟨_, ht.1, ?_, ?_⟩
  · intro j
    rw [ht.2, zipIdx_buffers]
    simp only [List.not_mem_nil, false_or, List.mem_map]
    constructor
    · rintro ⟨_, ⟨e, he, rfl⟩, h1, h2⟩
      simp only [bufColumns_pattern] at h2
      obtain ⟨h, h'⟩ := (mem_sendHalo _ _ _).1 h2
      exact ⟨h, e, he, h1, h'⟩
    · rintro ⟨h, e, he, h1, h2⟩
      refine ⟨_, ⟨e, he, rfl⟩, h1, ?_⟩
      simp only [bufColumns_pattern]
      exact (mem_sendHalo _ _ _).2 ⟨h, h2⟩
  · unfold commOn commSetup
    simp only [hs.1, hs.2, hr, List.length_map, mapM_get_range]
    split_ifs with h
    · simp only [Outcome.ok_bind, List.map_map, ← List.map_take, Function.comp_def]
    · rfl


theorem rows_disjoint {n : ℕ} {P : List ProcPattern} (hP : DistributedPattern n P) {p q : ℕ}
    {pat qat : ProcPattern} (hp : P[p]? = some pat) (hq : P[q]? = some qat) (g : ℕ)
    (h1 : g ∈ pat.rows) (h2 : g ∈ qat.rows) : p = q := by
  have hnd : (P.map ProcPattern.rows).flatten.Nodup := hP.partition.nodup_iff.2 List.nodup_range
  rw [List.nodup_flatten] at hnd
  have hd := List.pairwise_iff_getElem.1 hnd.2
  obtain ⟨hp', rfl⟩ := List.getElem?_eq_some_iff.1 hp
  obtain ⟨hq', rfl⟩ := List.getElem?_eq_some_iff.1 hq
  rcases Nat.lt_trichotomy p q with h | h | h
  · have := hd p q (by simpa using hp') (by simpa using hq') h
    simp only [List.getElem_map] at this
    exact absurd h2 (this h1)
  · exact h
  · have := hd q p (by simpa using hq') (by simpa using hp') h
    simp only [List.getElem_map] at this
    exact absurd h1 (this h2)

theorem haloMap_at_halo (n : ℕ) (owned cols : List ℕ) (hnd : owned.Nodup)
    (hc : ∀ g ∈ cols, g < n) (g : ℕ) (h1 : g ∈ cols) (h2 : g ∉ owned) :
    owned.length ≤ (haloMap n owned cols).at g := by
  obtain ⟨k, hk, rfl⟩ := List.getElem_of_mem ((mem_haloCols n owned cols hc g).2 ⟨h1, h2⟩)
  rw [haloMap_halo n owned cols hnd k hk]
  omega

/-- The rows that one process sends and another receives, in both numberings. -/
theorem exchange_ids {n : ℕ} {P : List ProcPattern} (hP : DistributedPattern n P) {p q : ℕ}
    {pat qat : ProcPattern} (hp : P[p]? = some pat) (hq : P[q]? = some qat) (hpq : p ≠ q)
    (sent : List ℕ) :
    let ids := pat.rows.filter (fun g => decide (g ∈ qat.cols))
    (sendHalo pat.rows qat.cols).map (localMap pat.rows.length sent).at
      = ids.map (amgxColumn (haloMap n pat.rows pat.cols) (localMap pat.rows.length sent)
          pat.rows.length) ∧
    ∀ loc : UMap, (recvHalo qat.cols pat.rows).map (haloMap n qat.rows qat.cols).at
      = ids.map (amgxColumn (haloMap n qat.rows qat.cols) loc qat.rows.length) := by
  intro ids
  have hpm := List.mem_of_getElem? hp
  have hqm := List.mem_of_getElem? hq
  constructor
  · rw [show ids = _ from (sendHalo_map pat.rows qat.cols).symm, List.map_map]
    apply List.map_congr_left
    intro j hj
    obtain ⟨h, -⟩ := (mem_sendHalo _ _ _).1 hj
    have hg : pat.rows.getD j 0 = pat.rows[j] := by simp [h]
    rw [Function.comp, hg, amgxColumn_owned n pat.rows pat.cols sent (hP.sorted _ hpm).nodup j h,
      localMap_at _ _ _ h]
  · intro loc
    have hids : recvHalo qat.cols pat.rows = ids := by
      apply List.Pairwise.eq_of_mem_iff (r := (· < ·)) (recvHalo_spec _ _).1
        ((hP.sorted _ hpm).filter _)
      intro g
      rw [(recvHalo_spec _ _).2, List.mem_filter, decide_eq_true_eq, and_comm]
    rw [hids]
    apply List.map_congr_left
    intro g hg
    obtain ⟨hg1, hg2⟩ := List.mem_filter.1 hg
    have hg2 : g ∈ qat.cols := by simpa using hg2
    have := haloMap_at_halo n qat.rows qat.cols (hP.sorted _ hqm).nodup (hP.range _ hqm) g hg2
      (fun h => hpq (rows_disjoint hP hp hq g hg1 h))
    rw [amgxColumn, if_neg (by omega)]

/-- A structurally symmetric matrix has symmetric needs, however its rows are distributed. -/
theorem StructurallySymmetric.needs {n : ℕ} {P : List ProcPattern} (hP : DistributedPattern n P)
    (h : StructurallySymmetric P) : SymmetricNeeds P := by
  rintro p hp q hq ⟨g, hg, hc⟩
  obtain ⟨e, he, hge⟩ := List.mem_flatMap.1 hc
  obtain ⟨q', hq', f, hf, hfg, hef⟩ := h p hp e he g hge
  obtain ⟨i, hi⟩ := List.getElem?_of_mem hq
  obtain ⟨j, hj⟩ := List.getElem?_of_mem hq'
  have hij : i = j := rows_disjoint hP hi hj g hg (List.mem_map.2 ⟨f, hf, hfg⟩)
  subst hij
  rw [hi] at hj
  cases hj
  exact ⟨e.1, List.mem_map_of_mem he, List.mem_flatMap.2 ⟨f, hf, hef⟩⟩

theorem recvSide_eq {P : List ProcPattern} (hsym : SymmetricNeeds P) (rank : ℕ) (pat : ProcPattern)
    (hp : pat ∈ P) : recvSide P rank pat = sendSide P rank pat := by
  unfold recvSide sendSide
  apply List.filter_congr
  intro e he
  have hm : e.1 ∈ P := List.mem_of_getElem? (List.mem_zipIdx_iff_getElem?.1 he)
  have : (pat.needs e.1) ↔ (e.1.needs pat) := ⟨hsym _ hp _ hm, hsym _ hm _ hp⟩
  simp only [this]

theorem sendSide_get {P : List ProcPattern} {rank : ℕ} {pat : ProcPattern} {k q : ℕ}
    (h : ((sendSide P rank pat).map Prod.snd)[k]? = some q) :
    ∃ qat, P[q]? = some qat ∧ (sendSide P rank pat)[k]? = some (qat, q) ∧ q ≠ rank ∧ qat.needs pat := by
  rw [List.getElem?_map, Option.map_eq_some_iff] at h
  obtain ⟨⟨qat, q'⟩, h1, rfl⟩ := h
  have hm := List.mem_of_getElem? h1
  unfold sendSide at hm
  rw [List.mem_filter] at hm
  refine ⟨qat, List.mem_zipIdx_iff_getElem?.1 hm.1, h1, ?_⟩
  simpa using hm.2

theorem sendSide_nodup (P : List ProcPattern) (rank : ℕ) (pat : ProcPattern) :
    ((sendSide P rank pat).map Prod.snd).Nodup := by
  unfold sendSide
  have h : (P.zipIdx.map Prod.snd).Nodup := by
    rw [List.zipIdx_map_snd]; exact List.nodup_range'
  exact h.sublist (List.filter_sublist.map _)

/-- **C51.**  If data is exchanged in both directions or not at all, the constructor builds on every process
lists that are consistent with those of the others.  For all numbers of processes, distributions of the rows
and sparsity patterns. -/
theorem C51_consistent (n : ℕ) (P : List ProcPattern) (hP : DistributedPattern n P)
    (hsym : SymmetricNeeds P) :
    ∃ comm : List AmgxComm,
      (∀ (p : ℕ) (pat : ProcPattern), P[p]? = some pat →
        ∃ c, comm[p]? = some c ∧ commOn n P p pat = .ok c) ∧
      ConsistentLists P comm := by
  choose sent hnd hmem heq using fun e : ℕ × ProcPattern => commOn_eq n P e.1 e.2
  let mk : ℕ × ProcPattern → AmgxComm := fun e =>
    { neighbors := (sendSide P e.1 e.2).map Prod.snd
      send := (sendSide P e.1 e.2).map fun f =>
        (sendHalo e.2.rows f.1.cols).map (localMap e.2.rows.length (sent e)).at
      recv := (sendSide P e.1 e.2).map fun f =>
        (recvHalo e.2.cols f.1.rows).map (haloMap n e.2.rows e.2.cols).at
      sent := sent e
      halo := haloMap n e.2.rows e.2.cols
      rowMap := localMap e.2.rows.length (sent e) }
  have hcomm : ∀ (p : ℕ) (c : AmgxComm), (P.zipIdx.map fun e => mk (e.2, e.1))[p]? = some c →
      ∀ pat, P[p]? = some pat → c = mk (p, pat) := by
    intro p c hc pat hp
    simp [hp] at hc
    exact hc.symm
  refine ⟨P.zipIdx.map fun e => mk (e.2, e.1), ?_, ?_⟩
  · intro p pat hp
    refine ⟨mk (p, pat), by simp [hp], ?_⟩
    have := heq (p, pat)
    simp only [recvSide_eq hsym p pat (List.mem_of_getElem? hp), Nat.le_refl, if_true,
      List.take_length] at this
    rw [this]
  · constructor
    · simp
    · intro p pat c hp hc
      rw [hcomm p c hc pat hp]
      have hpm := List.mem_of_getElem? hp
      constructor
      · apply C45_numbering n pat.rows pat.cols (sent (p, pat)) (hP.sorted _ hpm).nodup
          (hP.range _ hpm) (hnd _)
        intro i hi
        exact ((hmem _ i).1 hi).1
      · intro i g hg
        obtain ⟨hi, rfl⟩ := List.getElem?_eq_some_iff.1 hg
        rw [show (mk (p, pat)).sent = sent (p, pat) from rfl, hmem]
        constructor
        · rintro ⟨_, ⟨qat, q⟩, he, h1, h2⟩
          exact ⟨q, qat, List.mem_zipIdx_iff_getElem?.1 he, h1, h2⟩
        · rintro ⟨q, qat, he, h1, h2⟩
          exact ⟨hi, (qat, q), List.mem_zipIdx_iff_getElem?.2 he, h1, h2⟩
    · intro p pat c hp hc
      rw [hcomm p c hc pat hp]
      refine ⟨sendSide_nodup P p pat, by simp [mk], by simp [mk], ?_⟩
      intro q
      constructor
      · intro hq
        obtain ⟨k, hk⟩ := List.getElem?_of_mem hq
        obtain ⟨qat, h1, -, h2, h3⟩ := sendSide_get hk
        exact ⟨h2, qat, h1, h3⟩
      · rintro ⟨h1, qat, h2, h3⟩
        refine List.mem_map.2 ⟨(qat, q), ?_, rfl⟩
        unfold sendSide
        rw [List.mem_filter]
        exact ⟨List.mem_zipIdx_iff_getElem?.2 h2, by simp [h1, h3]⟩
    · intro p q pat qat c d k l hp hq hc hd hk hl
      have ec := hcomm p c hc pat hp
      have ed := hcomm q d hd qat hq
      subst ec ed
      obtain ⟨qat', hq', hks, hqp, -⟩ := sendSide_get hk
      obtain ⟨pat', hp', hls, -, -⟩ := sendSide_get hl
      rw [hq] at hq'
      rw [hp] at hp'
      cases hq'
      cases hp'
      obtain ⟨h1, h2⟩ := exchange_ids hP hp hq (Ne.symm hqp) (sent (p, pat))
      refine ⟨pat.rows.filter (fun g => decide (g ∈ qat.cols)),
        (hP.sorted _ (List.mem_of_getElem? hp)).nodup.filter _, ?_, ?_, ?_⟩
      · intro g; simp
      · change ((sendSide P p pat).map _)[k]? = _
        rw [List.getElem?_map, hks, Option.map_some, h1]
        rfl
      · change ((sendSide P q qat).map _)[l]? = _
        rw [List.getElem?_map, hls, Option.map_some, h2]
        rfl

/-- **C51 for structurally symmetric matrices.** -/
theorem C51_symmetric (n : ℕ) (P : List ProcPattern) (hP : DistributedPattern n P)
    (hsym : StructurallySymmetric P) :
    ∃ comm : List AmgxComm,
      (∀ (p : ℕ) (pat : ProcPattern), P[p]? = some pat →
        ∃ c, comm[p]? = some c ∧ commOn n P p pat = .ok c) ∧
      ConsistentLists P comm :=
  C51_consistent n P hP (hsym.needs hP)

theorem othersWith_length (P : List ProcPattern) (rank : ℕ) (f : ProcPattern → Bool) :
    (P.zipIdx.filter fun e => decide (e.2 ≠ rank) && f e.1).map Prod.snd = othersWith P rank f := by
  unfold othersWith
  have h : List.range P.length = P.zipIdx.map Prod.snd := by
    rw [List.zipIdx_map_snd, List.range_eq_range']
  rw [h, List.filter_map]
  congr 1
  apply List.filter_congr
  intro e he
  have := List.mem_zipIdx_iff_getElem?.1 he
  simp [this]

/-- **C51 (violated for unsymmetric patterns).**  On a process that is needed by more processes than it needs
itself, the constructor accesses the receive lists out of bounds. -/
theorem C51_violated (n : ℕ) (P : List ProcPattern) (p : ℕ) (pat : ProcPattern)
    (h : (othersWith P p fun q => decide (pat.needs q)).length
      < (othersWith P p fun q => decide (q.needs pat)).length) :
    ∃ why, commOn n P p pat = .ub why := by
  obtain ⟨sent, -, -, e⟩ := commOn_eq n P p pat
  rw [← othersWith_length, ← othersWith_length, List.length_map, List.length_map] at h
  refine ⟨_, e.trans (if_neg ?_)⟩
  exact Nat.not_le.2 h

/-- **C51 (violated, wrong partner).**  If process `p` is needed by `q` only and itself needs `r` only, the
constructor tells AMGX that the rows of `r` come from `q`. -/
theorem C51_partner_violated (n : ℕ) (P : List ProcPattern) (hP : DistributedPattern n P)
    (p q r : ℕ) (pat rat : ProcPattern) (hp : P[p]? = some pat) (hr : P[r]? = some rat)
    (hs : (othersWith P p fun q => decide (q.needs pat)) = [q])
    (hn : (othersWith P p fun q => decide (pat.needs q)) = [r]) :
    ∃ c ids, commOn n P p pat = .ok c ∧ c.neighbors = [q] ∧
      c.recv = [ids.map (c.number pat.rows.length)] ∧ ids ≠ [] ∧
      ∀ g, g ∈ ids ↔ g ∈ rat.rows ∧ g ∈ pat.cols := by
  obtain ⟨sent, hnd, hmem, e⟩ := commOn_eq n P p pat
  have hs' : (sendSide P p pat).map Prod.snd = [q] := by
    rw [← hs, ← othersWith_length]; rfl
  have hn' : (recvSide P p pat).map Prod.snd = [r] := by
    rw [← hn, ← othersWith_length]; rfl
  have hl1 : (sendSide P p pat).length = 1 := by simpa using congrArg List.length hs'
  have hl2 : (recvSide P p pat).length = 1 := by simpa using congrArg List.length hn'
  obtain ⟨⟨rat', r'⟩, hre⟩ := List.length_eq_one_iff.1 hl2
  rw [hre] at hn'
  have : r' = r := by simpa using hn'
  subst this
  have hm : (rat', r') ∈ recvSide P p pat := by rw [hre]; simp
  unfold recvSide at hm
  rw [List.mem_filter] at hm
  have h1 := List.mem_zipIdx_iff_getElem?.1 hm.1
  simp only at h1
  rw [hr] at h1
  cases h1
  have hm2 : r' ≠ p ∧ pat.needs rat := by simpa using hm.2
  rw [if_pos (by omega), hs', hl1, hre] at e
  obtain ⟨-, h2⟩ := exchange_ids hP hr hp hm2.1 []
  refine ⟨_, rat.rows.filter (fun g => decide (g ∈ pat.cols)), e, rfl, ?_, ?_, ?_⟩
  · simp only [List.take_succ_cons, List.take_zero, List.map_cons, List.map_nil]
    rw [h2 (localMap pat.rows.length sent)]
    rfl
  · obtain ⟨g, hg1, hg2⟩ := hm2.2
    exact List.ne_nil_of_mem (List.mem_filter.2 ⟨hg1, by simpa using hg2⟩)
  · intro g; simp

/-- A structurally symmetric tridiagonal matrix of size 5 on three processes. -/
def exPattern : List ProcPattern :=
  [[(0, [0, 1]), (1, [0, 1, 2])], [(2, [1, 2, 3])], [(3, [2, 3, 4]), (4, [3, 4])]]

example : DistributedPattern 5 exPattern where
  partition := by unfold IsPartition; decide +kernel
  sorted := by decide +kernel
  range := by decide +kernel

example : StructurallySymmetric exPattern := by unfold StructurallySymmetric; decide +kernel

/-- A cyclic pattern on three processes: process 0 is needed by 1 and needs 2. -/
def exCyclic : List ProcPattern := [[(0, [0, 2])], [(1, [0, 1])], [(2, [1, 2])]]

example : DistributedPattern 3 exCyclic where
  partition := by unfold IsPartition; decide +kernel
  sorted := by decide +kernel
  range := by decide +kernel

example : (othersWith exCyclic 0 fun q => decide (q.needs [(0, [0, 2])])) = [1] ∧
    (othersWith exCyclic 0 fun q => decide (ProcPattern.needs [(0, [0, 2])] q)) = [2] := by
  decide +kernel

/-- A lower triangular matrix on two processes: process 0 is needed by 1 and needs nothing. -/
def exLower : List ProcPattern := [[(0, [0])], [(1, [0, 1])]]

example : (othersWith exLower 0 fun q => decide (ProcPattern.needs [(0, [0])] q)).length
    < (othersWith exLower 0 fun q => decide (q.needs [(0, [0])])).length := by
  decide +kernel

end Mfmg
