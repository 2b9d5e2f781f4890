import Verif.Spec.SetupAll
import Verif.Props.Agglomerate
import Verif.Props.WorkStream
import Verif.Lemmas.TwoLevel
import Mathlib.Data.Finset.Sort

/-!
# Lemmas on the whole set-up
-/

set_option autoImplicit false

namespace Mfmg

open Finset

section

variable {K : Type}

/-- Every strategy divides the owned cells among the agglomerates `1, …, n`. -/
theorem Share.agglomerate_spec {debug : Bool} {sh : Share K} (hs : sh.Sound debug) (dim : ℕ) (s : Strategy)
    (u : UserIndex) (hu : ∀ c, u c = 0) :
    ∃ u' n, sh.agglomerate debug dim s u = .ok (u', n) ∧
      ((range sh.mesh.nCells).filter (fun c => sh.mesh.owned c = true)).image u' = Icc 1 n ∧
      ∀ c, c < sh.mesh.nCells → sh.mesh.owned c = false → u' c = 0 := by
  cases s with
  | graph name nd =>
    obtain ⟨g, u', n, h1, -, h2, -, -, h3⟩ := C14_partitioner sh.graph hs.graph (sh.partition name) nd
      (fun g => by rw [hs.partition, hs.nCells]) u
    rw [hs.nCells, hs.owned] at h2
    refine ⟨u', n, h1, h2, ?_⟩
    intro c _ hc
    rw [h3 c (Or.inl (by rw [hs.owned]; exact hc)), hu]
  | block nx ny nz =>
    obtain ⟨u', n, h⟩ := C11_returns sh.mesh debug hs.uniform dim nx ny nz u
    refine ⟨u', n, h, C12_no_empty_agglomerate sh.mesh hs.forward debug dim nx ny nz u u' n (fun c _ _ => hu c) h, ?_⟩
    intro c _ hc
    rw [(C11_owned_cells_flagged sh.mesh debug dim nx ny nz u u' n (fun c _ _ => hu c) h).2 c hc, hu]

theorem patchCells_sort (q : ProcFem K) (u : UserIndex) (k : ℕ) :
    (q.aggCells u k).sort (· ≤ ·) = patchCellsById q.share.mesh.nCells u (k + 1) := by
  have hp : (patchCellsById q.share.mesh.nCells u (k + 1)).Pairwise (· < ·) :=
    List.Pairwise.filter _ List.pairwise_lt_range
  have hset : q.aggCells u k = (patchCellsById q.share.mesh.nCells u (k + 1)).toFinset := by
    ext c
    simp [ProcFem.aggCells, patchCellsById]
  rw [hset, List.toFinset_sort _ (hp.imp fun h => Nat.ne_of_lt h)]
  exact hp.imp Nat.le_of_lt

theorem sum_patchCells [AddCommMonoid K] (q : ProcFem K) (u : UserIndex) (k : ℕ) (f : ℕ → K) :
    ((patchCellsById q.share.mesh.nCells u (k + 1)).map f).sum = ∑ c ∈ q.aggCells u k, f c := by
  have hp : (patchCellsById q.share.mesh.nCells u (k + 1)).Nodup :=
    (List.Pairwise.filter _ List.pairwise_lt_range).imp fun h => Nat.ne_of_lt h
  have hset : q.aggCells u k = (patchCellsById q.share.mesh.nCells u (k + 1)).toFinset := by
    ext c
    simp [ProcFem.aggCells, patchCellsById]
  rw [hset, List.sum_toFinset _ hp]

theorem computeLocal_selected {debug matrixFree : Bool} {ep : EigParams} {name : String}
    (h : Selects matrixFree ep name) (solver : ℕ → String → List (List K) → Outcome (CopyData K))
    (unsolved : ℕ → CopyData K) (i : ℕ) :
    computeLocal debug matrixFree ep solver unsolved i [] = solver i name [] := by
  unfold computeLocal
  simp only [h.type]
  rcases h.known with h' | h' | ⟨h', h'' | h''⟩
  · simp [h']
  · simp [h']
  · simp [h', h'']
  · simp [h', h'']

variable [AddCommMonoid K]

/-- One process. -/
theorem Share.setup_spec {debug matrixFree : Bool} {dim : ℕ} {ap : AggParams} {strat : Strategy}
    (hap : dispatch dim ap = .ok strat) {ep : EigParams} {name : String} (hep : Selects matrixFree ep name)
    (q : ProcFem K) (hs : q.share.Sound debug) (hq : q.Faithful name) (u : UserIndex) (hu : ∀ c, u c = 0) :
    ∃ u' cs, q.share.setup debug matrixFree dim ap ep u = .ok (u', collect cs) ∧ q.Result name u' cs ∧
      q.share.agglomerate debug dim strat u = .ok (u', cs.length) := by
  obtain ⟨u', n, h1, h2, h3⟩ := Share.agglomerate_spec hs dim strat u hu
  have hne : ∀ k, k < n → (q.aggCells u' k).Nonempty := by
    intro k hk
    have : k + 1 ∈ Icc 1 n := mem_Icc.2 ⟨by omega, by omega⟩
    rw [← h2] at this
    obtain ⟨c, hc, hck⟩ := mem_image.1 this
    exact ⟨c, mem_filter.2 ⟨(mem_filter.1 hc).1, hck⟩⟩
  have hsol : ∀ k, ∃ c, k < n → q.share.solver (patchCellsById q.share.mesh.nCells u' (k + 1)) name [] = .ok c ∧
      c.WellFormed ∧ (∀ x, x ∈ c.dofMap ↔ ∃ d ∈ patchCellsById q.share.mesh.nCells u' (k + 1), x ∈ q.cellDofs d) ∧
      ∀ x ∈ c.dofMap, extend c.dofMap c.diag x
        = ((patchCellsById q.share.mesh.nCells u' (k + 1)).map fun d => q.cellMat d x x).sum := by
    intro k
    by_cases hk : k < n
    · obtain ⟨c, hc⟩ := hq.solves (patchCellsById q.share.mesh.nCells u' (k + 1))
        (List.Pairwise.filter _ List.pairwise_lt_range) (by
          intro h0
          have := hne k hk
          rw [← patchCells_sort] at h0
          have h0' := congrArg List.length h0
          simp at h0'
          exact this.ne_empty h0')
        (by
          intro c hc
          simp only [patchCellsById, List.mem_filter, List.mem_range] at hc
          exact hc.1)
      exact ⟨c, fun _ => hc⟩
    · exact ⟨⟨[], [], [], []⟩, fun h => absurd h hk⟩
  choose res hres using hsol
  have hcol := (((C25_schedule_partial debug matrixFree ep
      (fun i => q.share.solver (patchCellsById q.share.mesh.nCells u' (i + 1)))
      (fun i => q.share.unsolved (patchCellsById q.share.mesh.nCells u' (i + 1))) n hep.noGuess).2
      (q.share.schedule n) (hs.schedule n)) (collect ((List.range n).map res))).2
      ⟨res, fun i hi => by rw [computeLocal_selected hep]; exact (hres i hi).1, rfl⟩
  refine ⟨u', (List.range n).map res, ?_, ?_, by simpa using h1⟩
  · simp only [Share.setup, hap, h1, hcol, Outcome.ok_bind, Outcome.pure_eq]
  · have hget : ∀ (k : ℕ) (c : CopyData K), ((List.range n).map res)[k]? = some c → k < n ∧ c = res k := by
      intro k c h
      rw [List.getElem?_map] at h
      by_cases hk : k < n
      · rw [List.getElem?_eq_getElem (by simpa using hk)] at h
        simp at h
        exact ⟨hk, h.symm⟩
      · rw [List.getElem?_eq_none (by simpa using Nat.le_of_not_lt hk)] at h
        simp at h
    refine ⟨?_, h3, ?_, ?_, ?_, ?_, ?_⟩
    · intro c hc
      have : u' c ∈ Icc 1 n := by rw [← h2]; exact mem_image_of_mem _ hc
      simpa using this
    · intro k hk
      exact hne k (by simpa using hk)
    · intro c hc
      obtain ⟨k, hk, rfl⟩ := List.mem_map.1 hc
      exact (hres k (List.mem_range.1 hk)).2.1
    · intro k c hc x
      obtain ⟨hk, rfl⟩ := hget k c hc
      rw [(hres k hk).2.2.1]
      simp [ProcFem.aggCells, patchCellsById]
    · intro k c hc x
      obtain ⟨hk, rfl⟩ := hget k c hc
      obtain ⟨-, -, hd, hv⟩ := hres k hk
      rw [← sum_patchCells q u' k fun d => q.cellMat d x x]
      by_cases hx : x ∈ (res k).dofMap
      · exact hv x hx
      · rw [extend_not_mem hx]
        symm
        apply List.sum_eq_zero
        intro z hz
        obtain ⟨d, hd', rfl⟩ := List.mem_map.1 hz
        by_contra h
        exact hx ((hd x).2 ⟨d, hd', (hq.support d x x h).1⟩)
    · intro k c hc
      obtain ⟨hk, rfl⟩ := hget k c hc
      rw [patchCells_sort]
      exact (hres k hk).1

/-- All processes. -/
theorem setupShares_spec {debug matrixFree : Bool} {dim : ℕ} {ap : AggParams} {strat : Strategy}
    (hap : dispatch dim ap = .ok strat) {ep : EigParams} {name : String} (hep : Selects matrixFree ep name)
    (procs : List (ProcFem K)) (hs : ∀ q ∈ procs, q.share.Sound debug) (hq : ∀ q ∈ procs, q.Faithful name) :
    ∃ rs : List (UserIndex × List (CopyData K)),
      setupShares debug matrixFree dim ap ep (procs.map fun q => (q.share, fun _ => 0))
        = .ok (rs.map Prod.fst, rs.map fun r => collect r.2) ∧
      List.Forall₂ (fun q r => q.Result name r.1 r.2 ∧
        q.share.agglomerate debug dim strat (fun _ => 0) = .ok (r.1, r.2.length)) procs rs := by
  induction procs with
  | nil => exact ⟨[], rfl, .nil⟩
  | cons q procs ih =>
    obtain ⟨rs, h1, h2⟩ := ih (fun q hq => hs q (List.mem_cons_of_mem _ hq))
      (fun q h => hq q (List.mem_cons_of_mem _ h))
    obtain ⟨u, cs, h3, h4, h5⟩ := Share.setup_spec hap hep q (hs q List.mem_cons_self) (hq q List.mem_cons_self)
      (fun _ => 0) (fun _ => rfl)
    refine ⟨(u, cs) :: rs, ?_, .cons ⟨h4, h5⟩ h2⟩
    simp only [List.map_cons, setupShares, h3, h1, Outcome.ok_bind, Outcome.pure_eq]

/-- The agglomerates of a process add up to its cells. -/
theorem ProcFem.Result.sum_aggs {q : ProcFem K} {name : String} {u : UserIndex} {cs : List (CopyData K)}
    (h : q.Result name u cs) (f : ℕ → K) :
    ((List.range cs.length).map fun k => ∑ c ∈ q.aggCells u k, f c).sum = ∑ c ∈ q.ownCells, f c := by
  have hset : ∀ k ∈ range cs.length, q.aggCells u k = q.ownCells.filter fun c => u c - 1 = k := by
    intro k _
    ext c
    simp only [ProcFem.aggCells, ProcFem.ownCells, mem_filter, mem_range]
    constructor
    · rintro ⟨hc, hk⟩
      refine ⟨⟨hc, ?_⟩, by omega⟩
      by_contra ho
      have := h.other c hc (by simpa using ho)
      omega
    · rintro ⟨⟨hc, ho⟩, hk⟩
      have := (h.owned c (mem_filter.2 ⟨mem_range.2 hc, ho⟩)).1
      exact ⟨hc, by omega⟩
  have hmaps : ∀ c ∈ q.ownCells, u c - 1 ∈ range cs.length := by
    intro c hc
    have := h.owned c hc
    rw [mem_range]
    omega
  rw [← sum_fiberwise_of_maps_to hmaps f]
  have hl : ((List.range cs.length).map fun k => ∑ c ∈ q.aggCells u k, f c).sum
      = ∑ k ∈ range cs.length, ∑ c ∈ q.aggCells u k, f c := by
    rw [← List.sum_toFinset _ List.nodup_range]
    congr 1
    ext k
    simp
  rw [hl]
  exact sum_congr rfl fun k hk => by rw [hset k hk]

theorem sum_mapIdx_const {α : Type} (f : ℕ → K) (l : List α) :
    (l.mapIdx fun k _ => f k).sum = ((List.range l.length).map f).sum := by
  congr 1
  apply List.ext_getElem
  · simp
  · intro i h1 h2
    simp

theorem setup_flatten {name : String} {procs : List (ProcFem K)} {rs : List (UserIndex × List (CopyData K))}
    {P : ProcFem K → UserIndex × List (CopyData K) → Prop}
    (h : List.Forall₂ (fun q r => q.Result name r.1 r.2 ∧ P q r) procs rs) (n : ℕ)
    (omitted : ProcFem K → Finset ℕ → K) :
    (rs.map Prod.snd).flatten = (allAggs n omitted (procs.zip rs)).map AggData.copy := by
  induction h with
  | nil => rfl
  | cons h _ ih =>
    rw [List.zip_cons_cons, allAggs, List.flatMap_cons, ← allAggs, List.map_append, ← ih, List.map_cons,
      List.flatten_cons]
    congr 1
    apply List.ext_getElem
    · simp
    · intro i h1 h2
      simp

theorem setup_matrix {name : String} {procs : List (ProcFem K)} {rs : List (UserIndex × List (CopyData K))}
    {P : ProcFem K → UserIndex × List (CopyData K) → Prop}
    (h : List.Forall₂ (fun q r => q.Result name r.1 r.2 ∧ P q r) procs rs) (n : ℕ)
    (omitted : ProcFem K → Finset ℕ → K) :
    ((allAggs n omitted (procs.zip rs)).map AggData.matrix).sum
      = Matrix.of fun i j : Fin n => globalEntry procs i.val j.val := by
  induction h with
  | nil =>
    ext i j
    simp [allAggs, globalEntry]
  | @cons q r _ _ h _ ih =>
    rw [List.zip_cons_cons, allAggs, List.flatMap_cons, ← allAggs, List.map_append, List.sum_append, ih]
    ext i j
    simp only [Matrix.add_apply, Matrix.of_apply, globalEntry, List.map_cons, List.sum_cons]
    congr 1
    rw [← h.1.sum_aggs fun c => q.cellMat c i.val j.val]
    have h1 : (r.2.mapIdx fun k c => (⟨c, q.patchMatrix n (q.aggCells r.1 k),
        omitted q (q.aggCells r.1 k)⟩ : AggData n K)).map AggData.matrix
        = r.2.mapIdx fun k _ => q.patchMatrix n (q.aggCells r.1 k) := by
      apply List.ext_getElem
      · simp
      · intro i h1 h2
        simp
    rw [h1, sum_mapIdx_const]
    have h2 : ∀ l : List ℕ, ((l.map fun k => q.patchMatrix n (q.aggCells r.1 k)).sum) i j
        = (l.map fun k => ∑ c ∈ q.aggCells r.1 k, q.cellMat c i.val j.val).sum := by
      intro l
      induction l with
      | nil => rfl
      | cons k l ih => rw [List.map_cons, List.sum_cons, Matrix.add_apply, ih]; simp [ProcFem.patchMatrix]
    exact h2 _

theorem setup_diag {name : String} {procs : List (ProcFem K)} {rs : List (UserIndex × List (CopyData K))}
    {P : ProcFem K → UserIndex × List (CopyData K) → Prop}
    (h : List.Forall₂ (fun q r => q.Result name r.1 r.2 ∧ P q r) procs rs) (x : ℕ) :
    ((rs.map Prod.snd).flatten.map fun c => extend c.dofMap c.diag x).sum = globalEntry procs x x := by
  induction h with
  | nil => rfl
  | @cons q r _ _ h _ ih =>
    rw [List.map_cons, List.flatten_cons, List.map_append, List.sum_append, ih]
    simp only [globalEntry, List.map_cons, List.sum_cons]
    congr 1
    rw [← h.1.sum_aggs fun c => q.cellMat c x x]
    congr 1
    apply List.ext_getElem
    · simp
    · intro k h1 h2
      have hk : k < r.2.length := by simpa using h1
      simp only [List.getElem_map, List.getElem_range]
      exact h.1.diag k _ (List.getElem?_eq_getElem hk) x

theorem setup_wf {name : String} {procs : List (ProcFem K)} {rs : List (UserIndex × List (CopyData K))}
    {P : ProcFem K → UserIndex × List (CopyData K) → Prop}
    (h : List.Forall₂ (fun q r => q.Result name r.1 r.2 ∧ P q r) procs rs) :
    ∀ cs ∈ rs.map Prod.snd, ∀ c ∈ cs, c.WellFormed := by
  induction h with
  | nil => simp
  | cons h _ ih =>
    intro cs hcs
    rw [List.map_cons, List.mem_cons] at hcs
    rcases hcs with rfl | hcs
    · exact h.1.wf
    · exact ih cs hcs

end

section

variable {K : Type} [Field K] [LinearOrder K]

theorem setup_solved {debug : Bool} {dim : ℕ} {strat : Strategy} {name : String} {procs : List (ProcFem K)}
    {rs : List (UserIndex × List (CopyData K))}
    (h : List.Forall₂ (fun q r => q.Result name r.1 r.2 ∧
      q.share.agglomerate debug dim strat (fun _ => 0) = .ok (r.1, r.2.length)) procs rs) (n : ℕ)
    (omitted : ProcFem K → Finset ℕ → K)
    (hs : ∀ q ∈ procs, q.SolvedExactly debug dim strat n name (omitted q)) :
    ∀ b ∈ allAggs n omitted (procs.zip rs), 0 < b.omitted ∧ b.Solved := by
  induction h with
  | nil => simp [allAggs]
  | @cons q r _ _ h _ ih =>
    intro b hb
    rw [List.zip_cons_cons, allAggs, List.flatMap_cons, ← allAggs, List.mem_append] at hb
    rcases hb with hb | hb
    · obtain ⟨k, hk, rfl⟩ := List.mem_mapIdx.1 hb
      exact hs q List.mem_cons_self r.1 _ h.2 k hk _ (h.1.solved k _ (List.getElem?_eq_getElem hk))
    · exact ih (fun q hq => hs q (List.mem_cons_of_mem _ hq)) b hb

/-- What one coarse vector gives: on each agglomerate the projection of `w` on the kept vectors, weighted. -/
theorem coarse_combination (gdiag : ℕ → K) (css : List (List (CopyData K))) (n : ℕ)
    (aggs : List (AggData n K)) (haggs : css.flatten = aggs.map AggData.copy) (hsolved : ∀ b ∈ aggs, b.Solved)
    (a : Assembled K)
    (h : ∀ (y : ℕ → K) (x : ℕ) (hx : x < n),
      ((a.R.block (rowsOf css.flatten).length n).transpose.mulVec fun p => y p.val) ⟨x, hx⟩
        = ((List.range (rowsOf css.flatten).length).map fun p => y p *
            (((rowsOf css.flatten)[p]?).map fun cv =>
              extend cv.1.dofMap cv.1.diag x / gdiag x * extend cv.1.dofMap cv.2 x).getD 0).sum)
    (w : Fin n → K) :
    ∃ y : ℕ → K, ∀ i : Fin n, ((a.R.block (rowsOf css.flatten).length n).transpose.mulVec fun p => y p.val) i
      = (aggs.map fun b => b.matrix i i / gdiag i.val * projectOn (keptVecs n b.copy) w i).sum := by
  set coef : CopyData K × List K → K := fun cv =>
    globalVec n cv.1 cv.2 ⬝ᵥ w / (globalVec n cv.1 cv.2 ⬝ᵥ globalVec n cv.1 cv.2) with hcoef
  set y : ℕ → K := fun p => (((rowsOf css.flatten)[p]?).map coef).getD 0 with hy
  refine ⟨y, ?_⟩
  intro i
  refine (h y i.val i.isLt).trans ?_
  have := combine_map (fun cv : CopyData K × List K =>
    extend cv.1.dofMap cv.1.diag i.val / gdiag i.val * extend cv.1.dofMap cv.2 i.val) coef
    (rowsOf css.flatten)
  refine this.trans ?_
  rw [sum_rowsOf, haggs, List.map_map]
  congr 1
  apply List.map_congr_left
  intro b hb
  simp only [Function.comp_apply]
  rw [solved_diag b (hsolved b hb), projectOn, keptVecs, List.map_map, ← List.sum_map_mul_left]
  congr 1
  apply List.map_congr_left
  intro v _
  simp only [Function.comp_apply, hcoef]
  change _ * (_ * globalVec n b.copy v i) = _
  ring

end

end Mfmg
