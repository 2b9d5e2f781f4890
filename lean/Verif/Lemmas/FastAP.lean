import Verif.Spec.FastAP
import Verif.Lemmas.Restriction
import Verif.Lemmas.WorkStream
import Verif.Props.Agglomerate
import Mathlib.Algebra.BigOperators.Ring.Finset

set_option autoImplicit false

namespace Mfmg

open Finset

section

variable {K : Type} [Field K]

theorem foldl_add_row (r0 : ℕ) (cols : List ℕ) (vals : List K) (hnd : cols.Nodup)
    (hlen : vals.length = cols.length) (M : Entries K) (r x : ℕ) :
    (cols.zip vals).foldl (fun M xv => M.add r0 xv.1 xv.2) M r x
      = M r x + if r = r0 then extend cols vals x else 0 := by
  induction cols generalizing vals M with
  | nil => simp
  | cons c cols ih =>
    cases vals with
    | nil => simp at hlen
    | cons v vals =>
      rw [List.nodup_cons] at hnd
      rw [List.zip_cons_cons, List.foldl_cons, ih vals hnd.2 (by simpa using hlen)]
      simp only [Entries.add, extend_cons]
      by_cases hr : r = r0
      · subst hr
        by_cases hx : x = c
        · subst hx; simp [extend_not_mem hnd.1]
        · simp [hx]
      · simp [hr]

/-- Effect of the copier on one entry. -/
theorem apCopier_apply (rows cols : List ℕ) (f : ℕ → List K) (hr : rows.Nodup) (hc : cols.Nodup)
    (hf : ∀ r ∈ rows, (f r).length = cols.length) (M : Entries K) (r x : ℕ) :
    apCopier ⟨rows, cols, rows.map f⟩ M r x
      = M r x + if r ∈ rows then extend cols (f r) x else 0 := by
  simp only [apCopier]
  induction rows generalizing M with
  | nil => simp
  | cons r0 rows ih =>
    rw [List.nodup_cons] at hr
    simp only [List.map_cons, List.zip_cons_cons, List.foldl_cons]
    rw [ih hr.2 (fun r h => hf r (List.mem_cons_of_mem _ h)),
      foldl_add_row _ _ _ hc (hf r0 List.mem_cons_self)]
    by_cases h : r = r0
    · subst h; simp [hr.1]
    · simp [h]

theorem extend_range_map (cols : List ℕ) (hc : cols.Nodup) (g : ℕ → K) (k x : ℕ)
    (hk : cols[k]? = some x) : extend cols ((List.range cols.length).map g) x = g k := by
  induction cols generalizing g k with
  | nil => simp at hk
  | cons c cols ih =>
    rw [List.nodup_cons] at hc
    rw [List.length_cons, List.range_succ_eq_map, List.map_cons, extend_cons, List.map_map]
    cases k with
    | zero => simp at hk; simp [hk]
    | succ k =>
      simp only [List.getElem?_cons_succ] at hk
      have hx : x ≠ c := fun e => hc.1 (e ▸ List.mem_of_getElem? hk)
      rw [if_neg hx, ih hc.2 (g ∘ Nat.succ) k hk]
      rfl

/-- The patch product, entry by entry, as a sum over cells and global dofs. -/
theorem patch_product (D : Disc K) (hD : D.Sound) (pe : PatchEval K) (hpe : pe.Faithful D)
    (cells : List ℕ) (hs : cells.Pairwise (· < ·)) (hlt : ∀ c ∈ cells, c < D.nCells)
    (w : ℕ → K) (x : ℕ) :
    extend (pe.dofMap cells)
        ((List.range (pe.dofMap cells).length).map
          (vmultEntry (pe.matrix cells) ((pe.dofMap cells).map w))) x
      = ∑ c ∈ cells.toFinset, ∑ y ∈ range D.nDofs, D.cellMat c x y * w y := by
  obtain ⟨hnd, hmem, hmat⟩ := hpe cells hs hlt
  have hcnd : cells.Nodup := hs.imp (fun h => Nat.ne_of_lt h)
  by_cases hx : x ∈ pe.dofMap cells
  · obtain ⟨k, hk⟩ := List.getElem?_of_mem hx
    rw [extend_range_map _ hnd _ k x hk, vmultEntry]
    have h1 : ((pe.dofMap cells).map w).mapIdx (fun l d => pe.matrix cells k l * d)
        = (pe.dofMap cells).map (fun y => (cells.map (fun c => D.cellMat c x y)).sum * w y) := by
      apply List.ext_getElem (by simp)
      intro l h1 h2
      simp only [List.length_mapIdx, List.length_map] at h1
      simp only [List.getElem_mapIdx, List.getElem_map]
      rw [hmat k l x _ hk (List.getElem?_eq_getElem h1)]
    rw [h1, ← List.sum_toFinset _ hnd]
    simp only [← List.sum_toFinset _ hcnd, Finset.sum_mul]
    rw [Finset.sum_comm]
    apply Finset.sum_congr rfl
    intro c hc
    rw [List.mem_toFinset] at hc
    apply Finset.sum_subset
    · intro y hy
      rw [List.mem_toFinset, hmem] at hy
      obtain ⟨d, _, hd⟩ := hy
      exact Finset.mem_range.2 (hD.dofs_lt d y hd)
    · intro y _ hy
      by_contra hne
      have : D.cellMat c x y ≠ 0 := fun h => hne (by rw [h, zero_mul])
      exact hy (List.mem_toFinset.2 ((hmem y).2 ⟨c, hc, (hD.support c x y this).2⟩))
  · rw [extend_not_mem hx]
    symm
    apply Finset.sum_eq_zero
    intro c hc
    rw [List.mem_toFinset] at hc
    apply Finset.sum_eq_zero
    intro y _
    by_contra hne
    have : D.cellMat c x y ≠ 0 := fun h => hne (by rw [h, zero_mul])
    exact hx ((hmem x).2 ⟨c, hc, (hD.support c x y this).1⟩)

theorem nthRows_eq (first nOwned : ℕ) (ks : List ℕ) (h : ∀ k ∈ ks, k < nOwned) :
    nthRows first nOwned ks = .ok (ks.map (fun k => first + k)) := by
  induction ks with
  | nil => rfl
  | cons k ks ih =>
    rw [nthRows, nthRow, if_pos (h k List.mem_cons_self),
      ih (fun j hj => h j (List.mem_cons_of_mem _ hj))]
    rfl

/-- What the worker stores for a non-empty patch `cells`. -/
def apResult (pe : PatchEval K) (V delta : Entries K) (first nLocal : ℕ) (halo : Bool) (i : ℕ)
    (cells : List ℕ) : APCopy K :=
  let rows := ((List.range nLocal).map (fun j => i * nLocal + j)).map (fun k => first + k)
  ⟨rows, pe.dofMap cells, rows.map (fun r =>
    (List.range (pe.dofMap cells).length).map (vmultEntry (pe.matrix cells)
      ((pe.dofMap cells).map (fun x => if halo then delta r x + V r x else delta r x))))⟩

theorem apWorker_nonempty (wide : Bool) (nCells : ℕ) (hN : nCells ≤ 2 ^ 31) (pe : PatchEval K)
    (V delta : Entries K) (first nOwned nLocal : ℕ) (halo : Bool) (patches : List (List ℕ)) (i : ℕ)
    (copy : APCopy K) (cells : List ℕ) (hi : patches[i]? = some cells) (hne : cells ≠ [])
    (hs : cells.Pairwise (· < ·)) (hlt : ∀ c ∈ cells, c < nCells)
    (hrow : ∀ j, j < nLocal → i * nLocal + j < nOwned) :
    apWorker wide nCells pe V delta first nOwned nLocal halo patches i () copy
      = .ok ((), apResult pe V delta first nLocal halo i cells) := by
  have h1 := C16_increasing wide nCells hN cells hs hlt
  have h2 := nthRows_eq first nOwned ((List.range nLocal).map (fun j => i * nLocal + j)) (by
    intro k hk
    simp only [List.mem_map, List.mem_range] at hk
    obtain ⟨j, hj, rfl⟩ := hk
    exact hrow j hj)
  rw [apWorker, Outcome.get_eq hi, Outcome.ok_bind, h1, Outcome.ok_bind]
  cases cells with
  | nil => exact absurd rfl hne
  | cons c cs =>
    simp only [h2, Outcome.ok_bind, Outcome.pure_eq]
    rfl

theorem apWorker_empty (wide : Bool) (nCells : ℕ) (pe : PatchEval K)
    (V delta : Entries K) (first nOwned nLocal : ℕ) (halo : Bool) (patches : List (List ℕ)) (i : ℕ)
    (copy : APCopy K) (hi : patches[i]? = some []) :
    apWorker wide nCells pe V delta first nOwned nLocal halo patches i () copy = .ok ((), copy) := by
  rw [apWorker, Outcome.get_eq hi]
  rfl

/-- Contribution of one patch to an entry of the correction matrix. -/
theorem apCopier_result (D : Disc K) (hD : D.Sound) (pe : PatchEval K) (hpe : pe.Faithful D)
    (V delta : Entries K) (first nLocal : ℕ) (halo : Bool) (i : ℕ) (cells : List ℕ)
    (hs : cells.Pairwise (· < ·)) (hlt : ∀ c ∈ cells, c < D.nCells) (M : Entries K) (r x : ℕ) :
    apCopier (apResult pe V delta first nLocal halo i cells) M r x
      = M r x + if first + i * nLocal ≤ r ∧ r < first + (i + 1) * nLocal then
          ∑ c ∈ cells.toFinset, ∑ y ∈ range D.nDofs,
            D.cellMat c x y * (if halo then delta r y + V r y else delta r y)
        else 0 := by
  rw [apResult, apCopier_apply _ _ _ ?_ (hpe cells hs hlt).1 ?_]
  · have hmem : r ∈ ((List.range nLocal).map (fun j => i * nLocal + j)).map (fun k => first + k) ↔
        first + i * nLocal ≤ r ∧ r < first + (i + 1) * nLocal := by
      simp only [List.map_map, List.mem_map, List.mem_range, Function.comp, Nat.add_mul,
        Nat.one_mul]
      constructor
      · rintro ⟨j, hj, rfl⟩; omega
      · rintro ⟨h1, h2⟩; exact ⟨r - (first + i * nLocal), by omega, by omega⟩
    by_cases h : first + i * nLocal ≤ r ∧ r < first + (i + 1) * nLocal
    · rw [if_pos (hmem.2 h), if_pos h,
        patch_product D hD pe hpe cells hs hlt (fun y => if halo then delta r y + V r y else delta r y)]
    · rw [if_neg (fun h' => h (hmem.1 h')), if_neg h]
  · rw [List.map_map]
    exact (List.nodup_range).map (fun a b h => by simpa using h)
  · intro r _; simp

/-- The correction after one WorkStream over patches that are all non-empty. -/
theorem fold_results (D : Disc K) (hD : D.Sound) (pe : PatchEval K) (hpe : pe.Faithful D)
    (V delta : Entries K) (first nLocal : ℕ) (halo : Bool) (patch : ℕ → List ℕ) (n : ℕ)
    (hs : ∀ i, i < n → (patch i).Pairwise (· < ·)) (hlt : ∀ i, i < n → ∀ c ∈ patch i, c < D.nCells)
    (M : Entries K) (i j : ℕ) (hj : j < nLocal) (x : ℕ) :
    (List.range n).foldl
        (fun M i => apCopier (apResult pe V delta first nLocal halo i (patch i)) M) M
        (first + i * nLocal + j) x
      = M (first + i * nLocal + j) x + if i < n then
          ∑ c ∈ (patch i).toFinset, ∑ y ∈ range D.nDofs, D.cellMat c x y *
            (if halo then delta (first + i * nLocal + j) y + V (first + i * nLocal + j) y
              else delta (first + i * nLocal + j) y)
        else 0 := by
  induction n with
  | zero => simp
  | succ n ih =>
    rw [List.range_succ, List.foldl_append, List.foldl_cons, List.foldl_nil,
      apCopier_result D hD pe hpe V delta first nLocal halo n (patch n) (hs n (by omega))
        (hlt n (by omega)),
      ih (fun i hi => hs i (by omega)) (fun i hi => hlt i (by omega))]
    have hiff : (first + n * nLocal ≤ first + i * nLocal + j ∧
        first + i * nLocal + j < first + (n + 1) * nLocal) ↔ i = n := by
      constructor
      · rintro ⟨h1, h2⟩
        rcases Nat.lt_trichotomy i n with h | h | h
        · have := Nat.mul_le_mul_right nLocal h
          rw [Nat.succ_mul] at this; omega
        · exact h
        · have := Nat.mul_le_mul_right nLocal h
          rw [Nat.succ_mul] at this; rw [Nat.succ_mul] at h2; omega
      · rintro rfl; rw [Nat.succ_mul]; omega
    by_cases h : i = n
    · subst h; rw [if_neg (Nat.lt_irrefl _), if_pos (hiff.2 rfl), if_pos (Nat.lt_succ_self _)]; ring
    · rw [if_neg (fun h' => h (hiff.1 h'))]
      by_cases h' : i < n
      · rw [if_pos h', if_pos (by omega)]; ring
      · rw [if_neg h', if_neg (by omega)]; ring

/-- One stream over patches that are all non-empty, under any legal schedule. -/
theorem stream_nonempty (wide : Bool) (D : Disc K) (hN : D.nCells ≤ 2 ^ 31) (hD : D.Sound)
    (pe : PatchEval K) (hpe : pe.Faithful D) (V delta : Entries K) (first nOwned nLocal n : ℕ)
    (hOwn : n * nLocal = nOwned) (halo : Bool) (patches : List (List ℕ)) (patch : ℕ → List ℕ)
    (hp : ∀ i, i < n → patches[i]? = some (patch i)) (hne : ∀ i, i < n → patch i ≠ [])
    (hs : ∀ i, i < n → (patch i).Pairwise (· < ·)) (hlt : ∀ i, i < n → ∀ c ∈ patch i, c < D.nCells)
    (es : List WSEvent) (hes : LegalSchedule n es) (st : WS Unit (APCopy K) (Entries K)) :
    ∃ st', wsRun (apWorker wide D.nCells pe V delta first nOwned nLocal halo patches) apCopier es st
        = .ok st' ∧
      ∀ i j x, i < n → j < nLocal → st'.out (first + i * nLocal + j) x
        = st.out (first + i * nLocal + j) x
          + ∑ c ∈ (patch i).toFinset, ∑ y ∈ range D.nDofs, D.cellMat c x y *
            (if halo then delta (first + i * nLocal + j) y + V (first + i * nLocal + j) y
              else delta (first + i * nLocal + j) y) := by
  obtain ⟨st', h1, h2⟩ := wsRun_schedule
    (apWorker wide D.nCells pe V delta first nOwned nLocal halo patches) apCopier n
    (fun _ => True) (fun _ => True) (fun i => apResult pe V delta first nLocal halo i (patch i))
    (by
      rintro i s c hi - -
      refine ⟨(), trivial, apWorker_nonempty wide D.nCells hN pe V delta first nOwned nLocal halo
        patches i c (patch i) (hp i hi) (hne i hi) (hs i hi) (hlt i hi) ?_⟩
      intro j hj
      have := Nat.mul_le_mul_right nLocal (show i + 1 ≤ n from hi)
      rw [Nat.succ_mul] at this
      omega)
    (fun _ _ => trivial) es hes st (fun _ => trivial) (fun _ => trivial)
  refine ⟨st', h1, ?_⟩
  intro i j x hi hj
  rw [h2, fold_results D hD pe hpe V delta first nLocal halo patch n hs hlt st.out i j hj x,
    if_pos hi]

/-- One stream over patches that are all empty, with fresh copy objects: nothing is added. -/
theorem stream_empty (wide : Bool) (nCells : ℕ) (pe : PatchEval K) (V delta : Entries K)
    (first nOwned nLocal n : ℕ) (halo : Bool) (patches : List (List ℕ))
    (hp : ∀ i, i < n → patches[i]? = some [])
    (es : List WSEvent) (hes : LegalSchedule n es) (st : WS Unit (APCopy K) (Entries K))
    (hst : ∀ c, st.copies c = ⟨[], [], []⟩) :
    ∃ st', wsRun (apWorker wide nCells pe V delta first nOwned nLocal halo patches) apCopier es st
        = .ok st' ∧ st'.out = st.out := by
  obtain ⟨st', h1, h2⟩ := wsRun_schedule
    (apWorker wide nCells pe V delta first nOwned nLocal halo patches) apCopier n
    (fun _ => True) (fun c => c = ⟨[], [], []⟩) (fun _ => ⟨[], [], []⟩)
    (by
      rintro i s c hi - rfl
      exact ⟨(), trivial, apWorker_empty _ _ _ _ _ _ _ _ _ _ _ _ (hp i hi)⟩)
    (fun _ _ => rfl) es hes st (fun _ => trivial) hst
  refine ⟨st', h1, ?_⟩
  rw [h2]
  clear h1 h2 hp hes
  induction n with
  | zero => rfl
  | succ n ih => rw [List.range_succ, List.foldl_append, ih]; rfl

end

end Mfmg
