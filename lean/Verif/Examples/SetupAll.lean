import Verif.Examples.Mesh
import Verif.Examples.Chain
import Verif.Lemmas.SetupAll
import Mathlib.Tactic.FinCases

/-!
# Example: four cells in a row on one process, in blocks of two
-/

set_option autoImplicit false

namespace Mfmg

open Finset

/-- The four cells as the graph partitioners see them. -/
def row4 : GraphMesh where
  nCells := 4
  owned := (gridMesh 4 1).owned
  key c := (0, c)
  faces c := match c with
    | 0 => [(true, false, (0, 1))]
    | 1 => [(true, false, (0, 0)), (true, false, (0, 2))]
    | 2 => [(true, false, (0, 1)), (true, false, (0, 3))]
    | 3 => [(true, false, (0, 2))]
    | _ => []

theorem row4_sound : row4.Sound := by
  refine ⟨?_, ?_⟩
  · intro c d _ _ _ _ h
    simpa [row4] using h
  · intro c k hc ho h
    have hc' : c < 4 := hc
    have : c = 0 ∨ c = 1 ∨ c = 2 ∨ c = 3 := by omega
    rcases this with rfl | rfl | rfl | rfl
    · simp [row4] at h
      exact ⟨1, by decide, by decide, h.symm⟩
    · simp [row4] at h
      rcases h with h | h
      · exact ⟨0, by decide, by decide, h.symm⟩
      · exact ⟨2, by decide, by decide, h.symm⟩
    · simp [row4] at h
      rcases h with h | h
      · exact ⟨1, by decide, by decide, h.symm⟩
      · exact ⟨3, by decide, by decide, h.symm⟩
    · simp [row4] at h
      exact ⟨2, by decide, by decide, h.symm⟩

/-- The dofs of a patch: cell `c` has the dofs `c` and `c + 1`. -/
def rowDofs (cells : List ℕ) : List ℕ := (cells.flatMap fun c => [c, c + 1]).dedup

/-- The process, with given cell matrices and an eigensolver that keeps the constant with eigenvalue `l`. -/
def rowFem (mat : ℕ → ℕ → ℕ → ℚ) (l : ℚ) : ProcFem ℚ where
  share :=
    { mesh := gridMesh 4 1
      graph := row4
      partition := fun _ _ _ => [5, 5, 3, 3]
      solver := fun cells _ _ => .ok
        { eigenvalues := [l]
          eigenvectors := [(rowDofs cells).map fun _ => 1]
          diag := (rowDofs cells).map fun x => (cells.map fun d => mat d x x).sum
          dofMap := rowDofs cells }
      unsolved := fun _ => ⟨[], [], [], []⟩
      schedule := wsSequential }
  cellDofs c := [c, c + 1]
  cellMat := mat

theorem rowFem_sound (mat : ℕ → ℕ → ℕ → ℚ) (l : ℚ) : (rowFem mat l).share.Sound true where
  nCells := rfl
  owned := rfl
  graph := row4_sound
  forward := (gridMesh_box (by decide)).forward
  uniform := fun _ _ _ _ _ _ => rfl
  partition := fun _ _ _ => rfl
  schedule := wsSequential_legal

theorem rowFem_faithful (mat : ℕ → ℕ → ℕ → ℚ) (l : ℚ)
    (h : ∀ c x y, mat c x y ≠ 0 → x ∈ [c, c + 1] ∧ y ∈ [c, c + 1]) : (rowFem mat l).Faithful "lanczos" where
  support := h
  solves := by
    intro cells _ _ _
    refine ⟨_, rfl, ⟨List.nodup_dedup _, by simp, by simp⟩, ?_, ?_⟩
    · intro x
      simp [rowFem, rowDofs]
    · intro x hx
      have gen : ∀ (f : ℕ → ℚ) (ds : List ℕ), ds.Nodup → x ∈ ds → extend ds (ds.map f) x = f x := by
        intro f ds
        induction ds with
        | nil => simp
        | cons d ds ih =>
          intro hn hx
          rw [List.map_cons, extend_cons]
          obtain ⟨h1, h2⟩ := List.nodup_cons.1 hn
          rcases List.mem_cons.1 hx with rfl | hx2
          · simp
          · rw [if_neg (by rintro rfl; exact h1 hx2)]
            exact ih h2 hx2
      exact gen _ _ (List.nodup_dedup _) hx

/-- The two agglomerates. -/
theorem rowFem_blocks (mat : ℕ → ℕ → ℕ → ℚ) (l : ℚ) (u : UserIndex) (count : ℕ)
    (h : (rowFem mat l).share.agglomerate true 2 (.block 2 1 1) (fun _ => 0) = .ok (u, count)) :
    count = 2 ∧ u 0 = 1 ∧ u 1 = 1 ∧ u 2 = 2 ∧ u 3 = 2 := by
  have h' : buildAgglomeratesBlock (gridMesh 4 1) true 2 2 1 1 (fun _ => 0) = .ok (u, count) := h
  have e : ∃ v, buildAgglomeratesBlock (gridMesh 4 1) true 2 2 1 1 (fun _ => 0) = .ok (v, 2) ∧
      v 0 = 1 ∧ v 1 = 1 ∧ v 2 = 2 ∧ v 3 = 2 := ⟨_, rfl, rfl, rfl, rfl, rfl⟩
  obtain ⟨v, e1, e2⟩ := e
  rw [e1] at h'
  cases h'
  exact ⟨rfl, e2⟩

/-- The kept data of the agglomerate with the cells `2 k` and `2 k + 1`. -/
def rowCopy (mat : ℕ → ℕ → ℕ → ℚ) (l : ℚ) (k : ℕ) : CopyData ℚ where
  eigenvalues := [l]
  eigenvectors := [[1, 1, 1]]
  diag := [2 * k, 2 * k + 1, 2 * k + 2].map fun x => mat (2 * k) x x + mat (2 * k + 1) x x
  dofMap := [2 * k, 2 * k + 1, 2 * k + 2]

theorem rowFem_cells (mat : ℕ → ℕ → ℕ → ℚ) (l : ℚ) (u : UserIndex)
    (hu : u 0 = 1 ∧ u 1 = 1 ∧ u 2 = 2 ∧ u 3 = 2) (k : ℕ) (hk : k < 2) :
    (rowFem mat l).aggCells u k = {2 * k, 2 * k + 1} := by
  obtain ⟨h0, h1, h2, h3⟩ := hu
  ext d
  have : k = 0 ∨ k = 1 := by omega
  simp only [ProcFem.aggCells, rowFem, gridMesh, mem_filter, mem_range, mem_insert, mem_singleton]
  constructor
  · rintro ⟨hd, hdu⟩
    have : d = 0 ∨ d = 1 ∨ d = 2 ∨ d = 3 := by omega
    rcases this with rfl | rfl | rfl | rfl <;> omega
  · rintro (rfl | rfl) <;> rcases this with rfl | rfl <;> simp [h0, h1, h2, h3]

theorem rowFem_copy (mat : ℕ → ℕ → ℕ → ℚ) (l : ℚ) (k : ℕ) (hk : k < 2) :
    (rowFem mat l).share.solver (({2 * k, 2 * k + 1} : Finset ℕ).sort (· ≤ ·)) "lanczos" []
      = .ok (rowCopy mat l k) := by
  have h : k = 0 ∨ k = 1 := by omega
  have hlist : ({2 * k, 2 * k + 1} : Finset ℕ).sort (· ≤ ·) = [2 * k, 2 * k + 1] := by
    have hset : ({2 * k, 2 * k + 1} : Finset ℕ) = [2 * k, 2 * k + 1].toFinset := by simp
    rw [hset, List.toFinset_sort _ (by simp)]
    simp
  rw [hlist]
  have d0 : rowDofs [0, 1] = [0, 1, 2] := by decide
  have d1 : rowDofs [2, 3] = [2, 3, 4] := by decide
  rcases h with rfl | rfl
  · simp [rowCopy, rowFem, d0]
  · simp [rowCopy, rowFem, d1]

theorem rowFem_solved (mat : ℕ → ℕ → ℕ → ℚ) (l om : ℚ) (hom : 0 < om)
    (h : ∀ k, k < 2 → AggData.Solved (⟨rowCopy mat l k,
      (rowFem mat l).patchMatrix 5 {2 * k, 2 * k + 1}, om⟩ : AggData 5 ℚ)) :
    (rowFem mat l).SolvedExactly true 2 (.block 2 1 1) 5 "lanczos" fun _ => om := by
  intro u count hu k hk c hc
  obtain ⟨rfl, hu'⟩ := rowFem_blocks mat l u count hu
  refine ⟨hom, ?_⟩
  rw [rowFem_cells mat l u hu' k hk] at hc ⊢
  rw [rowFem_copy mat l k hk] at hc
  rw [← Outcome.ok.inj hc]
  exact h k hk

/-- The Laplacian. -/
def lapMat (c x y : ℕ) : ℚ :=
  if x = c ∧ y = c ∨ x = c + 1 ∧ y = c + 1 then 1
  else if x = c ∧ y = c + 1 ∨ x = c + 1 ∧ y = c then -1 else 0

theorem lapMat_support (c x y : ℕ) (h : lapMat c x y ≠ 0) : x ∈ [c, c + 1] ∧ y ∈ [c, c + 1] := by
  unfold lapMat at h
  simp only [List.mem_cons, List.not_mem_nil, or_false]
  split_ifs at h with h1 h2
  · omega
  · omega
  · exact absurd rfl h

theorem lap_solved (k : ℕ) (hk : k < 2) : AggData.Solved (⟨rowCopy lapMat 0 k,
    (rowFem lapMat 0).patchMatrix 5 {2 * k, 2 * k + 1}, 1⟩ : AggData 5 ℚ) := by
  have : k = 0 ∨ k = 1 := by omega
  rcases this with rfl | rfl
  · have hm : (rowFem lapMat 0).patchMatrix 5 {2 * 0, 2 * 0 + 1}
        = !![1, -1, 0, 0, 0; -1, 2, -1, 0, 0; 0, -1, 1, 0, 0; 0, 0, 0, 0, 0; 0, 0, 0, 0, 0] := by
      decide +kernel
    have hv : globalVec 5 (rowCopy lapMat 0 0) [1, 1, 1] = ![1, 1, 1, 0, 0] := by decide +kernel
    refine ⟨?_, ?_, ?_, ?_, ?_, ?_, ?_⟩
    · intro i j h
      have he : (rowFem lapMat 0).patchMatrix 5 {2 * 0, 2 * 0 + 1} = Matrix.of fun i j =>
          if i.val ∈ [0, 1, 2] ∧ j.val ∈ [0, 1, 2] then (rowFem lapMat 0).patchMatrix 5 {2 * 0, 2 * 0 + 1} i j
          else 0 := by
        decide +kernel
      by_contra hn
      apply h
      dsimp only at hn ⊢
      rw [he]
      exact if_neg hn
    · rw [hm]; decide +kernel
    · intro v
      simp only [hm, Matrix.mulVec, dotProduct, Fin.sum_univ_five]
      simp
      nlinarith [sq_nonneg (v 0 - v 1), sq_nonneg (v 1 - v 2)]
    · decide +kernel
    · intro v hv'
      simp only [rowCopy, List.mem_singleton] at hv'
      subst hv'
      refine ⟨0, ?_⟩
      rw [hv, hm]
      decide +kernel
    · simp [rowCopy]
    · intro w hw ho
      have h3 : w 3 = 0 := by by_contra h; have := hw 3 h; revert this; decide
      have h4 : w 4 = 0 := by by_contra h; have := hw 4 h; revert this; decide
      have h5 := ho [1, 1, 1] (by simp [rowCopy])
      rw [hv] at h5
      simp only [dotProduct, Fin.sum_univ_five] at h5
      simp at h5
      simp only [hm, Matrix.mulVec, dotProduct, Fin.sum_univ_five]
      simp [h3, h4]
      have : w 1 = - w 0 - w 2 := by linarith
      rw [this]
      nlinarith [sq_nonneg (w 0 + w 2), sq_nonneg (w 0 - w 2)]
  · have hm : (rowFem lapMat 0).patchMatrix 5 {2 * 1, 2 * 1 + 1}
        = !![0, 0, 0, 0, 0; 0, 0, 0, 0, 0; 0, 0, 1, -1, 0; 0, 0, -1, 2, -1; 0, 0, 0, -1, 1] := by
      decide +kernel
    have hv : globalVec 5 (rowCopy lapMat 0 1) [1, 1, 1] = ![0, 0, 1, 1, 1] := by decide +kernel
    refine ⟨?_, ?_, ?_, ?_, ?_, ?_, ?_⟩
    · intro i j h
      have he : (rowFem lapMat 0).patchMatrix 5 {2 * 1, 2 * 1 + 1} = Matrix.of fun i j =>
          if i.val ∈ [2, 3, 4] ∧ j.val ∈ [2, 3, 4] then (rowFem lapMat 0).patchMatrix 5 {2 * 1, 2 * 1 + 1} i j
          else 0 := by
        decide +kernel
      by_contra hn
      apply h
      dsimp only at hn ⊢
      rw [he]
      exact if_neg hn
    · rw [hm]; decide +kernel
    · intro v
      simp only [hm, Matrix.mulVec, dotProduct, Fin.sum_univ_five]
      simp
      nlinarith [sq_nonneg (v 2 - v 3), sq_nonneg (v 3 - v 4)]
    · decide +kernel
    · intro v hv'
      simp only [rowCopy, List.mem_singleton] at hv'
      subst hv'
      refine ⟨0, ?_⟩
      rw [hv, hm]
      decide +kernel
    · simp [rowCopy]
    · intro w hw ho
      have h3 : w 0 = 0 := by by_contra h; have := hw 0 h; revert this; decide
      have h4 : w 1 = 0 := by by_contra h; have := hw 1 h; revert this; decide
      have h5 := ho [1, 1, 1] (by simp [rowCopy])
      rw [hv] at h5
      simp only [dotProduct, Fin.sum_univ_five] at h5
      simp at h5
      simp only [hm, Matrix.mulVec, dotProduct, Fin.sum_univ_five]
      simp [h3, h4]
      have : w 3 = - w 2 - w 4 := by linarith
      rw [this]
      nlinarith [sq_nonneg (w 2 + w 4), sq_nonneg (w 2 - w 4)]

/-- Diffusion with reaction, as in the chain of `Verif.Examples.Chain`. -/
def reactMat (c x y : ℕ) : ℚ :=
  if x = c ∧ y = c ∨ x = c + 1 ∧ y = c + 1 then if x % 2 = 1 then 3 / 2 else 2
  else if x = c ∧ y = c + 1 ∨ x = c + 1 ∧ y = c then -1 else 0

theorem reactMat_support (c x y : ℕ) (h : reactMat c x y ≠ 0) : x ∈ [c, c + 1] ∧ y ∈ [c, c + 1] := by
  unfold reactMat at h
  simp only [List.mem_cons, List.not_mem_nil, or_false]
  split_ifs at h with h1 h2 h3
  · omega
  · omega
  · omega
  · exact absurd rfl h

theorem react_agg (k : Fin 2) : (⟨rowCopy reactMat 1 k.val,
    (rowFem reactMat 1).patchMatrix 5 {2 * k.val, 2 * k.val + 1}, 2⟩ : AggData 5 ℚ) = chainAgg 2 k := by
  have h : (rowFem reactMat 1).patchMatrix 5 {2 * k.val, 2 * k.val + 1} = (chainAgg (K := ℚ) 2 k).matrix := by
    revert k
    decide +kernel
  have h' : rowCopy reactMat 1 k.val = chainCopy k.val := by
    have h3 : rowCopy reactMat 1 k.val = ⟨[1], [[1, 1, 1]], (rowCopy reactMat 1 k.val).diag,
      [2 * k.val, 2 * k.val + 1, 2 * k.val + 2]⟩ := rfl
    have h4 : (rowCopy reactMat 1 k.val).diag = [2, 3, 2] := by
      clear h h3
      revert k
      decide +kernel
    rw [h3, h4]
    rfl
  rw [h, h']
  rfl

theorem react_matrix : (rowFem reactMat 1).patchMatrix 5 (rowFem reactMat 1).ownCells
    = chainSum (K := ℚ) 2 := by
  have : (rowFem reactMat 1).patchMatrix 5 (rowFem reactMat 1).ownCells
      = Matrix.of fun i j => ((List.finRange 2).map fun k => (chainAgg (K := ℚ) 2 k).matrix i j).sum := by
    decide +kernel
  rw [this]
  ext i j
  exact (chain_entry 2 i j).symm

theorem react_solved (k : ℕ) (hk : k < 2) : AggData.Solved (⟨rowCopy reactMat 1 k,
    (rowFem reactMat 1).patchMatrix 5 {2 * k, 2 * k + 1}, 2⟩ : AggData 5 ℚ) := by
  have := react_agg ⟨k, hk⟩
  dsimp only at this
  rw [this]
  exact chain_solved 2 ⟨k, hk⟩

end Mfmg
