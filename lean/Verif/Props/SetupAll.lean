import Verif.Examples.SetupAll
import Verif.Props.TwoLevel

/-!
# C80: the whole set-up, from the mesh to the restriction matrix
-/

set_option autoImplicit false

namespace Mfmg

section

variable {K : Type} [Field K]

/-- **C80**, set-up: on any number of processes, with any of the three partitioners, any local eigensolver, any
thread schedule, fresh meshes and the diagonal of the global matrix, the set-up succeeds.  Every cell of a process
is in exactly one of its agglomerates, no agglomerate is empty, cells of other processes are in none.  The matrices
of the agglomerates add up to the global matrix.  At every dof with nonzero global diagonal the weights of the
agglomerates add up to one, and any vector that is on each agglomerate a combination of its local vectors is the
same combination of the rows of the restriction matrix. -/
theorem C80_setup (debug dynAdds matrixFree : Bool) (dim : ℕ) (ap : AggParams) (strat : Strategy)
    (hap : dispatch dim ap = .ok strat) (ep : EigParams) (name : String) (hep : Selects matrixFree ep name)
    (procs : List (ProcFem K)) (hs : ∀ q ∈ procs, q.share.Sound debug) (hq : ∀ q ∈ procs, q.Faithful name)
    (gdiag : ℕ → K) (hg : ∀ x, gdiag x = globalEntry procs x x) :
    ∃ (rs : List (UserIndex × List (CopyData K))) (a : Assembled K),
      setupRestrictor debug dynAdds matrixFree dim ap ep gdiag (procs.map fun q => (q.share, fun _ => 0))
        = .ok (rs.map Prod.fst, a) ∧
      List.Forall₂ (fun q r => q.Result name r.1 r.2) procs rs ∧
      (∀ n omitted, ((allAggs n omitted (procs.zip rs)).map AggData.matrix).sum
        = Matrix.of fun i j : Fin n => globalEntry procs i.val j.val) ∧
      ∀ x, gdiag x ≠ 0 →
        ((rs.map Prod.snd).flatten.map fun c => extend c.dofMap c.diag x / gdiag x).sum = 1 ∧
        ∀ (w : ℕ → K) (ys : List (List K)), List.Forall₂ (Combines w) (rs.map Prod.snd).flatten ys →
          ∑ p ∈ Finset.range ys.flatten.length, ys.flatten.getD p 0 * a.R p x = w x := by
  obtain ⟨rs, h1, h2⟩ := setupShares_spec hap hep procs hs hq
  obtain ⟨a, h3, h4⟩ := C20_partition_of_unity debug dynAdds gdiag (rs.map Prod.snd) (setup_wf h2)
  rw [List.map_map] at h3
  refine ⟨rs, a, ?_, h2.imp fun _ _ h => h.1, setup_matrix h2, ?_⟩
  · simp only [setupRestrictor, h1, Outcome.ok_bind]
    rw [show (rs.map fun r => collect r.2) = rs.map (collect ∘ Prod.snd) from rfl, h3]
    rfl
  · intro x hx
    exact h4 x hx (by rw [DiagSums, setup_diag h2, hg])

/-- The process of the example with the Laplacian, blocks of two cells. -/
example (gdiag : ℕ → ℚ) (hg : ∀ x, gdiag x = globalEntry [rowFem lapMat 0] x x) :=
  C80_setup true false false 2 ⟨some "Block", none, some 2, some 1, none⟩ (.block 2 1 1) (by decide +kernel)
    ⟨some "lanczos", false⟩ "lanczos" ⟨rfl, Or.inl rfl, by simp⟩ [rowFem lapMat 0]
    (by simpa using rowFem_sound lapMat 0) (by simpa using rowFem_faithful lapMat 0 lapMat_support) gdiag hg

/-- The same with a graph partitioner. -/
example (gdiag : ℕ → ℚ) (hg : ∀ x, gdiag x = globalEntry [rowFem lapMat 0] x x) :=
  C80_setup true false false 2 ⟨some "METIS", some 2, none, none, none⟩ (.graph "metis" 2) (by decide +kernel)
    ⟨some "lanczos", true⟩ "lanczos" ⟨rfl, Or.inl rfl, by simp⟩ [rowFem lapMat 0]
    (by simpa using rowFem_sound lapMat 0) (by simpa using rowFem_faithful lapMat 0 lapMat_support) gdiag hg

/-! ## A second set-up on the same mesh -/

/-- **C80**, full statement about a second set-up: with the same parameters, on the meshes as the first one left
them, it gives the same matrix. -/
def SecondSetupSame (debug dynAdds matrixFree : Bool) (dim : ℕ) (ap : AggParams) (ep : EigParams)
    (gdiag : ℕ → K) (shares : List (Share K)) : Prop :=
  ∀ us a, setupRestrictor debug dynAdds matrixFree dim ap ep gdiag (shares.map fun sh => (sh, fun _ => 0))
      = .ok (us, a) →
    setupRestrictor debug dynAdds matrixFree dim ap ep gdiag (shares.zip us) = .ok (us, a)

omit [Field K] in
theorem setupShares_second {debug matrixFree : Bool} {dim : ℕ} {ap ap' : AggParams} {ep : EigParams}
    (Q : Share K → Prop) (P : Collected K → Collected K → Prop)
    (hP : ∀ sh : Share K, Q sh → ∀ u u' col, sh.setup debug matrixFree dim ap ep u = .ok (u', col) →
      ∃ col', sh.setup debug matrixFree dim ap' ep u' = .ok (u', col') ∧ P col col')
    (l : List (Share K × UserIndex)) (hl : ∀ q ∈ l, Q q.1) (us : List UserIndex) (cols : List (Collected K))
    (h : setupShares debug matrixFree dim ap ep l = .ok (us, cols)) :
    ∃ cols', setupShares debug matrixFree dim ap' ep ((l.map Prod.fst).zip us) = .ok (us, cols') ∧
      List.Forall₂ P cols cols' := by
  induction l generalizing us cols with
  | nil =>
    cases h
    exact ⟨[], rfl, .nil⟩
  | cons q l ih =>
    obtain ⟨sh, u⟩ := q
    simp only [setupShares, Outcome.bind_eq_ok] at h
    obtain ⟨⟨u', col⟩, h1, ⟨us', cols'⟩, h2, h3⟩ := h
    cases h3
    obtain ⟨cols'', h4, h5⟩ := ih (fun q hq => hl q (List.mem_cons_of_mem _ hq)) us' cols' h2
    obtain ⟨col', h9, h10⟩ := hP sh (hl (sh, u) List.mem_cons_self) u _ _ h1
    refine ⟨col' :: cols'', ?_, .cons h10 h5⟩
    simp only [List.map_cons, List.zip_cons_cons, setupShares, h9, h4, Outcome.ok_bind, Outcome.pure_eq]

/-- **C80**, second set-up, violated: with the block partitioner every second set-up on the same meshes, with any
block sizes, succeeds with a restriction matrix without entries: no process has an agglomerate.  (The partitioner
skips the cells marked by the first set-up, and nothing removes the marks.) -/
theorem C80_second_setup_violated (debug dynAdds matrixFree : Bool) (dim : ℕ) (ap ap' : AggParams)
    (nx ny nz nx' ny' nz' : ℕ) (hap : dispatch dim ap = .ok (.block nx ny nz))
    (hap' : dispatch dim ap' = .ok (.block nx' ny' nz')) (ep : EigParams)
    (hep : ¬ (ep.type = some "anasazi" ∧ ep.useInitialGuess = true)) (gdiag : ℕ → K)
    (l : List (Share K × UserIndex)) (hl : ∀ q ∈ l, ∀ n, LegalSchedule n (q.1.schedule n))
    (us : List UserIndex) (a : Assembled K)
    (h : setupRestrictor debug dynAdds matrixFree dim ap ep gdiag l = .ok (us, a)) :
    ∃ cols a', setupShares debug matrixFree dim ap' ep ((l.map Prod.fst).zip us) = .ok (us, cols) ∧
      (∀ c ∈ cols, c.nLocal = [] ∧ c.eigenvectors = []) ∧
      setupRestrictor debug dynAdds matrixFree dim ap' ep gdiag ((l.map Prod.fst).zip us) = .ok (us, a') ∧
      ∀ p x, a'.R p x = 0 := by
  simp only [setupRestrictor, Outcome.bind_eq_ok] at h
  obtain ⟨⟨us', cols⟩, h1, a0, h2, h3⟩ := h
  cases h3
  obtain ⟨cols', h4, h5⟩ := setupShares_second (ap' := ap')
    (fun sh : Share K => ∀ n, LegalSchedule n (sh.schedule n)) (fun _ c => c = collect [])
    (by
      intro sh hsh u u' col e1
      simp only [Share.setup, hap, Outcome.ok_bind, Outcome.bind_eq_ok] at e1
      obtain ⟨⟨v, n⟩, e2, c, _, e3⟩ := e1
      cases e3
      have e4 : sh.agglomerate debug dim (.block nx' ny' nz') v = .ok (v, 0) :=
        C13_block_rerun_violated sh.mesh debug dim nx ny nz u v n e2 debug nx' ny' nz'
      refine ⟨_, ?_, rfl⟩
      have e5 := (((C25_schedule_partial debug matrixFree ep
        (fun i => sh.solver (patchCellsById sh.mesh.nCells v (i + 1)))
        (fun i => sh.unsolved (patchCellsById sh.mesh.nCells v (i + 1))) 0 hep).2
        (sh.schedule 0) (hsh 0)) (collect [])).2 ⟨fun _ => ⟨[], [], [], []⟩, by simp, rfl⟩
      simp only [Share.setup, hap', e4, e5, Outcome.ok_bind, Outcome.pure_eq]) l hl _ cols h1
  have hall : ∀ {k k' : List (Collected K)}, List.Forall₂ (fun _ c => c = collect []) k k' →
      ∀ c ∈ k', c = collect [] := by
    intro k k' hk
    induction hk with
    | nil => simp
    | cons e _ ih =>
      intro c hc
      rcases List.mem_cons.1 hc with rfl | hc
      · exact e
      · exact ih c hc
  have h6 : cols' = (List.replicate cols'.length ([] : List (CopyData K))).map collect := by
    rw [List.map_replicate, List.eq_replicate_iff]
    exact ⟨rfl, hall h5⟩
  have h7 : ∀ m, (List.replicate m ([] : List (CopyData K))).flatten = [] := by
    intro m
    simp
  obtain ⟨a', h8, -, h9⟩ := C20_rows debug dynAdds gdiag (List.replicate cols'.length ([] : List (CopyData K)))
    (by
      intro cs hcs c hc
      rw [(List.mem_replicate.1 hcs).2] at hc
      simp at hc)
  rw [← h6] at h8
  refine ⟨cols', a', h4, ?_, ?_, ?_⟩
  · intro c hc
    rw [hall h5 c hc]
    exact ⟨rfl, rfl⟩
  · simp only [setupRestrictor, h4, Outcome.ok_bind, h8, Outcome.pure_eq]
  · intro p x
    exact h9 p (by rw [h7]; exact Nat.zero_le _) x

/-- **C80**, second set-up, the part that holds: with a graph partitioner the second set-up gives the same
matrix.  Missing: the block partitioner, for which this is false. -/
theorem C80_second_setup_partial (debug dynAdds matrixFree : Bool) (dim : ℕ) (ap : AggParams) (t : String) (nd : ℕ)
    (hap : dispatch dim ap = .ok (.graph t nd)) (ep : EigParams) (gdiag : ℕ → K) (shares : List (Share K))
    (hs : ∀ sh ∈ shares, sh.Sound debug) :
    SecondSetupSame debug dynAdds matrixFree dim ap ep gdiag shares := by
  intro us a h
  simp only [setupRestrictor, Outcome.bind_eq_ok] at h
  obtain ⟨⟨us', cols⟩, h1, a0, h2, h3⟩ := h
  cases h3
  obtain ⟨cols', h4, h5⟩ := setupShares_second (ap' := ap) (Share.Sound debug) (fun c c' => c = c')
    (by
      intro sh hsh u u' col e1
      have e0 := e1
      simp only [Share.setup, hap, Outcome.ok_bind, Outcome.bind_eq_ok] at e1
      obtain ⟨⟨v, n⟩, e2, c, e3, e4⟩ := e1
      cases e4
      obtain ⟨u1, n1, e5, e6⟩ := C13_partitioner_rerun_partial sh.graph hsh.graph (sh.partition t) nd
        (fun g => by rw [hsh.partition, hsh.nCells]) u
      have e7 : (v, n) = (u1, n1) := Outcome.ok.inj (e2.symm.trans e5)
      cases e7
      have e8 : sh.agglomerate debug dim (.graph t nd) v = .ok (v, n) := e6
      refine ⟨_, ?_, rfl⟩
      simp only [Share.setup, hap, e8, Outcome.ok_bind]
      rw [e3]
      rfl)
    (shares.map fun sh => (sh, fun _ => 0))
    (by
      intro q hq
      obtain ⟨sh, hsh, rfl⟩ := List.mem_map.1 hq
      exact hs sh hsh) _ cols h1
  rw [List.forall₂_eq_eq_eq] at h5
  subst h5
  have hm : (shares.map fun sh => ((sh, fun _ => 0) : Share K × UserIndex)).map Prod.fst = shares := by
    simp [Function.comp_def]
  rw [hm] at h4
  simp only [setupRestrictor, h4, Outcome.ok_bind]
  rw [h2]
  rfl

/-- The first set-up of the example has rows, the second has none. -/
example : ∃ us a, setupRestrictor true false false 2 ⟨some "block", none, some 2, some 1, none⟩
      ⟨some "lanczos", false⟩ (fun _ => 1) [((rowFem lapMat 0).share, fun _ => 0)] = .ok (us, a) ∧
    a.R 1 3 = 2 := by
  refine ⟨_, _, rfl, ?_⟩
  decide +kernel

end

section

variable {K : Type} [Field K] [LinearOrder K] [IsStrictOrderedRing K]

/-- **C80**, coarse space: if moreover the eigenproblems are solved correctly and only eigenvectors with positive
eigenvalues are left out, then for every vector `w` there is one coarse vector whose prolongation agrees with `w`
at each dof with nonzero diagonal all of whose agglomerates have a matrix that annihilates `w` (constants away
from the boundary for the Laplacian, rigid body motions for elasticity). -/
theorem C80_nullspace (debug dynAdds matrixFree : Bool) (dim : ℕ) (ap : AggParams) (strat : Strategy)
    (hap : dispatch dim ap = .ok strat) (ep : EigParams) (name : String) (hep : Selects matrixFree ep name)
    (procs : List (ProcFem K)) (hs : ∀ q ∈ procs, q.share.Sound debug) (hq : ∀ q ∈ procs, q.Faithful name)
    (gdiag : ℕ → K) (hg : ∀ x, gdiag x = globalEntry procs x x) (n : ℕ)
    (omitted : ProcFem K → Finset ℕ → K)
    (hsol : ∀ q ∈ procs, q.SolvedExactly debug dim strat n name (omitted q)) :
    ∃ (rs : List (UserIndex × List (CopyData K))) (a : Assembled K),
      setupRestrictor debug dynAdds matrixFree dim ap ep gdiag (procs.map fun q => (q.share, fun _ => 0))
        = .ok (rs.map Prod.fst, a) ∧
      List.Forall₂ (fun q r => q.Result name r.1 r.2) procs rs ∧
      ∀ w : Fin n → K, ∃ y : Fin (rowsOf (rs.map Prod.snd).flatten).length → K, ∀ i : Fin n,
        gdiag i.val ≠ 0 →
        (∀ b ∈ allAggs n omitted (procs.zip rs), i.val ∈ b.copy.dofMap → b.matrix.mulVec w = 0) →
        (a.R.block (rowsOf (rs.map Prod.snd).flatten).length n).transpose.mulVec y i = w i := by
  obtain ⟨rs, h1, h2⟩ := setupShares_spec hap hep procs hs hq
  have hsolved := setup_solved h2 n omitted hsol
  have haggs := setup_flatten h2 n omitted
  obtain ⟨a, h3, h4⟩ := transpose_rows debug dynAdds gdiag (rs.map Prod.snd) (setup_wf h2) n
  rw [List.map_map] at h3
  refine ⟨rs, a, ?_, h2.imp fun _ _ h => h.1, ?_⟩
  · simp only [setupRestrictor, h1, Outcome.ok_bind]
    rw [show (rs.map fun r => collect r.2) = rs.map (collect ∘ Prod.snd) from rfl, h3]
    rfl
  · intro w
    obtain ⟨y, hy⟩ := coarse_combination gdiag (rs.map Prod.snd) n
      (allAggs n omitted (procs.zip rs)) haggs (fun b hb => (hsolved b hb).2) a h4 w
    refine ⟨fun p => y p.val, ?_⟩
    intro i hi hker
    rw [hy i]
    have hterm : ((allAggs n omitted (procs.zip rs)).map fun b =>
        b.matrix i i / gdiag i.val * projectOn (keptVecs n b.copy) w i)
        = (allAggs n omitted (procs.zip rs)).map fun b => b.matrix i i * (w i / gdiag i.val) := by
      apply List.map_congr_left
      intro b hb
      obtain ⟨hpos, hb'⟩ := hsolved b hb
      by_cases hmem : i.val ∈ b.copy.dofMap
      · have h0 := leftOver_bound b hb' w
        rw [hker b hb hmem, dotProduct_zero] at h0
        have h5 : 0 ≤ leftOver b.copy w ⬝ᵥ leftOver b.copy w :=
          Finset.sum_nonneg fun i _ => mul_self_nonneg _
        have h6 : leftOver b.copy w ⬝ᵥ leftOver b.copy w = 0 :=
          le_antisymm (by by_contra h; push Not at h; exact absurd h0 (not_le.2 (mul_pos hpos h))) h5
        have h7 := congrFun (dot_self_eq_zero' _ h6) i
        rw [leftOver, Pi.sub_apply, onAgg, if_pos hmem, Pi.zero_apply, sub_eq_zero] at h7
        rw [← h7]
        ring
      · have : b.matrix i i = 0 := by
          rw [← solved_diag b hb', extend_not_mem hmem]
        rw [this]
        ring
    rw [hterm, List.sum_map_mul_right]
    have h8 : ((allAggs n omitted (procs.zip rs)).map fun b => b.matrix i i).sum = gdiag i.val := by
      have := congrFun (congrFun (setup_matrix h2 n omitted) i) i
      rw [entry_sum_matrices, List.map_map, Matrix.of_apply, ← hg] at this
      exact this
    rw [h8, mul_div_cancel₀ _ hi]

/-- **C80**, rate: on one process the hypotheses of the rate of convergence of the two-level cycle (C77) on the
agglomerates follow from the set-up.  If the assembled matrix is symmetric and positive definite with at most `s`
entries per row, the agglomerates have nonzero diagonals, independent vectors on the dofs they do not share and
diagonals at most `kappa` times the eigenvalues left out, then the hierarchy built with the restriction matrix of
the set-up converges with the factor `1 - 1 / (s² kappa)` in the energy of the error. -/
theorem C80_rate (debug dynAdds timer matrixFree : Bool) (dim : ℕ) (ap : AggParams) (strat : Strategy)
    (hap : dispatch dim ap = .ok strat) (ep : EigParams) (name : String) (hep : Selects matrixFree ep name)
    (q : ProcFem K) (hs : q.share.Sound debug) (hq : q.Faithful name) (n : ℕ)
    (hn : ∀ c ∈ q.ownCells, ∀ x ∈ q.cellDofs c, x < n)
    (omitted : Finset ℕ → K) (hsol : q.SolvedExactly debug dim strat n name omitted)
    (gdiag : ℕ → K) (hg : ∀ x, gdiag x = globalEntry [q] x x)
    (hA : IsSpd (q.patchMatrix n q.ownCells)) (s : ℕ) (hsp : AtMostPerRow (q.patchMatrix n q.ownCells) s)
    (kappa : K) (hk : 0 < kappa) (hone : 1 ≤ (s : K) * s * kappa)
    (p : Params) (type : Option (List Char))
    (htype : dealiiSmoother debug true type = .ok .symmetricGaussSeidel ∨
      dealiiSmoother debug true type = .ok .gaussSeidel)
    (hlev : p.maxLevels.getD 2 = 2) (hfast : p.fastAp.getD false = false)
    (hpre : p.isPreconditioner = some false) (hsteps : 0 < toUnsigned (p.nSmoothingSteps.getD 1)) :
    ∃ (u : UserIndex) (cs : List (CopyData K)) (a : Assembled K),
      setupRestrictor debug dynAdds matrixFree dim ap ep gdiag [(q.share, fun _ => 0)] = .ok ([u], a) ∧
      q.Result name u cs ∧ q.share.agglomerate debug dim strat (fun _ => 0) = .ok (u, cs.length) ∧
      (OwnIndependent cs →
      (∀ k, k < cs.length → ∀ c ∈ q.aggCells u k, ∀ x ∈ q.cellDofs c,
        ∑ d ∈ q.aggCells u k, q.cellMat d x x ≠ 0 ∧
        ∑ d ∈ q.aggCells u k, q.cellMat d x x ≤ kappa * omitted (q.aggCells u k)) →
      ∀ rows : ∀ l, List (Fin (twoLevels n (rowsOf cs).length l)), (∀ l, ListsAll (rows l)) →
      ∀ solve : ∀ l, Matrix (Fin (twoLevels n (rowsOf cs).length l)) (Fin (twoLevels n (rowsOf cs).length l)) K →
        (Fin (twoLevels n (rowsOf cs).length l) → K) → Fin (twoLevels n (rowsOf cs).length l) → K,
      (∀ l, SolvesExactly (solve l)) →
      ∃ H, (buildHierarchy debug timer (some p) (.ok (matrixHelpers debug type
          (twoLevels n (rowsOf cs).length) (fun l => [rows l]) (q.patchMatrix n q.ownCells)
          (twoLevelRestriction (a.R.block (rowsOf cs).length n)) solve))).result = .ok H ∧
        ∀ b xs : Fin n → K, (q.patchMatrix n q.ownCells).mulVec xs = b → ∀ x : ℕ → Fin n → K,
          (∀ m, ∃ fresh, (H.vmult fresh (x m) b).result = .ok (x (m + 1))) →
          ∀ m, energyOf (q.patchMatrix n q.ownCells) (xs - x m)
            ≤ (1 - 1 / ((s : K) * s * kappa)) ^ m * energyOf (q.patchMatrix n q.ownCells) (xs - x 0)) := by
  have hs' : ∀ q' ∈ [q], q'.share.Sound debug := by simpa using hs
  have hq' : ∀ q' ∈ [q], q'.Faithful name := by simpa using hq
  obtain ⟨rs, h1, h2⟩ := setupShares_spec hap hep [q] hs' hq'
  obtain ⟨⟨u, cs⟩, rfl, h2'⟩ : ∃ r, rs = [r] ∧ (q.Result name r.1 r.2 ∧
      q.share.agglomerate debug dim strat (fun _ => 0) = .ok (r.1, r.2.length)) := by
    cases h2 with
    | cons h h' => cases h'; exact ⟨_, rfl, h⟩
  have hsolved := setup_solved h2 n (fun _ => omitted) (by simpa using hsol)
  have haggs := setup_flatten h2 n (fun _ => omitted)
  have hmat := setup_matrix h2 n (fun _ => omitted)
  have hA' : (Matrix.of fun i j : Fin n => globalEntry [q] i.val j.val) = q.patchMatrix n q.ownCells := by
    ext i j
    simp [globalEntry, ProcFem.patchMatrix]
  rw [hA'] at hmat
  obtain ⟨a, h3, -⟩ := transpose_rows debug dynAdds gdiag [cs] (setup_wf h2) n
  have hres : setupRestrictor debug dynAdds matrixFree dim ap ep gdiag [(q.share, fun _ => 0)]
      = .ok ([u], a) := by
    simp only [List.map_cons, List.map_nil] at h1 h3
    simp only [setupRestrictor, h1, Outcome.ok_bind, h3]
    rfl
  refine ⟨u, cs, a, hres, h2'.1, h2'.2, ?_⟩
  intro hown hloc rows hrows solve hsolve
  have hmem : ∀ b ∈ allAggs n (fun _ => omitted) ([q].zip [(u, cs)]), ∃ k, k < cs.length ∧
      cs[k]? = some b.copy ∧ b.matrix = q.patchMatrix n (q.aggCells u k) ∧ b.omitted = omitted (q.aggCells u k) := by
    intro b hb
    simp only [List.zip_cons_cons, List.zip_nil_left, allAggs, List.flatMap_cons, List.flatMap_nil,
      List.append_nil] at hb
    obtain ⟨k, hk, rfl⟩ := List.mem_mapIdx.1 hb
    exact ⟨k, hk, List.getElem?_eq_getElem hk, rfl, rfl⟩
  have hcell : ∀ b ∈ allAggs n (fun _ => omitted) ([q].zip [(u, cs)]), ∀ x ∈ b.copy.dofMap,
      ∃ k, k < cs.length ∧ b.matrix = q.patchMatrix n (q.aggCells u k) ∧ b.omitted = omitted (q.aggCells u k) ∧
      ∃ c ∈ q.aggCells u k, x ∈ q.cellDofs c := by
    intro b hb x hx
    obtain ⟨k, hk, e1, e2, e3⟩ := hmem b hb
    exact ⟨k, hk, e2, e3, (h2'.1.dofs k _ e1 x).1 hx⟩
  have hflat : (List.map Prod.snd [(u, cs)]).flatten = cs := by simp
  have hcs : ([cs] : List (List (CopyData K))).flatten = cs := by simp
  rw [hflat] at haggs
  have key := C77_pipeline debug dynAdds timer p type htype gdiag [cs] (setup_wf h2) n (by
      intro c hc x hx
      rw [hcs, haggs] at hc
      obtain ⟨b, hb, rfl⟩ := List.mem_map.1 hc
      obtain ⟨k, hk, -, -, d, hd, hdx⟩ := hcell b hb x hx
      refine hn d ?_ x hdx
      obtain ⟨hd1, hd2⟩ := Finset.mem_filter.1 hd
      refine Finset.mem_filter.2 ⟨hd1, ?_⟩
      by_contra ho
      have := h2'.1.other d (Finset.mem_range.1 hd1) (by simpa using ho)
      dsimp only at this
      omega)
    (by rw [hcs]; exact hown) (allAggs n (fun _ => omitted) ([q].zip [(u, cs)]))
    (by rw [hcs]; exact haggs) (fun b hb => (hsolved b hb).2)
    (by
      intro b hb i hi
      obtain ⟨k, hk, e2, -, d, hd, hdx⟩ := hcell b hb i.val hi
      rw [e2]
      exact (hloc k hk d hd i.val hdx).1)
    (q.patchMatrix n q.ownCells) hA hmat.symm
    (by
      intro i
      rw [hg, ← hA']
      rfl)
    s hsp kappa hk hone
    (by
      intro b hb i hi
      obtain ⟨k, hk, e2, e3, d, hd, hdx⟩ := hcell b hb i.val hi
      rw [e2, e3]
      exact (hloc k hk d hd i.val hdx).2)
  rw [hcs] at key
  obtain ⟨a', h5, h6⟩ := key rows hrows solve hsolve hlev hfast hpre hsteps
  obtain rfl := Outcome.ok.inj (h3.symm.trans h5)
  exact h6

end

/-- The Laplacian on four cells: the constant is in the coarse space. -/
example (gdiag : ℕ → ℚ) (hg : ∀ x, gdiag x = globalEntry [rowFem lapMat 0] x x) :=
  C80_nullspace true false false 2 ⟨some "block", none, some 2, some 1, none⟩ (.block 2 1 1) (by decide +kernel)
    ⟨some "lanczos", false⟩ "lanczos" ⟨rfl, Or.inl rfl, by simp⟩ [rowFem lapMat 0]
    (by simpa using rowFem_sound lapMat 0) (by simpa using rowFem_faithful lapMat 0 lapMat_support) gdiag hg 5
    (fun _ _ => 1) (by simpa using rowFem_solved lapMat 0 1 (by norm_num) lap_solved)

example : ∀ k < 2, ((rowFem lapMat 0).patchMatrix 5 {2 * k, 2 * k + 1}).mulVec (fun _ => 1) = 0 := by
  decide +kernel

/-- The chain of two agglomerates, from the mesh to the rate. -/
example (rows : ∀ l, List (Fin (twoLevels 5 2 l))) (hrows : ∀ l, ListsAll (rows l))
    (solve : ∀ l, Matrix (Fin (twoLevels 5 2 l)) (Fin (twoLevels 5 2 l)) ℚ → (Fin (twoLevels 5 2 l) → ℚ) →
      Fin (twoLevels 5 2 l) → ℚ) (hsolve : ∀ l, SolvesExactly (solve l)) :
    ∃ u a H, setupRestrictor true false false 2 ⟨some "block", none, some 2, some 1, none⟩
        ⟨some "lanczos", false⟩ (fun x => globalEntry [rowFem reactMat 1] x x)
        [((rowFem reactMat 1).share, fun _ => 0)] = .ok ([u], a) ∧
      (buildHierarchy true false (some { isPreconditioner := some false }) (.ok (matrixHelpers true none
        (twoLevels 5 2) (fun l => [rows l]) (chainSum (K := ℚ) 2)
        (twoLevelRestriction (a.R.block 2 5)) solve))).result = .ok H ∧
      ∀ b xs : Fin 5 → ℚ, (chainSum 2).mulVec xs = b → ∀ x : ℕ → Fin 5 → ℚ,
        (∀ m, ∃ fresh, (H.vmult fresh (x m) b).result = .ok (x (m + 1))) →
        ∀ m, energyOf (chainSum 2) (xs - x m) ≤ (25 / 27) ^ m * energyOf (chainSum 2) (xs - x 0) := by
  obtain ⟨u, cs, a, h1, h2, h3, h4⟩ := C80_rate true false false false 2
    ⟨some "block", none, some 2, some 1, none⟩ (.block 2 1 1) (by decide +kernel) ⟨some "lanczos", false⟩
    "lanczos" ⟨rfl, Or.inl rfl, by simp⟩ (rowFem reactMat 1) (rowFem_sound reactMat 1)
    (rowFem_faithful reactMat 1 reactMat_support) 5
    (by
      intro c hc x hx
      have hc' : c < 4 := Finset.mem_range.1 (Finset.mem_filter.1 hc).1
      simp only [rowFem, List.mem_cons, List.not_mem_nil, or_false] at hx
      omega)
    (fun _ => 2) (rowFem_solved reactMat 1 2 (by norm_num) react_solved)
    (fun x => globalEntry [rowFem reactMat 1] x x) (fun _ => rfl)
    (by rw [react_matrix]; exact chain_spd 2 (by norm_num)) 3 (by rw [react_matrix]; exact chain_perRow 2)
    (3 / 2) (by norm_num) (by norm_num) { isPreconditioner := some false } none (Or.inl rfl) rfl rfl rfl
    (by decide)
  obtain ⟨hlen, u0, u1, u2, u3⟩ := rowFem_blocks reactMat 1 u _ h3
  have hcells := rowFem_cells reactMat 1 u ⟨u0, u1, u2, u3⟩
  have hcs : cs = [chainCopy 0, chainCopy 1] := by
    apply List.ext_getElem
    · simpa using hlen
    · intro k hk _
      have hk' : k < 2 := by omega
      have e1 := h2.solved k _ (List.getElem?_eq_getElem hk)
      have e2 := rowFem_copy reactMat 1 k hk'
      rw [← hcells k hk', e1] at e2
      have e3 := congrArg AggData.copy (react_agg ⟨k, hk'⟩)
      have e4 : cs[k] = chainCopy k := (Outcome.ok.inj e2).trans e3
      rw [e4]
      have : k = 0 ∨ k = 1 := by omega
      rcases this with rfl | rfl <;> rfl
  have hrows2 : (rowsOf cs).length = 2 := by rw [hcs]; rfl
  rw [hrows2, react_matrix] at h4
  obtain ⟨H, h5, h6⟩ := h4 (by
      rw [hcs]
      have := chain_own (K := ℚ) 2
      exact this) (by
      intro k hk c hc x hx
      have hk' : k < 2 := by omega
      rw [hcells k hk'] at hc ⊢
      have hx5 : x ∈ [2 * k, 2 * k + 1, 2 * k + 2] := by
        simp only [Finset.mem_insert, Finset.mem_singleton] at hc
        simp only [rowFem, List.mem_cons, List.not_mem_nil, or_false] at hx ⊢
        omega
      clear hx hc h2 h3 h1
      have : k = 0 ∨ k = 1 := by omega
      have key : ∀ k : Fin 2, ∀ x ∈ [2 * k.val, 2 * k.val + 1, 2 * k.val + 2],
          (∑ d ∈ ({2 * k.val, 2 * k.val + 1} : Finset ℕ), reactMat d x x ≠ 0) ∧
          ∑ d ∈ ({2 * k.val, 2 * k.val + 1} : Finset ℕ), reactMat d x x ≤ 3 / 2 * 2 := by
        decide +kernel
      exact key ⟨k, hk'⟩ x hx5) rows hrows solve hsolve
  refine ⟨u, a, H, h1, h5, ?_⟩
  intro b xs hxs x hx m
  have := h6 b xs hxs x hx m
  norm_num at this ⊢
  exact this

end Mfmg
