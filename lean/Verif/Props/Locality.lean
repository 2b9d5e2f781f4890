import Verif.Lemmas.Locality
import Verif.Examples.SetupAll
import Verif.Props.SetupAll

/-!
# C116: a change of the problem in part of the mesh
-/

set_option autoImplicit false

namespace Mfmg

open Finset

section

variable {K : Type} [Field K]

/-- The set-ups before and after, row by row. -/
theorem changed_setup (debug dynAdds matrixFree : Bool) (dim : ℕ) (ap : AggParams) (strat : Strategy)
    (hap : dispatch dim ap = .ok strat) (ep : EigParams) (name : String) (hep : Selects matrixFree ep name)
    (chs : List (Changed K)) (hl : ∀ ch ∈ chs, ch.Local name)
    (hs : ∀ ch ∈ chs, ch.before.share.Sound debug ∧ ch.after.share.Sound debug)
    (hq : ∀ ch ∈ chs, ch.before.Faithful name ∧ ch.after.Faithful name) (gdiag gdiag' : ℕ → K)
    (hg : ∀ x, gdiag x = globalEntry (chs.map Changed.before) x x)
    (hg' : ∀ x, gdiag' x = globalEntry (chs.map Changed.after) x x) :
    ∃ (rs : List (UserIndex × List (CopyData K))) (a a' : Assembled K),
      setupRestrictor debug dynAdds matrixFree dim ap ep gdiag (chs.map fun ch => (ch.before.share, fun _ => 0))
        = .ok (rs.map Prod.fst, a) ∧
      setupRestrictor debug dynAdds matrixFree dim ap ep gdiag' (chs.map fun ch => (ch.after.share, fun _ => 0))
        = .ok (rs.map Prod.fst, a') ∧
      List.Forall₂ (fun q r => q.Result name r.1 r.2) (chs.map Changed.before) rs ∧
      (∀ p, (rowAgglomerates Changed.before (chs.zip rs)).length ≤ p → ∀ x, a.R p x = 0 ∧ a'.R p x = 0) ∧
      ∀ p agg, (rowAgglomerates Changed.before (chs.zip rs))[p]? = some agg →
        ((∀ c ∈ agg.2, c ∉ agg.1.cells) → ∀ x, ¬ TouchedDof chs x → a'.R p x = a.R p x) ∧
        ((∀ c ∈ agg.2, c ∉ agg.1.cells) → ∀ x, (∀ c ∈ agg.2, x ∉ agg.1.before.cellDofs c) →
          a'.R p x = 0) ∧
        ∀ x, (∀ c ∈ agg.2, x ∉ agg.1.before.cellDofs c) → a.R p x = 0 := by
  obtain ⟨rs, h1, h2⟩ := setupShares_spec (debug := debug) hap hep (chs.map Changed.before)
    (by simpa using fun ch h => (hs ch h).1) (by simpa using fun ch h => (hq ch h).1)
  obtain ⟨rs', h1', h2'⟩ := setupShares_spec (debug := debug) hap hep (chs.map Changed.after)
    (by simpa using fun ch h => (hs ch h).2) (by simpa using fun ch h => (hq ch h).2)
  obtain ⟨hu, Z, z1, z2, z3, z4⟩ := tagged_setup chs hl rs rs' h2 h2'
  obtain ⟨a, h3, h4, h5⟩ := C20_rows debug dynAdds gdiag (rs.map Prod.snd) (setup_wf h2)
  obtain ⟨a', h3', h4', h5'⟩ := C20_rows debug dynAdds gdiag' (rs'.map Prod.snd) (setup_wf h2')
  rw [List.map_map] at h3 h3' h1 h1'
  refine ⟨rs, a, a', ?_, ?_, h2.imp fun _ _ h => h.1, ?_, ?_⟩
  · simp only [setupRestrictor]
    rw [show (chs.map fun ch => (ch.before.share, fun _ => 0))
      = chs.map ((fun q : ProcFem K => (q.share, (fun _ => 0 : UserIndex))) ∘ Changed.before) from rfl, h1]
    simp only [Outcome.ok_bind]
    rw [show (rs.map fun r => collect r.2) = rs.map (collect ∘ Prod.snd) from rfl, h3]
    rfl
  · simp only [setupRestrictor]
    rw [show (chs.map fun ch => (ch.after.share, fun _ => 0))
      = chs.map ((fun q : ProcFem K => (q.share, (fun _ => 0 : UserIndex))) ∘ Changed.after) from rfl, h1']
    simp only [Outcome.ok_bind]
    rw [show (rs'.map fun r => collect r.2) = rs'.map (collect ∘ Prod.snd) from rfl, h3', hu]
    rfl
  · intro p hp x
    rw [← z1, List.length_map] at hp
    exact ⟨h5 p (by rw [← z2, List.length_map]; exact hp) x,
      h5' p (by rw [← z3, List.length_map]; exact hp) x⟩
  · intro p agg hp
    rw [← z1, List.getElem?_map] at hp
    obtain ⟨z, hz, rfl⟩ := Option.map_eq_some_iff.1 hp
    obtain ⟨⟨hsame, hdofs⟩, hpair⟩ := z4 z (List.mem_of_getElem? hz)
    have e : ∀ x, a.R p x = extend z.2.1.1.dofMap z.2.1.1.diag x / gdiag x
        * extend z.2.1.1.dofMap z.2.1.2 x :=
      h4 p z.2.1.1 z.2.1.2 (by rw [← z2, List.getElem?_map, hz]; rfl)
    have e' : ∀ x, a'.R p x = extend z.2.2.1.dofMap z.2.2.1.diag x / gdiag' x
        * extend z.2.2.1.dofMap z.2.2.2 x :=
      h4' p z.2.2.1 z.2.2.2 (by rw [← z3, List.getElem?_map, hz]; rfl)
    refine ⟨fun hf x hx => ?_, fun hf x hx => ?_, fun x hx => ?_⟩
    · rw [e, e', ← hpair (hsame hf), hg, hg', globalEntry_untouched chs hl (fun ch h => (hq ch h).1)
        (fun ch h => (hq ch h).2) x x fun h => hx h.1]
    · rw [e', ← hpair (hsame hf), extend_not_mem (v := z.2.1.2) (by
        intro hm
        obtain ⟨d, hd, hxd⟩ := (hdofs x).1 hm
        exact hx d hd hxd), mul_zero]
    · rw [e, extend_not_mem (v := z.2.1.2) (by
        intro hm
        obtain ⟨d, hd, hxd⟩ := (hdofs x).1 hm
        exact hx d hd hxd), mul_zero]

/-- **C116**, restriction matrix.  If the problem changes on some cells (any number, on any processes), a new set-up
on fresh meshes, with any partitioner, local eigensolver and thread schedules, finds the same agglomerates and
changes the restriction matrix only in rows of agglomerates with a changed cell, and in columns of dofs of changed
cells.  (Without start vectors from other agglomerates, see `C116_guess_violated`, and with the same number of
vectors for every patch, `Changed.Local`.) -/
theorem C116_rows_partial (debug dynAdds matrixFree : Bool) (dim : ℕ) (ap : AggParams) (strat : Strategy)
    (hap : dispatch dim ap = .ok strat) (ep : EigParams) (name : String) (hep : Selects matrixFree ep name)
    (chs : List (Changed K)) (hl : ∀ ch ∈ chs, ch.Local name)
    (hs : ∀ ch ∈ chs, ch.before.share.Sound debug ∧ ch.after.share.Sound debug)
    (hq : ∀ ch ∈ chs, ch.before.Faithful name ∧ ch.after.Faithful name) (gdiag gdiag' : ℕ → K)
    (hg : ∀ x, gdiag x = globalEntry (chs.map Changed.before) x x)
    (hg' : ∀ x, gdiag' x = globalEntry (chs.map Changed.after) x x) :
    ∃ (rs : List (UserIndex × List (CopyData K))) (a a' : Assembled K),
      setupRestrictor debug dynAdds matrixFree dim ap ep gdiag (chs.map fun ch => (ch.before.share, fun _ => 0))
        = .ok (rs.map Prod.fst, a) ∧
      setupRestrictor debug dynAdds matrixFree dim ap ep gdiag' (chs.map fun ch => (ch.after.share, fun _ => 0))
        = .ok (rs.map Prod.fst, a') ∧
      List.Forall₂ (fun q r => q.Result name r.1 r.2) (chs.map Changed.before) rs ∧
      ∀ p x, a'.R p x ≠ a.R p x → ∃ agg, (rowAgglomerates Changed.before (chs.zip rs))[p]? = some agg ∧
        ((∃ c ∈ agg.2, c ∈ agg.1.cells) ∨
          (TouchedDof chs x ∧ ∃ c ∈ agg.2, x ∈ agg.1.before.cellDofs c)) := by
  obtain ⟨rs, a, a', h1, h2, h3, h4, h5⟩ := changed_setup debug dynAdds matrixFree dim ap strat hap ep name hep chs
    hl hs hq gdiag gdiag' hg hg'
  refine ⟨rs, a, a', h1, h2, h3, fun p x hne => ?_⟩
  by_cases hp : p < (rowAgglomerates Changed.before (chs.zip rs)).length
  · refine ⟨_, List.getElem?_eq_getElem hp, ?_⟩
    obtain ⟨k1, k2, k3⟩ := h5 p _ (List.getElem?_eq_getElem hp)
    by_contra hcon
    push Not at hcon
    obtain ⟨c1, c2⟩ := hcon
    by_cases hx : TouchedDof chs x
    · exact hne (by rw [k2 c1 x (c2 hx), k3 x (c2 hx)])
    · exact hne (k1 c1 x hx)
  · obtain ⟨e, e'⟩ := h4 p (Nat.le_of_not_lt hp) x
    exact absurd (by rw [e, e']) hne

/-- **C116**, coarse matrix.  The entries `(p, q)` of the coarse matrix `R A Rᵀ` do not change if the agglomerates
of the rows `p` and `q` have no changed cell and no dof in common with one. -/
theorem C116_coarse_partial (debug dynAdds matrixFree : Bool) (dim : ℕ) (ap : AggParams) (strat : Strategy)
    (hap : dispatch dim ap = .ok strat) (ep : EigParams) (name : String) (hep : Selects matrixFree ep name)
    (chs : List (Changed K)) (hl : ∀ ch ∈ chs, ch.Local name)
    (hs : ∀ ch ∈ chs, ch.before.share.Sound debug ∧ ch.after.share.Sound debug)
    (hq : ∀ ch ∈ chs, ch.before.Faithful name ∧ ch.after.Faithful name) (gdiag gdiag' : ℕ → K)
    (hg : ∀ x, gdiag x = globalEntry (chs.map Changed.before) x x)
    (hg' : ∀ x, gdiag' x = globalEntry (chs.map Changed.after) x x) :
    ∃ (rs : List (UserIndex × List (CopyData K))) (a a' : Assembled K),
      setupRestrictor debug dynAdds matrixFree dim ap ep gdiag (chs.map fun ch => (ch.before.share, fun _ => 0))
        = .ok (rs.map Prod.fst, a) ∧
      setupRestrictor debug dynAdds matrixFree dim ap ep gdiag' (chs.map fun ch => (ch.after.share, fun _ => 0))
        = .ok (rs.map Prod.fst, a') ∧
      List.Forall₂ (fun q r => q.Result name r.1 r.2) (chs.map Changed.before) rs ∧
      ∀ (n : ℕ) (p q : Fin (rowAgglomerates Changed.before (chs.zip rs)).length),
        FarFrom chs (rowAgglomerates Changed.before (chs.zip rs))[p] →
        FarFrom chs (rowAgglomerates Changed.before (chs.zip rs))[q] →
        galerkin (a'.R.block _ n) (wholeMatrix (chs.map Changed.after) n) p q
          = galerkin (a.R.block _ n) (wholeMatrix (chs.map Changed.before) n) p q := by
  obtain ⟨rs, a, a', h1, h2, h3, -, h5⟩ := changed_setup debug dynAdds matrixFree dim ap strat hap ep name hep chs
    hl hs hq gdiag gdiag' hg hg'
  refine ⟨rs, a, a', h1, h2, h3, fun n p q hp hq' => ?_⟩
  have far : ∀ r : Fin (rowAgglomerates Changed.before (chs.zip rs)).length,
      FarFrom chs (rowAgglomerates Changed.before (chs.zip rs))[r] →
      (∀ x, a'.R r.val x = a.R r.val x) ∧ ∀ x, TouchedDof chs x → a.R r.val x = 0 := by
    intro r hr
    obtain ⟨k1, k2, k3⟩ := h5 r.val _ (List.getElem?_eq_getElem r.isLt)
    have hcells : ∀ c ∈ (rowAgglomerates Changed.before (chs.zip rs))[r].2,
      c ∉ (rowAgglomerates Changed.before (chs.zip rs))[r].1.cells := fun c hc => (hr c hc).1
    have hz : ∀ x, TouchedDof chs x → ∀ c ∈ (rowAgglomerates Changed.before (chs.zip rs))[r].2,
      x ∉ (rowAgglomerates Changed.before (chs.zip rs))[r].1.before.cellDofs c :=
      fun x hx c hc hxc => (hr c hc).2 x hxc hx
    refine ⟨fun x => ?_, fun x hx => k3 x (hz x hx)⟩
    by_cases hx : TouchedDof chs x
    · rw [k2 hcells x (hz x hx), k3 x (hz x hx)]
    · exact k1 hcells x hx
  obtain ⟨p1, p2⟩ := far p hp
  obtain ⟨q1, -⟩ := far q hq'
  simp only [galerkin, Matrix.mul_apply, Matrix.transpose_apply, Entries.block, Matrix.of_apply, wholeMatrix]
  apply Finset.sum_congr rfl
  intro y _
  rw [q1 y.val]
  congr 1
  apply Finset.sum_congr rfl
  intro x _
  rw [p1 x.val]
  by_cases hx : TouchedDof chs x.val
  · rw [p2 _ hx, zero_mul, zero_mul]
  · rw [globalEntry_untouched chs hl (fun ch h => (hq ch h).1) (fun ch h => (hq ch h).2) x.val y.val
      fun h => hx h.1]

/-- Nothing has changed. -/
def Changed.none (q : ProcFem K) : Changed K := ⟨q, q, ∅⟩

/-- **C116**, couplings.  The coarse matrix couples the rows of two agglomerates only if some cell of the mesh has a
dof of a cell of each of them. -/
theorem C116_couples (debug dynAdds matrixFree : Bool) (dim : ℕ) (ap : AggParams) (strat : Strategy)
    (hap : dispatch dim ap = .ok strat) (ep : EigParams) (name : String) (hep : Selects matrixFree ep name)
    (procs : List (ProcFem K)) (hs : ∀ q ∈ procs, q.share.Sound debug) (hq : ∀ q ∈ procs, q.Faithful name)
    (gdiag : ℕ → K) (hg : ∀ x, gdiag x = globalEntry procs x x) :
    ∃ (rs : List (UserIndex × List (CopyData K))) (a : Assembled K),
      setupRestrictor debug dynAdds matrixFree dim ap ep gdiag (procs.map fun q => (q.share, fun _ => 0))
        = .ok (rs.map Prod.fst, a) ∧
      List.Forall₂ (fun q r => q.Result name r.1 r.2) procs rs ∧
      ∀ (n : ℕ) (p q : Fin (rowAgglomerates id (procs.zip rs)).length),
        galerkin (a.R.block _ n) (wholeMatrix procs n) p q ≠ 0 →
        ∃ s ∈ procs, ∃ c ∈ s.ownCells,
          (∃ d ∈ (rowAgglomerates id (procs.zip rs))[p].2,
            ∃ x ∈ (rowAgglomerates id (procs.zip rs))[p].1.cellDofs d, x ∈ s.cellDofs c) ∧
          ∃ d ∈ (rowAgglomerates id (procs.zip rs))[q].2,
            ∃ y ∈ (rowAgglomerates id (procs.zip rs))[q].1.cellDofs d, y ∈ s.cellDofs c := by
  have hb : (procs.map Changed.none).map Changed.before = procs := by
    rw [List.map_map]
    exact List.map_id'' (fun _ => rfl) procs
  have hb' : (procs.map Changed.none).map Changed.after = procs := by
    rw [List.map_map]
    exact List.map_id'' (fun _ => rfl) procs
  obtain ⟨rs, a, a', h1, -, h3, -, h5⟩ := changed_setup debug dynAdds matrixFree dim ap strat hap ep name hep
    (procs.map Changed.none) (by
      intro ch hch
      obtain ⟨q, -, rfl⟩ := List.mem_map.1 hch
      refine ⟨rfl, rfl, rfl, rfl, fun _ _ => rfl, fun _ _ => rfl, ?_⟩
      intro cells r r' e e'
      have : r = r' := Outcome.ok.inj (e.symm.trans e')
      rw [this])
    (by
      intro ch hch
      obtain ⟨q, hm, rfl⟩ := List.mem_map.1 hch
      exact ⟨hs q hm, hs q hm⟩)
    (by
      intro ch hch
      obtain ⟨q, hm, rfl⟩ := List.mem_map.1 hch
      exact ⟨hq q hm, hq q hm⟩) gdiag gdiag (by rw [hb]; exact hg) (by rw [hb']; exact hg)
  rw [hb] at h3
  rw [List.map_map] at h1
  have hrow : rowAgglomerates Changed.before ((procs.map Changed.none).zip rs)
      = (rowAgglomerates id (procs.zip rs)).map fun t => (Changed.none t.1, t.2) := by
    simp only [rowAgglomerates, List.zip_map_left, List.flatMap_map, List.map_flatMap, List.map_flatten]
    congr 1
    funext r
    congr 1
    apply List.ext_getElem
    · simp
    · intro i _ _
      simp [Changed.none]
  refine ⟨rs, a, h1, h3, fun n p q hne => ?_⟩
  have zero : ∀ r : Fin (rowAgglomerates id (procs.zip rs)).length, ∀ x, a.R r.val x ≠ 0 →
      ∃ d ∈ (rowAgglomerates id (procs.zip rs))[r].2,
        x ∈ (rowAgglomerates id (procs.zip rs))[r].1.cellDofs d := by
    intro r x hx
    by_contra hcon
    push Not at hcon
    refine hx ((h5 r.val (Changed.none (rowAgglomerates id (procs.zip rs))[r].1,
      (rowAgglomerates id (procs.zip rs))[r].2) ?_).2.2 x hcon)
    rw [hrow, List.getElem?_map, List.getElem?_eq_getElem r.isLt]
    rfl
  simp only [galerkin, Matrix.mul_apply, Matrix.transpose_apply, Entries.block, Matrix.of_apply, wholeMatrix] at hne
  obtain ⟨y, -, hy⟩ := Finset.exists_ne_zero_of_sum_ne_zero hne
  obtain ⟨x, -, hx⟩ := Finset.exists_ne_zero_of_sum_ne_zero (left_ne_zero_of_mul hy)
  have hA := right_ne_zero_of_mul hx
  obtain ⟨z, hz, hz0⟩ := List.exists_mem_ne_zero_of_sum_ne_zero hA
  obtain ⟨s, hs', rfl⟩ := List.mem_map.1 hz
  obtain ⟨c, hc, hc0⟩ := Finset.exists_ne_zero_of_sum_ne_zero hz0
  obtain ⟨hxc, hyc⟩ := (hq s hs').support c _ _ hc0
  obtain ⟨d, hd, hxd⟩ := zero p _ (left_ne_zero_of_mul hx)
  obtain ⟨d', hd', hyd⟩ := zero q _ (right_ne_zero_of_mul hy)
  exact ⟨s, hs', c, hc, ⟨d, hd, _, hxd, hxc⟩, d', hd', _, hyd, hyc⟩

/-- **C116**, violated with start vectors: with "anasazi" and "use_initial_guess" the vectors of an agglomerate are
the start vectors of the next one.  If the problem changes on the first of two agglomerates only, and the
eigensolver, which works to a tolerance, depends on its start vectors, then the rows of the second agglomerate
change as well, even at dofs that no changed cell has. -/
theorem C116_guess_violated (debug dynAdds matrixFree : Bool) (dim : ℕ) (ap : AggParams) (strat : Strategy)
    (hap : dispatch dim ap = .ok strat) (sh : Share K)
    (solver' : List ℕ → String → List (List K) → Outcome (CopyData K)) (u : UserIndex)
    (hu : sh.agglomerate debug dim strat (fun _ => 0) = .ok (u, 2)) (hsched : sh.schedule 2 = wsSequential 2)
    (hsame : ∀ guess, solver' (patchCellsById sh.mesh.nCells u 2) "anasazi" guess
      = sh.solver (patchCellsById sh.mesh.nCells u 2) "anasazi" guess)
    (c0 c0' c1 c1' : CopyData K) (w0 : c0.WellFormed) (w0' : c0'.WellFormed) (w1 : c1.WellFormed)
    (w1' : c1'.WellFormed)
    (h0 : sh.solver (patchCellsById sh.mesh.nCells u 1) "anasazi" [] = .ok c0)
    (h0' : solver' (patchCellsById sh.mesh.nCells u 1) "anasazi" [] = .ok c0')
    (h1 : sh.solver (patchCellsById sh.mesh.nCells u 2) "anasazi" c0.eigenvectors = .ok c1)
    (h1' : sh.solver (patchCellsById sh.mesh.nCells u 2) "anasazi" c0'.eigenvectors = .ok c1')
    (hn : c0'.eigenvectors.length = c0.eigenvectors.length) (hdofs : c1'.dofMap = c1.dofMap)
    (hdiag : c1'.diag = c1.diag) (j : ℕ) (v v' : List K) (hv : c1.eigenvectors[j]? = some v)
    (hv' : c1'.eigenvectors[j]? = some v') (gdiag gdiag' : ℕ → K) (x : ℕ) (hx : gdiag x ≠ 0)
    (hxx : gdiag' x = gdiag x) (hd : extend c1.dofMap c1.diag x ≠ 0)
    (hne : extend c1.dofMap v' x ≠ extend c1.dofMap v x) :
    ∃ a a' : Assembled K,
      setupRestrictor debug dynAdds matrixFree dim ap ⟨some "anasazi", true⟩ gdiag [(sh, fun _ => 0)]
        = .ok ([u], a) ∧
      setupRestrictor debug dynAdds matrixFree dim ap ⟨some "anasazi", true⟩ gdiag'
        [({ sh with solver := solver' }, fun _ => 0)] = .ok ([u], a') ∧
      a'.R (c0.eigenvectors.length + j) x ≠ a.R (c0.eigenvectors.length + j) x := by
  have run : ∀ (solver : List ℕ → String → List (List K) → Outcome (CopyData K)) (d0 d1 : CopyData K),
      d0.WellFormed → d1.WellFormed →
      solver (patchCellsById sh.mesh.nCells u 1) "anasazi" [] = .ok d0 →
      solver (patchCellsById sh.mesh.nCells u 2) "anasazi" d0.eigenvectors = .ok d1 →
      ∀ (g : ℕ → K) (w : List K), d1.eigenvectors[j]? = some w →
      ∃ a : Assembled K, setupRestrictor debug dynAdds matrixFree dim ap ⟨some "anasazi", true⟩ g
          [({ sh with solver := solver }, fun _ => 0)] = .ok ([u], a) ∧
        ∀ y, a.R (d0.eigenvectors.length + j) y
          = extend d1.dofMap d1.diag y / g y * extend d1.dofMap w y := by
    intro solver d0 d1 wf0 wf1 e0 e1 g w hw
    obtain ⟨a, ha, hrows, -⟩ := C20_rows debug dynAdds g [[d0, d1]] (by
      intro cs hcs c hc
      rw [List.mem_singleton] at hcs
      subst hcs
      simp only [List.mem_cons, List.not_mem_nil, or_false] at hc
      rcases hc with rfl | rfl
      · exact wf0
      · exact wf1)
    refine ⟨a, ?_, fun y => hrows _ d1 w ?_ y⟩
    · have hagg : Share.agglomerate debug dim strat { sh with solver := solver } (fun _ => 0) = .ok (u, 2) := by
        rw [← hu]
        cases strat <;> rfl
      have hcol : setupCollect debug matrixFree ⟨some "anasazi", true⟩
          (fun i => solver (patchCellsById sh.mesh.nCells u (i + 1)))
          (fun i => sh.unsolved (patchCellsById sh.mesh.nCells u (i + 1))) (wsSequential 2)
          = .ok (collect [d0, d1]) := by
        have e0' : ∀ c, localWorker debug matrixFree ⟨some "anasazi", true⟩
            (fun i => solver (patchCellsById sh.mesh.nCells u (i + 1)))
            (fun i => sh.unsolved (patchCellsById sh.mesh.nCells u (i + 1))) 0 [] c
            = .ok (d0.eigenvectors, d0) := by
          intro c
          simp [localWorker, computeLocal, e0]
        have e1' : ∀ c, localWorker debug matrixFree ⟨some "anasazi", true⟩
            (fun i => solver (patchCellsById sh.mesh.nCells u (i + 1)))
            (fun i => sh.unsolved (patchCellsById sh.mesh.nCells u (i + 1))) 1 d0.eigenvectors c
            = .ok (d1.eigenvectors, d1) := by
          intro c
          simp [localWorker, computeLocal, e1]
        have hseq : wsSequential 2 = [.work 0 0 0, .copy 0 0, .work 1 0 0, .copy 1 0] := rfl
        rw [hseq]
        simp [setupCollect, wsRun, wsStep, e0', e1', collect]
      simp only [setupRestrictor, setupShares, Share.setup, hap, hagg, hsched, hcol, Outcome.ok_bind,
        Outcome.pure_eq]
      rw [show [collect [d0, d1]] = [[d0, d1]].map collect from rfl, ha]
      rfl
    · simp only [rowsOf, List.flatten_cons, List.flatten_nil, List.append_nil, List.flatMap_cons, List.flatMap_nil]
      rw [List.getElem?_append_right (by simp), List.length_map, Nat.add_sub_cancel_left, List.getElem?_map, hw]
      rfl
  obtain ⟨a, e1, e2⟩ := run sh.solver c0 c1 w0 w1 h0 h1 gdiag v hv
  obtain ⟨a', e1', e2'⟩ := run solver' c0' c1' w0' w1' h0' (by rw [hsame, h1']) gdiag' v' hv'
  refine ⟨a, a', e1, e1', ?_⟩
  rw [hn] at e2'
  rw [e2, e2', hdofs, hdiag, hxx]
  intro h
  exact hne (mul_left_cancel₀ (div_ne_zero hd hx) h)

end

/-! ### Examples: four cells in a row, the coefficient of the first one changes -/

/-- The Laplacian with seven times the coefficient on the first cell. -/
def strongMat (c x y : ℕ) : ℚ := if c = 0 then 7 * lapMat c x y else lapMat c x y

theorem strongMat_support (c x y : ℕ) (h : strongMat c x y ≠ 0) : x ∈ [c, c + 1] ∧ y ∈ [c, c + 1] := by
  apply lapMat_support
  unfold strongMat at h
  split_ifs at h
  · exact right_ne_zero_of_mul h
  · exact h

/-- The change. -/
def rowChange : Changed ℚ := ⟨rowFem lapMat 0, rowFem strongMat 0, {0}⟩

theorem rowChange_local : rowChange.Local "lanczos" where
  mesh := rfl
  graph := rfl
  partition := rfl
  dofs := rfl
  same := by
    intro c hc
    have hc : c ≠ 0 := by simpa [rowChange] using hc
    funext x y
    simp [rowChange, rowFem, strongMat, hc]
  solver := by
    intro cells h
    simp only [rowChange, rowFem, Outcome.ok.injEq, CopyData.mk.injEq, true_and, and_true]
    apply List.map_congr_left
    intro x _
    congr 1
    apply List.map_congr_left
    intro d hd
    have hd : d ≠ 0 := by simpa [rowChange] using h d hd
    simp [strongMat, hd]
  number := by
    intro cells r r' h h'
    rw [← Outcome.ok.inj h, ← Outcome.ok.inj h']

example (gdiag gdiag' : ℕ → ℚ) (hg : ∀ x, gdiag x = globalEntry [rowFem lapMat 0] x x)
    (hg' : ∀ x, gdiag' x = globalEntry [rowFem strongMat 0] x x) :=
  C116_rows_partial true false false 2 ⟨some "Block", none, some 2, some 1, none⟩ (.block 2 1 1)
    (by decide +kernel) ⟨some "lanczos", false⟩ "lanczos" ⟨rfl, Or.inl rfl, by simp⟩ [rowChange]
    (by simpa using rowChange_local) (by simpa using ⟨rowFem_sound lapMat 0, rowFem_sound strongMat 0⟩)
    (by simpa using ⟨rowFem_faithful lapMat 0 lapMat_support, rowFem_faithful strongMat 0 strongMat_support⟩)
    gdiag gdiag' hg hg'

example (gdiag gdiag' : ℕ → ℚ) (hg : ∀ x, gdiag x = globalEntry [rowFem lapMat 0] x x)
    (hg' : ∀ x, gdiag' x = globalEntry [rowFem strongMat 0] x x) :=
  C116_coarse_partial true false false 2 ⟨some "Block", none, some 2, some 1, none⟩ (.block 2 1 1)
    (by decide +kernel) ⟨some "lanczos", false⟩ "lanczos" ⟨rfl, Or.inl rfl, by simp⟩ [rowChange]
    (by simpa using rowChange_local) (by simpa using ⟨rowFem_sound lapMat 0, rowFem_sound strongMat 0⟩)
    (by simpa using ⟨rowFem_faithful lapMat 0 lapMat_support, rowFem_faithful strongMat 0 strongMat_support⟩)
    gdiag gdiag' hg hg'

/-- The second agglomerate is far from the change, the first one is not. -/
example : FarFrom [rowChange] (rowChange, {2, 3}) ∧ ¬ FarFrom [rowChange] (rowChange, {0, 1}) := by
  constructor
  · intro c hc
    simp only [mem_insert, mem_singleton] at hc
    refine ⟨?_, ?_⟩
    · simp only [rowChange, Set.mem_singleton_iff]
      omega
    · rintro x hx ⟨ch, hch, d, -, hd, hxd⟩
      rw [List.mem_singleton] at hch
      subst hch
      simp only [rowChange, Set.mem_singleton_iff] at hd
      subst hd
      simp only [rowChange, rowFem, List.mem_cons, List.not_mem_nil, or_false] at hx hxd
      omega
  · intro h
    exact (h 0 (by simp)).1 (by simp [rowChange])

example (gdiag : ℕ → ℚ) (hg : ∀ x, gdiag x = globalEntry [rowFem lapMat 0] x x) :=
  C116_couples true false false 2 ⟨some "Block", none, some 2, some 1, none⟩ (.block 2 1 1) (by decide +kernel)
    ⟨some "lanczos", false⟩ "lanczos" ⟨rfl, Or.inl rfl, by simp⟩ [rowFem lapMat 0]
    (by simpa using rowFem_sound lapMat 0) (by simpa using rowFem_faithful lapMat 0 lapMat_support) gdiag hg

/-- An eigensolver that, from start vectors, makes no step and returns them (they may be accurate enough); without
start vectors it returns the vector with all components `s`. -/
def lazySolver (s : ℚ) (cells : List ℕ) (_ : String) (guess : List (List ℚ)) : Outcome (CopyData ℚ) :=
  .ok { eigenvalues := [0]
        eigenvectors := if guess = [] then [(rowDofs cells).map fun _ => s] else guess
        diag := (rowDofs cells).map fun x => (cells.map fun d => lapMat d x x).sum
        dofMap := rowDofs cells }

/-- The scaling of the vector of the first agglomerate changes, and so does the row of the second one. -/
example : ∃ (u : UserIndex) (a a' : Assembled ℚ),
    setupRestrictor true false false 2 ⟨some "Block", none, some 2, some 1, none⟩ ⟨some "anasazi", true⟩
      (fun _ => 2) [({ (rowFem lapMat 0).share with solver := lazySolver 1 }, fun _ => 0)] = .ok ([u], a) ∧
    setupRestrictor true false false 2 ⟨some "Block", none, some 2, some 1, none⟩ ⟨some "anasazi", true⟩
      (fun _ => 2) [({ (rowFem lapMat 0).share with
        solver := fun cells => lazySolver (if 0 ∈ cells then 5 else 1) cells }, fun _ => 0)] = .ok ([u], a') ∧
    a'.R (1 + 0) 3 ≠ a.R (1 + 0) 3 := by
  have d0 : rowDofs [0, 1] = [0, 1, 2] := by decide
  have d1 : rowDofs [2, 3] = [2, 3, 4] := by decide
  obtain ⟨u, hu, h0, h1, h2, h3⟩ : ∃ v, buildAgglomeratesBlock (gridMesh 4 1) true 2 2 1 1 (fun _ => 0)
      = .ok (v, 2) ∧ v 0 = 1 ∧ v 1 = 1 ∧ v 2 = 2 ∧ v 3 = 2 := ⟨_, rfl, rfl, rfl, rfl, rfl⟩
  have p1 : patchCellsById 4 u 1 = [0, 1] := by
    simp [patchCellsById, List.range_succ, h0, h1, h2, h3]
  have p2 : patchCellsById 4 u 2 = [2, 3] := by
    simp [patchCellsById, List.range_succ, h0, h1, h2, h3]
  have wf : ∀ (s : ℚ) (ds : List ℕ) (dg : List ℚ), ds.Nodup → dg.length = ds.length → ds.length = 3 →
      (⟨[0], [[s, s, s]], dg, ds⟩ : CopyData ℚ).WellFormed := by
    intro s ds dg hn hd h3
    exact ⟨hn, hd, by simp [h3]⟩
  have s0 : ∀ guess, lazySolver (if 0 ∈ patchCellsById 4 u 2 then 5 else 1) (patchCellsById 4 u 2) "anasazi" guess
      = lazySolver 1 (patchCellsById 4 u 2) "anasazi" guess := by
    intro guess
    rw [p2, if_neg (by simp)]
  have s1 : lazySolver 1 (patchCellsById 4 u 1) "anasazi" []
      = .ok ⟨[0], [[1, 1, 1]], [1, 2, 1], [0, 1, 2]⟩ := by
    rw [p1]
    simp [lazySolver, d0, lapMat]
    norm_num
  have s2 : lazySolver (if 0 ∈ patchCellsById 4 u 1 then 5 else 1) (patchCellsById 4 u 1) "anasazi" []
      = .ok ⟨[0], [[5, 5, 5]], [1, 2, 1], [0, 1, 2]⟩ := by
    rw [p1]
    simp [lazySolver, d0, lapMat]
    norm_num
  have s3 : lazySolver 1 (patchCellsById 4 u 2) "anasazi" [[1, 1, 1]]
      = .ok ⟨[0], [[1, 1, 1]], [1, 2, 1], [2, 3, 4]⟩ := by
    rw [p2]
    simp [lazySolver, d1, lapMat]
    norm_num
  have s4 : lazySolver 1 (patchCellsById 4 u 2) "anasazi" [[5, 5, 5]]
      = .ok ⟨[0], [[5, 5, 5]], [1, 2, 1], [2, 3, 4]⟩ := by
    rw [p2]
    simp [lazySolver, d1, lapMat]
    norm_num
  obtain ⟨a, a', e1, e2, e3⟩ := C116_guess_violated true false false 2 ⟨some "Block", none, some 2, some 1, none⟩
    (.block 2 1 1) (by decide +kernel) { (rowFem lapMat 0).share with solver := lazySolver 1 }
    (fun cells => lazySolver (if 0 ∈ cells then 5 else 1) cells) u hu rfl
    s0
    ⟨[0], [[1, 1, 1]], [1, 2, 1], [0, 1, 2]⟩ ⟨[0], [[5, 5, 5]], [1, 2, 1], [0, 1, 2]⟩
    ⟨[0], [[1, 1, 1]], [1, 2, 1], [2, 3, 4]⟩ ⟨[0], [[5, 5, 5]], [1, 2, 1], [2, 3, 4]⟩
    (wf _ _ _ (by decide) rfl rfl) (wf _ _ _ (by decide) rfl rfl) (wf _ _ _ (by decide) rfl rfl)
    (wf _ _ _ (by decide) rfl rfl)
    s1 s2 s3 s4
    rfl rfl rfl 0 [1, 1, 1] [5, 5, 5] rfl rfl (fun _ => 2) (fun _ => 2) 3 (by norm_num) rfl (by decide +kernel)
    (by decide +kernel)
  exact ⟨u, a, a', e1, e2, e3⟩

end Mfmg
