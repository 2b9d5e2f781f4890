import Verif.Spec.DeviceSetup
import Verif.Props.DeviceEigen
import Verif.Props.Restriction
import Mathlib.Data.List.Forall2
import Mathlib.Data.List.Perm.Basic

/-!
# C68: the restriction matrix set up on the device, and the memory it leaves behind
-/

set_option autoImplicit false

namespace Mfmg

variable {K : Type}

/-- The allocations of one agglomerate. -/
theorem eigMem_ok (descr : Bool) (h : DevHeap) :
    ∃ b w, h.next ≤ b ∧ eigMem descr h =
      .ok (⟨b + 7, b + 8, b + 2⟩,
        ⟨b + 9, (b + 8) :: (b + 7) :: (b + 2) :: b :: h.live, w⟩) ∧ b + 8 ∈ w ∧ b + 2 ∈ w := by
  cases descr
  · refine ⟨h.next + 3, (h.next + 3 + 8) :: (h.next + 3 + 7) :: (h.next + 3 + 4) :: (h.next + 3 + 3) ::
      (h.next + 3 + 2) :: (h.next + 3 + 1) :: (h.next + 2) :: (h.next + 1) :: h.next :: h.written,
      by omega, ?_, by simp, by simp⟩
    simp [eigMem, newArrays, DevHeap.alloc, DevHeap.allocWritten, DevHeap.write, DevHeap.free,
      DevHeap.use, sygvdMem, destroyObj, List.erase_cons, Nat.add_assoc]
  · refine ⟨h.next + 4, (h.next + 4 + 8) :: (h.next + 4 + 7) :: (h.next + 4 + 4) :: (h.next + 4 + 3) ::
      (h.next + 4 + 2) :: (h.next + 4 + 1) :: (h.next + 2) :: (h.next + 1) :: h.next :: h.written,
      by omega, ?_, by simp, by simp⟩
    simp [eigMem, newArrays, DevHeap.alloc, DevHeap.allocWritten, DevHeap.write, DevHeap.free,
      DevHeap.use, sygvdMem, destroyObj, List.erase_cons, Nat.add_assoc]

theorem cutVectors_length (host : List K) (n m : ℕ) : (cutVectors host n m).length = m := by
  simp [cutVectors]

theorem cutVectors_mem (host : List K) (n m : ℕ) (h : host.length = m * n) :
    ∀ v ∈ cutVectors host n m, v.length = n := by
  intro v hv
  simp only [cutVectors, List.mem_map, List.mem_range] at hv
  obtain ⟨i, hi, rfl⟩ := hv
  have : (i + 1) * n ≤ m * n := Nat.mul_le_mul_right _ hi
  rw [List.length_drop, List.length_take, h, Nat.min_eq_left this, Nat.add_mul]
  omega

theorem cutVectors_flatten (host : List K) (n m : ℕ) : (cutVectors host n m).flatten =
    host.take (m * n) := by
  induction m with
  | zero => simp [cutVectors]
  | succ m ih =>
    have : cutVectors host n (m + 1) = cutVectors host n m ++
        [(host.take ((m + 1) * n)).drop (m * n)] := by
      simp [cutVectors, List.range_succ]
    rw [this, List.flatten_append, ih, List.flatten_singleton]
    have h2 : host.take (m * n) = (host.take ((m + 1) * n)).take (m * n) := by
      rw [List.take_take, Nat.min_eq_left (Nat.mul_le_mul_right _ (Nat.le_succ m))]
    rw [h2, List.take_append_drop]

variable [Field K] [LinearOrder K]

/-- One agglomerate. -/
theorem deviceAggStep_ok (debug : Bool) (junk : K)
    (sygvd : ℕ → List K → List K → List K × List K × Bool) (m : ℕ) (hm : 0 < m) (p : Patch K)
    (hp : p.Fits m) (hc : SygvdContract sygvd p.n p.a) (s : Collected K × DevHeap)
    (hs : s.2.Sound) :
    ∃ c h' b d, deviceAggStep debug junk sygvd m s p.dev = .ok (copyLocalToGlobal s.1 c, h') ∧
      p.Gives m c ∧ c.eigenvalues = [] ∧ h'.Sound ∧ s.2.next ≤ d ∧ d < h'.next ∧ s.2.next ≤ b ∧
      b < h'.next ∧ h'.live = b :: d :: s.2.live := by
  obtain ⟨r, hr, hsm, hd⟩ := C67_smallest_partial debug p.n m hm hp.enough hp.small p.a sygvd hc
    p.sched hp.sched_valid junk
  obtain ⟨b, w, hb, hmem, hw1, hw2⟩ := eigMem_ok p.descr s.2
  have hl1 := hsm.vectors_length
  have hl2 : r.diag.length = p.n := by rw [hd, List.length_ofFn]
  refine ⟨⟨[], cutVectors r.vectors p.n m, r.diag, p.dofMap⟩, ⟨b + 9, (b + 7) :: b :: s.2.live, w⟩,
    b + 7, b, ?_, ⟨rfl, hd, cutVectors_length _ _ _, cutVectors_mem _ _ _ hl1, r.values, ?_⟩, rfl, ?_,
    hb, ?_, ?_, ?_, rfl⟩
  · unfold deviceAggStep Patch.dev
    simp only [hr, Outcome.ok_bind, hmem]
    simp [DevHeap.use, DevHeap.free, hw1, hw2, hp.dofs_length, copyToHost, hl1, hl2,
      List.take_of_length_le, copyLocalToGlobal, cutVectors_length]
  · rw [cutVectors_flatten, List.take_of_length_le (by rw [hl1])]
    exact hsm
  · intro q hq
    simp only [List.mem_cons] at hq
    rcases hq with rfl | rfl | hq
    · simp
    · simp
    · have := hs q hq
      simp only
      omega
  · simp
  · omega
  · simp

/-- All agglomerates of one process. -/
theorem deviceSetup_ok (debug : Bool) (junk : K)
    (sygvd : ℕ → List K → List K → List K × List K × Bool) (m : ℕ) (hm : 0 < m) (h : DevHeap)
    (hs : h.Sound) (ps : List (Patch K)) (hp : ∀ p ∈ ps, p.Fits m)
    (hc : ∀ p ∈ ps, SygvdContract sygvd p.n p.a) :
    ∃ cs h' leaks, deviceSetup debug junk sygvd m h (ps.map Patch.dev) = .ok (collect cs, h') ∧
      List.Forall₂ (fun p c => p.Gives m c) ps cs ∧ h'.Sound ∧
      h.Leaks h' leaks ∧ leaks.length = 2 * ps.length := by
  have key : ∀ (ps : List (Patch K)) (s : Collected K × DevHeap), s.2.Sound →
      (∀ p ∈ ps, p.Fits m) → (∀ p ∈ ps, SygvdContract sygvd p.n p.a) →
      ∃ cs h' leaks, (ps.map Patch.dev).foldlM (deviceAggStep debug junk sygvd m) s =
          .ok (cs.foldl copyLocalToGlobal s.1, h') ∧
        List.Forall₂ (fun p c => p.Gives m c) ps cs ∧ h'.Sound ∧
        s.2.Leaks h' leaks ∧ leaks.length = 2 * ps.length ∧ s.2.next ≤ h'.next := by
    intro ps
    induction ps with
    | nil => intro s hs _ _; exact ⟨[], s.2, [], rfl, .nil, hs, ⟨by simp, by simp⟩, rfl, le_rfl⟩
    | cons p ps ih =>
      intro s hs hp hc
      obtain ⟨c, h1, b, d, e, hg, -, hs1, hd, hd', hb, hb', hlive⟩ :=
        deviceAggStep_ok debug junk sygvd m hm p (hp p (by simp)) (hc p (by simp)) s hs
      obtain ⟨cs, h', leaks, e', hgs, hs', ⟨hperm, hrange⟩, hlen, hle⟩ :=
        ih (copyLocalToGlobal s.1 c, h1) hs1 (fun q hq => hp q (by simp [hq]))
          (fun q hq => hc q (by simp [hq]))
      have hle1 : s.2.next ≤ h1.next := by omega
      simp only at hle hperm hrange
      refine ⟨c :: cs, h', leaks ++ [b, d], ?_, .cons hg hgs, hs', ⟨?_, ?_⟩, ?_, by omega⟩
      · rw [List.map_cons, List.foldlM_cons, e, Outcome.ok_bind, e']
        rfl
      · rw [List.append_assoc]
        refine hperm.trans ?_
        rw [hlive]
        rfl
      · intro q hq
        simp only [List.mem_append, List.mem_cons, List.not_mem_nil, or_false] at hq
        rcases hq with hq | rfl | rfl
        · have := hrange q hq
          omega
        · omega
        · omega
      · rw [List.length_append, hlen]
        simp only [List.length_cons, List.length_nil]
        omega
  obtain ⟨cs, h', leaks, e, hg, hs', hl, hlen, -⟩ := key ps (⟨[], [], [], [], []⟩, h) hs hp hc
  exact ⟨cs, h', leaks, e, hg, hs', hl, hlen⟩

/-- **C68**, the matrix.  If every agglomerate has at least as many dofs as eigenvectors are asked for, and
`cusolverDnDsygvd` computes eigenpairs, then the rows of the restriction matrix set up on the device are
the eigenvectors of the smallest eigenvalues of the agglomerates, agglomerate by agglomerate and process by
process, weighted with the share of the agglomerate in the global diagonal.

Missing: agglomerates with fewer dofs, where the code reads past the end of arrays
(`C67_many_violated`). -/
theorem C68_rows_partial (debug dynAdds : Bool) (junk : K)
    (sygvd : ℕ → List K → List K → List K × List K × Bool) (m : ℕ) (hm : 0 < m) (gdiag : ℕ → K)
    (ranks : List (DevHeap × List (Patch K))) (hs : ∀ r ∈ ranks, r.1.Sound)
    (hp : ∀ r ∈ ranks, ∀ p ∈ r.2, p.Fits m)
    (hc : ∀ r ∈ ranks, ∀ p ∈ r.2, SygvdContract sygvd p.n p.a) :
    ∃ (a : Assembled K) (heaps : List DevHeap) (cs : List (CopyData K)),
      deviceRestrictor debug dynAdds junk sygvd m gdiag
        (ranks.map fun r => (r.1, r.2.map Patch.dev)) = .ok (a, heaps) ∧
      List.Forall₂ (fun p c => p.Gives m c) (ranks.flatMap (·.2)) cs ∧
      (∀ (q : ℕ) (c : CopyData K) (v : List K), (rowsOf cs)[q]? = some (c, v) →
        ∀ x, a.R q x = extend c.dofMap c.diag x / gdiag x * extend c.dofMap v x) ∧
      ∀ q, m * (ranks.flatMap (·.2)).length ≤ q → ∀ x, a.R q x = 0 := by
  have key : ∀ ranks : List (DevHeap × List (Patch K)), (∀ r ∈ ranks, r.1.Sound) →
      (∀ r ∈ ranks, ∀ p ∈ r.2, p.Fits m) →
      (∀ r ∈ ranks, ∀ p ∈ r.2, SygvdContract sygvd p.n p.a) →
      ∃ (rs : List (Collected K × DevHeap)) (css : List (List (CopyData K))), (ranks.map fun r => (r.1, r.2.map Patch.dev)).mapM
          (fun r => deviceSetup debug junk sygvd m r.1 r.2) = .ok rs ∧
        rs.map (·.1) = css.map collect ∧
        List.Forall₂ (fun p c => p.Gives m c) (ranks.flatMap (·.2)) css.flatten := by
    intro ranks
    induction ranks with
    | nil => intro _ _ _; exact ⟨[], [], rfl, rfl, .nil⟩
    | cons r ranks ih =>
      intro hs hp hc
      obtain ⟨cs, h', leaks, e, hg, -, -, -⟩ := deviceSetup_ok debug junk sygvd m hm r.1
        (hs r (by simp)) r.2 (hp r (by simp)) (hc r (by simp))
      obtain ⟨rs, css, e', hcs, hgs⟩ := ih (fun q hq => hs q (by simp [hq]))
        (fun q hq => hp q (by simp [hq])) (fun q hq => hc q (by simp [hq]))
      refine ⟨(collect cs, h') :: rs, cs :: css, ?_, by simp [hcs], ?_⟩
      · rw [List.map_cons, List.mapM_cons, e, Outcome.ok_bind, e']
        rfl
      · rw [List.flatMap_cons, List.flatten_cons]
        exact List.rel_append hg hgs
  obtain ⟨rs, css, e, hcs, hgs⟩ := key ranks hs hp hc
  have hfit : ∀ p ∈ ranks.flatMap (·.2), p.Fits m := by
    intro p hpm
    obtain ⟨r, hr, hpr⟩ := List.mem_flatMap.1 hpm
    exact hp r hr p hpr
  have hwf : ∀ (ps : List (Patch K)) (cs : List (CopyData K)),
      List.Forall₂ (fun p c => p.Gives m c) ps cs → (∀ p ∈ ps, p.Fits m) →
      (∀ c ∈ cs, c.WellFormed) ∧ (rowsOf cs).length = m * ps.length := by
    intro ps cs hf
    induction hf with
    | nil => intro _; simp [rowsOf]
    | @cons p c ps cs hpc _ ih =>
      intro hfit
      obtain ⟨h1, h2⟩ := ih (fun q hq => hfit q (by simp [hq]))
      have hpf := hfit p (by simp)
      refine ⟨?_, ?_⟩
      · intro c' hc'
        rcases List.mem_cons.1 hc' with rfl | hc'
        · refine ⟨?_, ?_, ?_⟩
          · rw [hpc.dofMap]; exact hpf.dofs_nodup
          · rw [hpc.diag, hpc.dofMap, List.length_ofFn, hpf.dofs_length]
          · intro v hv
            rw [hpc.length v hv, hpc.dofMap, hpf.dofs_length]
        · exact h1 c' hc'
      · rw [rowsOf, List.flatMap_cons, List.length_append, ← rowsOf, h2, List.length_map, hpc.count,
          List.length_cons]
        ring
  obtain ⟨hw, hlen⟩ := hwf _ _ hgs hfit
  obtain ⟨a, ha, hrows, hzero⟩ := C20_rows debug dynAdds gdiag css
    (fun cs hcs' c hc' => hw c (List.mem_flatten.2 ⟨cs, hcs', hc'⟩))
  refine ⟨a, rs.map (·.2), css.flatten, ?_, hgs, hrows, ?_⟩
  · unfold deviceRestrictor
    rw [e, Outcome.ok_bind, hcs, ha]
    rfl
  · intro q hq
    exact hzero q (by rw [hlen]; exact hq)

/-- **C68**, the memory.  Setting up the restriction matrix should leave nothing behind on the device, but
for every agglomerate two allocations are never freed (the matrix descriptor and the array of the smallest
eigenvalues, which `setup_restrictor` ignores); all others are freed. -/
theorem C68_leaks_violated (debug : Bool) (junk : K)
    (sygvd : ℕ → List K → List K → List K × List K × Bool) (m : ℕ) (hm : 0 < m) (h : DevHeap)
    (hs : h.Sound) (ps : List (Patch K)) (hp : ∀ p ∈ ps, p.Fits m)
    (hc : ∀ p ∈ ps, SygvdContract sygvd p.n p.a) :
    ∃ col h' leaks, deviceSetup debug junk sygvd m h (ps.map Patch.dev) = .ok (col, h') ∧
      h.Leaks h' leaks ∧ leaks.length = 2 * ps.length := by
  obtain ⟨cs, h', leaks, e, -, -, hl, hlen⟩ := deviceSetup_ok debug junk sygvd m hm h hs ps hp hc
  exact ⟨_, h', leaks, e, hl, hlen⟩

section

/-- Two agglomerates that share the dof 11. -/
def exPatch (dofs : List ℕ) (descr : Bool) : Patch ℚ := ⟨2, exSym, dofs, descr, exEigenSchedule 1 2⟩

def exDevHeap : DevHeap := ⟨5, [2, 4], [2]⟩

theorem exPatch_fits (i j : ℕ) (h : i ≠ j) (descr : Bool) : (exPatch [i, j] descr).Fits 1 :=
  ⟨by simp [exPatch], by simp [exPatch], rfl, by simpa [exPatch] using h,
    exEigenSchedule_valid 1 2⟩

example : ∃ (a : Assembled ℚ) (heaps : List DevHeap) (cs : List (CopyData ℚ)),
    deviceRestrictor true true 7 exSygvd 1 (fun _ => 4)
      ([(exDevHeap, [exPatch [10, 11] true]), (exDevHeap, [exPatch [11, 12] false])].map
        fun r => (r.1, r.2.map Patch.dev)) = .ok (a, heaps) ∧
    List.Forall₂ (fun p c => p.Gives 1 c) [exPatch [10, 11] true, exPatch [11, 12] false] cs ∧
    (∀ (q : ℕ) (c : CopyData ℚ) (v : List ℚ), (rowsOf cs)[q]? = some (c, v) →
      ∀ x, a.R q x = extend c.dofMap c.diag x / 4 * extend c.dofMap v x) ∧
    ∀ q, 2 ≤ q → ∀ x, a.R q x = 0 := by
  refine C68_rows_partial true true 7 exSygvd 1 (by norm_num) (fun _ => 4)
    [(exDevHeap, [exPatch [10, 11] true]), (exDevHeap, [exPatch [11, 12] false])] ?_ ?_ ?_
  · simp [DevHeap.Sound, exDevHeap]
  · intro r hr p hp
    simp only [List.mem_cons, List.not_mem_nil, or_false] at hr
    rcases hr with rfl | rfl <;> (rw [List.mem_singleton] at hp; subst hp)
    · exact exPatch_fits 10 11 (by norm_num) true
    · exact exPatch_fits 11 12 (by norm_num) false
  · intro r hr p hp
    simp only [List.mem_cons, List.not_mem_nil, or_false] at hr
    rcases hr with rfl | rfl <;> (rw [List.mem_singleton] at hp; subst hp; exact exSygvd_contract)

example : ∃ col h' leaks, deviceSetup true 7 exSygvd 1 exDevHeap
      ([exPatch [10, 11] true, exPatch [11, 12] false].map Patch.dev) = .ok (col, h') ∧
    exDevHeap.Leaks h' leaks ∧ leaks.length = 4 := by
  refine C68_leaks_violated true 7 exSygvd 1 (by norm_num) exDevHeap ?_
    [exPatch [10, 11] true, exPatch [11, 12] false] ?_ ?_
  · simp [DevHeap.Sound, exDevHeap]
  · intro p hp
    simp only [List.mem_cons, List.not_mem_nil, or_false] at hp
    rcases hp with rfl | rfl
    · exact exPatch_fits 10 11 (by norm_num) true
    · exact exPatch_fits 11 12 (by norm_num) false
  · intro p hp
    simp only [List.mem_cons, List.not_mem_nil, or_false] at hp
    rcases hp with rfl | rfl <;> exact exSygvd_contract

end

end Mfmg
