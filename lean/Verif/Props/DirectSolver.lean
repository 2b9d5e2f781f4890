import Verif.Spec.DirectSolver
import Verif.Props.DeviceSmoother
import Verif.Props.DeviceSetup

/-!
# C69: direct solvers on the device
-/

set_option autoImplicit false

namespace Mfmg

variable {K : Type} [Field K]

/-- The dense matrix with these rows. -/
def denseOf (rows : List (List (ℕ × K))) : Matrix (Fin rows.length) (Fin rows.length) K :=
  fun i j => (rows[i].lookup (j : ℕ)).getD 0

theorem sum_lookup (n : ℕ) (f : ℕ → K) (r : List (ℕ × K)) (hn : (r.map Prod.fst).Nodup)
    (hc : ∀ e ∈ r, e.1 < n) : ∑ j : Fin n, (r.lookup (j : ℕ)).getD 0 * f j = rowTimes r f := by
  induction r with
  | nil => simp [rowTimes]
  | cons e r ih =>
    rw [List.map_cons, List.nodup_cons] at hn
    have hnone : r.lookup e.1 = none :=
      lookup_none r e.1 (fun v hv => hn.1 (List.mem_map.2 ⟨(e.1, v), hv, rfl⟩))
    have hterm : ∀ j : Fin n, ((e :: r).lookup (j : ℕ)).getD 0 * f j =
        (if j = ⟨e.1, hc e (by simp)⟩ then e.2 * f j else 0) + (r.lookup (j : ℕ)).getD 0 * f j := by
      intro j
      by_cases h : j = ⟨e.1, hc e (by simp)⟩
      · subst h
        have : (e :: r).lookup e.1 = some e.2 := by cases e; simp
        simp [hnone, this]
      · have h' : ((j : ℕ) == e.1) = false := by
          rw [beq_eq_false_iff_ne]
          intro he
          exact h (Fin.ext he)
        rw [if_neg h, List.lookup_cons, h']
        simp
    rw [Finset.sum_congr rfl (fun j _ => hterm j), Finset.sum_add_distrib,
      ih hn.2 (fun e he => hc e (by simp [he])), Finset.sum_ite_eq' Finset.univ]
    simp [rowTimes]

theorem denseOf_mulVec (rows : List (List (ℕ × K))) (hr : SquareRows rows) (f : ℕ → K)
    (i : Fin rows.length) :
    (denseOf rows).mulVec (fun j => f j) i = rowTimes rows[i] f := by
  obtain ⟨h1, h2⟩ := hr rows[i] (List.getElem_mem i.2)
  exact sum_lookup rows.length f rows[i] h1 h2

theorem solves_iff (rows : List (List (ℕ × K))) (hr : SquareRows rows) (x b : List K) :
    Solves rows x b ↔ x.length = rows.length ∧
      ∀ i : Fin rows.length, (denseOf rows).mulVec (fun j => x.getD j 0) i = b.getD i 0 := by
  constructor
  · rintro ⟨h1, h2⟩
    exact ⟨h1, fun i => (denseOf_mulVec rows hr (fun j => x.getD j 0) i).trans (h2 i i.2)⟩
  · rintro ⟨h1, h2⟩
    exact ⟨h1, fun i hi => (denseOf_mulVec rows hr (fun j => x.getD j 0) ⟨i, hi⟩).symm.trans
      (h2 ⟨i, hi⟩)⟩

theorem getD_ofFn_fin {n : ℕ} (u : Fin n → K) (j : Fin n) : (List.ofFn u).getD (j : ℕ) 0 = u j := by
  rw [List.getD_eq_getElem?_getD, List.getElem?_eq_getElem (by simp), Option.getD_some,
    List.getElem_ofFn]

theorem nonsingular_iff (rows : List (List (ℕ × K))) (hr : SquareRows rows) :
    Nonsingular rows ↔ DenseNonsingular (denseOf rows) := by
  constructor
  · intro h u hu
    have := h (List.ofFn u) ((solves_iff rows hr _ _).2 ⟨by simp, fun i => ?_⟩)
    · funext j
      rw [← getD_ofFn_fin u j, this]
      simp
    · have e : (fun j : Fin rows.length => (List.ofFn u).getD (j : ℕ) 0) = u :=
        funext fun j => getD_ofFn_fin u j
      rw [e, hu]
      simp
  · intro h x hx
    obtain ⟨h1, h2⟩ := (solves_iff rows hr _ _).1 hx
    have := h (fun j => x.getD j 0) (funext fun i => by rw [h2 i]; simp)
    apply List.ext_getElem (by simp [h1])
    intro i hi1 hi2
    have hi : i < rows.length := by rwa [h1] at hi1
    have e := congrFun this ⟨i, hi⟩
    simp only [List.getD_eq_getElem?_getD, List.getElem?_eq_getElem hi1, Option.getD_some] at e
    rw [e]
    simp

/-- The dense form of a matrix. -/
theorem csr2dense_ok (rows : List (List (ℕ × K))) (hr : SquareRows rows) (c : Csr K)
    (hc : c.HasRows rows) : csr2dense c rows.length rows.length = .ok (columnMajor (denseOf rows)) := by
  have hlen : c.rowPtr.length = rows.length + 1 := by rw [hc.ptrs]; simp
  have hlast : c.rowPtr.getD rows.length 0 = (rows.map List.length).sum := by
    rw [hc.ptrs, List.getD_eq_getElem?_getD, List.getElem?_map, List.getElem?_range (by omega)]
    simp [rowStart]
  have hrow : ∀ i (h : i < rows.length), csrSlice c i = rows[i] := hc.rows_eq
  unfold csr2dense
  rw [if_neg (by omega), hlast, hc.vals, hc.cols, if_neg (by omega), if_neg]
  · congr 2
    apply List.ext_getElem (by simp)
    intro j hj1 hj2
    apply List.ext_getElem (by simp)
    intro i hi1 hi2
    have hi : i < rows.length := by simpa using hi1
    simp [hrow i hi, denseOf]
  · rintro ⟨i, hi, e, he, hge⟩
    rw [List.mem_range] at hi
    rw [hrow i hi] at he
    exact absurd ((hr _ (List.getElem_mem hi)).2 e he) (by omega)

/-- The dense solver frees what it allocates. -/
theorem luDenseSolve_eq (debug : Bool) (lib : CuSolver K) (a : SolverMatrix K) (b x : List K)
    (h : DevHeap) (hmn : a.m = a.n) (hw : 0 < lib.workspace a.m) (mat : List K)
    (hmat : csr2dense a.csr a.m a.n = .ok mat) (hb : b.length = a.m) (hx : x.length = a.m) :
    ∃ h', h'.live = h.live ∧ luDenseSolve debug lib a b x h = (do
      Outcome.assert debug ((lib.getrf a.m mat).2.2 = 0)
      let r := lib.getrs a.m (lib.getrf a.m mat).1 (lib.getrf a.m mat).2.1 b
      Outcome.assert debug (r.2 = 0)
      pure (r.1, h')) := by
  refine ⟨⟨h.next + 4, h.live, h.next :: h.written⟩, rfl, ?_⟩
  unfold luDenseSolve
  simp only [hmn, decide_true, Outcome.assert_true, Outcome.ok_bind, DevHeap.allocWritten,
    DevHeap.alloc, DevHeap.write]
  rw [hmn] at hmat hb hx
  have hw' : 0 < lib.workspace a.n := hmn ▸ hw
  simp only [hmat, Outcome.ok_bind, hw', decide_true, Outcome.assert_true]
  rw [if_neg (by omega), List.take_of_length_le (by omega), List.drop_eq_nil_of_le (by omega),
    List.append_nil]
  simp [DevHeap.free, Nat.add_assoc]

theorem copyToHost_all {α : Type} (l : List α) (n : ℕ) (h : l.length = n) :
    copyToHost l n = .ok l := by
  unfold copyToHost
  rw [if_pos (by omega), List.take_of_length_le (by omega)]

omit [Field K] in
theorem luSparseSolve_eq (debug : Bool) (lib : CuSolver K) (rows : List (List (ℕ × K)))
    (a : SolverMatrix K) (ha : a.Serial rows) (b x : List K) (hb : b.length = rows.length)
    (hx : x.length = rows.length) : luSparseSolve debug lib a b x = (do
      Outcome.assert debug ((lib.lu rows.length (rows.map List.length).sum a.csr b).2 = -1)
      pure (lib.lu rows.length (rows.map List.length).sum a.csr b).1) := by
  obtain ⟨hc, hm, hn, hz⟩ := ha
  have hlen : a.csr.rowPtr.length = rows.length + 1 := by rw [hc.ptrs]; simp
  unfold luSparseSolve
  rw [hm, hz, copyToHost_all _ _ hc.vals, copyToHost_all _ _ hc.cols, copyToHost_all _ _ hlen,
    copyToHost_all _ _ hb, copyToHost_all _ _ hx]
  simp only [Outcome.ok_bind]
  rw [List.drop_eq_nil_of_le (by omega), List.append_nil]

variable [LinearOrder K]

/-- **C69**, solutions.  On one process the three direct solvers return the solution of the system
(`cholesky` if the matrix is symmetric and positive definite, the others if it is not singular), in debug
and release builds, with host and device vectors, and leave no memory behind.

Missing: several processes (`C69_shared_violated`), singular matrices (`C69_singular_violated`). -/
theorem C69_solves_partial (debug host : Bool) (lib : CuSolver K) (hlib : lib.Correct) (name : List Char)
    (rows : List (List (ℕ × K))) (hr : SquareRows rows) (a : SolverMatrix K) (ha : a.Serial rows)
    (hname : name = chars! "cholesky" ∧ PositiveDefinite rows ∨
      (name = chars! "lu_dense" ∨ name = chars! "lu_sparse_host") ∧ Nonsingular rows)
    (b x : List K) (hb : b.length = rows.length) (hx : x.length = rows.length) (h : DevHeap) :
    ∃ x' h', directSolverApply debug host lib name (some a) b x h = .ok (x', h') ∧
      Solves rows x' b ∧ h'.live = h.live := by
  obtain ⟨hc, hm, hn, hz⟩ := ha
  have hlen : a.csr.rowPtr.length = rows.length + 1 := by rw [hc.ptrs]; simp
  have key : ∀ h, ∃ x' h', directApply debug lib name a b x h = .ok (x', h') ∧
      Solves rows x' b ∧ h'.live = h.live := by
    intro h
    rcases hname with ⟨rfl, hpd⟩ | ⟨rfl | rfl, hns⟩
    · obtain ⟨x', e, hs⟩ := hlib.chol rows a.csr b hr hc hpd hb
      refine ⟨x', h, ?_, hs, rfl⟩
      unfold directApply choleskySolve
      rw [if_pos rfl, hm, hz, hc.vals, hc.cols, if_neg (by omega), if_neg (by omega),
        if_neg (by omega), e]
      simp only [decide_true, Outcome.assert_true, Outcome.ok_bind]
      rw [List.drop_eq_nil_of_le (by omega), List.append_nil]
      rfl
    · obtain ⟨f, p, e, hsol⟩ := hlib.getrf rows.length (denseOf rows) ((nonsingular_iff rows hr).1 hns)
      obtain ⟨x', e', hl, hs⟩ := hsol b hb
      obtain ⟨h', hlive, heq⟩ := luDenseSolve_eq debug lib a b x h (by rw [hm, hn])
        (hlib.workspace _) (columnMajor (denseOf rows))
        (by rw [hm, hn]; exact csr2dense_ok rows hr _ hc) (by rw [hm, hb]) (by rw [hm, hx])
      refine ⟨x', h', ?_, (solves_iff rows hr _ _).2 ⟨hl, hs⟩, hlive⟩
      unfold directApply
      rw [if_neg (by decide), if_pos rfl, heq, hm, e]
      simp only [decide_true, Outcome.assert_true, Outcome.ok_bind, e']
      rfl
    · obtain ⟨x', e, hs⟩ := hlib.lu rows a.csr b hr hc hns hb
      refine ⟨x', h, ?_, hs, rfl⟩
      unfold directApply
      rw [if_neg (by decide), if_neg (by decide), if_pos rfl,
        luSparseSolve_eq debug lib rows a ⟨hc, hm, hn, hz⟩ b x hb hx, e]
      simp only [decide_true, Outcome.assert_true, Outcome.ok_bind]
      rfl
  simp only [directSolverApply]
  cases host
  · simpa using key h
  · obtain ⟨x', h', e, hs, hlive⟩ := key ((h.allocWritten).2.allocWritten).2
    have hlive' : h'.live = (h.next + 1) :: h.next :: h.live := hlive
    refine ⟨x', ⟨h'.next, h.live, h'.written⟩, ?_, hs, rfl⟩
    simp only [if_true, directApplyHost, e, Outcome.ok_bind]
    rw [copyToHost_all _ _ (by rw [hs.1, hx])]
    simp [DevHeap.free, hlive', DevHeap.allocWritten, DevHeap.alloc, DevHeap.write]

/-- **C69**, singular matrices.  Both LU solvers should report a singular matrix.  Debug builds abort, but
release builds return normally, whatever the vector they return. -/
theorem C69_singular_violated (lib : CuSolver K) (hlib : lib.Correct) (name : List Char)
    (rows : List (List (ℕ × K))) (hr : SquareRows rows) (a : SolverMatrix K) (ha : a.Serial rows)
    (hname : name = chars! "lu_dense" ∨ name = chars! "lu_sparse_host") (hs : ¬ Nonsingular rows)
    (b x : List K) (hb : b.length = rows.length) (hx : x.length = rows.length) (h : DevHeap) :
    directSolverApply true false lib name (some a) b x h = .aborted ∧
    ∃ x' h', directSolverApply false false lib name (some a) b x h = .ok (x', h') ∧
      x'.length = rows.length := by
  obtain ⟨hc, hm, hn, hz⟩ := ha
  simp only [directSolverApply, Bool.false_eq_true, if_false]
  rcases hname with rfl | rfl
  · have hinfo := hlib.getrf_singular rows.length (denseOf rows)
      (fun hd => hs ((nonsingular_iff rows hr).2 hd))
    obtain ⟨h1, -, e1⟩ := luDenseSolve_eq true lib a b x h (by rw [hm, hn])
      (hlib.workspace _) (columnMajor (denseOf rows)) (by rw [hm, hn]; exact csr2dense_ok rows hr _ hc)
      (by rw [hm, hb]) (by rw [hm, hx])
    obtain ⟨h2, -, e2⟩ := luDenseSolve_eq false lib a b x h (by rw [hm, hn])
      (hlib.workspace _) (columnMajor (denseOf rows)) (by rw [hm, hn]; exact csr2dense_ok rows hr _ hc)
      (by rw [hm, hb]) (by rw [hm, hx])
    unfold directApply
    rw [if_neg (by decide), if_pos rfl, if_neg (by decide), if_pos rfl, e1, e2, hm]
    refine ⟨?_, _, h2, rfl, hlib.getrs_length _ _ _ _⟩
    simp [Outcome.assert, hinfo]
  · have hsing := hlib.lu_singular rows a.csr b hr hc hs hb
    unfold directApply
    rw [if_neg (by decide), if_neg (by decide), if_pos rfl, if_neg (by decide), if_neg (by decide),
      if_pos rfl, luSparseSolve_eq true lib rows a ⟨hc, hm, hn, hz⟩ b x hb hx,
      luSparseSolve_eq false lib rows a ⟨hc, hm, hn, hz⟩ b x hb hx]
    refine ⟨?_, _, h, rfl, hlib.lu_length rows a.csr b hc⟩
    simp [Outcome.assert, hsing]

omit [LinearOrder K] in
/-- **C69**, several processes.  Wherever a process does not store all rows, each of the three solvers
reads past the end of its row pointers. -/
theorem C69_shared_violated (debug host : Bool) (lib : CuSolver K) (name : List Char)
    (rows : List (List (ℕ × K))) (a : SolverMatrix K) (ha : a.Shared rows) (hsq : a.m = a.n)
    (hname : name = chars! "cholesky" ∨ name = chars! "lu_dense" ∨ name = chars! "lu_sparse_host")
    (b x : List K) (h : DevHeap) :
    ∃ why, directSolverApply debug host lib name (some a) b x h = .ub why := by
  obtain ⟨hc, hm, hz⟩ := ha
  have hlen : a.csr.rowPtr.length = rows.length + 1 := by rw [hc.ptrs]; simp
  have key : ∀ h, ∃ why, directApply debug lib name a b x h = .ub why := by
    intro h
    rcases hname with rfl | rfl | rfl
    · refine ⟨"row_ptr", ?_⟩
      unfold directApply choleskySolve
      rw [if_pos rfl, if_pos (by omega)]
      rfl
    · refine ⟨"row_ptr", ?_⟩
      unfold directApply luDenseSolve csr2dense
      rw [if_neg (by decide), if_pos rfl, if_pos (by omega)]
      simp only [hsq, decide_true, Outcome.assert_true, Outcome.ok_bind, Outcome.ub_bind]
    · refine ⟨"read past the end of a device array", ?_⟩
      unfold directApply luSparseSolve
      rw [if_neg (by decide), if_neg (by decide), if_pos rfl]
      unfold copyToHost
      rw [if_neg (show ¬ a.m + 1 ≤ a.csr.rowPtr.length by omega)]
      split <;> split <;> simp
  simp only [directSolverApply]
  cases host
  · simpa using key h
  · obtain ⟨why, e⟩ := key ((h.allocWritten).2.allocWritten).2
    refine ⟨why, ?_⟩
    simp only [if_true, directApplyHost, e, Outcome.ub_bind]

omit [LinearOrder K] in
/-- **C69**, names.  Every other name is reported by an exception, and nothing is allocated or solved. -/
theorem C69_unknown (debug : Bool) (lib : CuSolver K) (name : List Char) (a : SolverMatrix K)
    (hname : name ≠ chars! "cholesky" ∧ name ≠ chars! "lu_dense" ∧ name ≠ chars! "lu_sparse_host")
    (b x : List K) (h : DevHeap) (host : Bool) :
    ∃ msg, directSolverApply debug host lib name (some a) b x h = .throws msg := by
  obtain ⟨h1, h2, h3⟩ := hname
  refine ⟨"The provided solver name " ++ String.ofList name ++ " is invalid.", ?_⟩
  cases host <;> simp [directSolverApply, directApplyHost, directApply, h1, h2, h3]

omit [LinearOrder K] in
/-- **C69**, operators.  With an operator that is not a matrix on the device (such as the matrix-free one) neither a
solution nor an error is given: the null result of the cast is dereferenced, for every solver name, in debug
builds too. -/
theorem C69_operator_violated (debug host : Bool) (lib : CuSolver K) (name : List Char) (b x : List K)
    (h : DevHeap) : ∃ why, directSolverApply debug host lib name none b x h = .ub why := ⟨_, rfl⟩

example (h : DevHeap) := C69_operator_violated true false
  (⟨fun _ _ _ b => (b, 0), fun _ _ _ b => (b, 0), fun _ a => (a, [], 0), fun _ _ _ b => (b, 0), fun _ => 1⟩ :
    CuSolver ℚ) "lu_dense".toList [1] [0] h

end Mfmg
