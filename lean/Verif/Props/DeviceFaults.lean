import Verif.Lemmas.DeviceFaults
import Verif.Examples.DirectSolver
import Verif.Props.Amgx

/-!
# C95: errors of the device are reported (direct solvers, AMGX, handles)
-/

set_option autoImplicit false

namespace Mfmg

section

variable {K : Type} [Field K]

theorem strict_direct (m : Machine K) (host : Bool) (lib : CuSolver K) (name : List Char)
    (a : SolverMatrix K) (b x : List K) :
    Strict m (directSolverF m host lib name a b x) (directSolverF m.clean host lib name a b x) := by
  have key : ∀ b x, Strict m (directF m lib name a b x) (directF m.clean lib name a b x) := by
    intro b x
    unfold directF
    split_ifs
    · unfold choleskyF
      split_ifs
      · exact strict_of m _
      · exact strict_of m _
      · exact strict_of m _
      · exact (strict_call m _ _ _ _).bind fun _ => (strict_of m _).bind fun _ => strict_pure m _
    · unfold luDenseF
      refine (strict_of m _).bind fun _ => (strict_malloc m _ _).bind fun _ =>
        (strict_of m _).bind fun _ => (strict_call m _ _ _ _).bind fun _ =>
        (strict_call m _ _ _ _).bind fun _ => (strict_of m _).bind fun _ =>
        (strict_malloc m _ _).bind fun _ => (strict_malloc m _ _).bind fun _ =>
        (strict_malloc m _ _).bind fun _ => (strict_of m _).bind fun _ =>
        (strict_of m _).bind fun _ => (strict_of m _).bind fun _ =>
        (strict_call m _ _ _ _).bind fun _ =>
        (strict_checkInfo m _).bind fun _ => ?_
      split_ifs
      · exact strict_of m _
      · exact (strict_copy m _ _ _).bind fun _ => (strict_call m _ _ _ _).bind fun _ =>
          (strict_checkInfo m _).bind fun _ =>
          (strict_free m _).bind fun _ => (strict_free m _).bind fun _ =>
          (strict_free m _).bind fun _ => (strict_free m _).bind fun _ => strict_pure m _
    · exact (strict_toHost m _ _ _ _).bind fun _ => (strict_toHost m _ _ _ _).bind fun _ =>
        (strict_toHost m _ _ _ _).bind fun _ => (strict_toHost m _ _ _ _).bind fun _ =>
        (strict_toHost m _ _ _ _).bind fun _ => (strict_call m _ _ _ _).bind fun _ =>
        (strict_of m _).bind fun _ => strict_call m _ _ _ _
    · exact strict_of m _
  cases host
  · exact key b x
  · exact (strict_copy m _ _ _).bind fun _ => (strict_copy m _ _ _).bind fun _ =>
      (key _ _).bind fun _ => strict_toHost m _ _ _ _

omit [Field K] in
theorem values_length (m : Machine K) (size n : ℕ) : (m.values size n).length = size := by
  simp [Machine.values]

omit [Field K] in
theorem indices_length (m : Machine K) (size n : ℕ) : (m.indices size n).length = size := by
  simp [Machine.indices]

/-- Without faults the direct solvers do what `Model/DirectSolver.lean` says. -/
theorem direct_clean (m : Machine K) (host : Bool) (lib : CuSolver K) (name : List Char)
    (a : SolverMatrix K) (b x x' : List K) (h h' : DevHeap) (c : ℕ) (p : Bool)
    (e : directSolverApply m.debug host lib name (some a) b x h = .ok (x', h')) :
    ∃ c', directSolverF m.clean host lib name a b x ⟨c, p, false⟩ = .ok (x', ⟨c', p, false⟩) := by
  have hf : ∀ c, m.clean.fault c = .none := fun _ => rfl
  have hdb : m.clean.debug = m.debug := rfl
  have key : ∀ (c : ℕ) (h h' : DevHeap) (x' : List K), directApply m.debug lib name a b x h = .ok (x', h') →
      ∃ c', directF m.clean lib name a b x ⟨c, p, false⟩ = .ok (x', ⟨c', p, false⟩) := by
    intro c h h' x' e
    unfold directApply at e
    unfold directF
    split_ifs at e ⊢ with h1 h2 h3
    · obtain ⟨y, e1, e2⟩ := Outcome.bind_eq_ok.1 e
      cases e2
      unfold choleskySolve at e1
      unfold choleskyF
      split_ifs at e1 ⊢
      obtain ⟨u, e2, e3⟩ := Outcome.bind_eq_ok.1 e1
      refine ⟨c + 1, ?_⟩
      simp only [Dev.bind_apply, call_none (hf _), Dev.of_ok, Outcome.ok_bind, hdb, e2]
      exact congrArg (Outcome.bind · fun y => .ok (y, (⟨c + 1, p, false⟩ : DevState))) e3
    · unfold luDenseSolve at e
      obtain ⟨u1, e1, e⟩ := Outcome.bind_eq_ok.1 e
      simp only at e
      obtain ⟨mat, e2, e⟩ := Outcome.bind_eq_ok.1 e
      obtain ⟨u3, e3, e⟩ := Outcome.bind_eq_ok.1 e
      obtain ⟨u4, e4, e⟩ := Outcome.bind_eq_ok.1 e
      split_ifs at e with hl
      obtain ⟨u5, e5, e⟩ := Outcome.bind_eq_ok.1 e
      obtain ⟨v1, -, e⟩ := Outcome.bind_eq_ok.1 e
      obtain ⟨v2, -, e⟩ := Outcome.bind_eq_ok.1 e
      obtain ⟨v3, -, e⟩ := Outcome.bind_eq_ok.1 e
      obtain ⟨v4, -, e⟩ := Outcome.bind_eq_ok.1 e
      cases e
      unfold luDenseF
      obtain ⟨k1, i1⟩ := checkInfo_none (m := m.clean) (c := c + 7) (p := p) rfl _ e4
      obtain ⟨k2, i2⟩ := checkInfo_none (m := m.clean) (c := c + 7 + k1 + 2) (p := p) rfl _ e5
      simp only [Dev.bind_apply, call_none (hf _), malloc_none (hf _), Dev.of_ok, Outcome.ok_bind, hdb,
        e1, e2, e3, Ptr.arg]
      rw [show c + 1 + 1 + 1 + 1 + 1 + 1 + 1 = c + 7 from rfl, i1]
      simp only [Outcome.ok_bind, if_neg hl, Dev.bind_apply]
      rw [copy_none (hf _) _ _ _ (by simp only [List.length_take]; omega)]
      simp only [Outcome.ok_bind, call_none (hf _), Dev.of_ok]
      rw [show c + 7 + k1 + 1 + 1 = c + 7 + k1 + 2 from rfl, i2]
      simp only [Outcome.ok_bind, free_none (hf _)]
      exact ⟨_, rfl⟩
    · obtain ⟨y, e1, e2⟩ := Outcome.bind_eq_ok.1 e
      cases e2
      unfold luSparseSolve at e1
      unfold luSparseF
      obtain ⟨v1, e2, e1⟩ := Outcome.bind_eq_ok.1 e1
      obtain ⟨v2, e3, e1⟩ := Outcome.bind_eq_ok.1 e1
      obtain ⟨v3, e4, e1⟩ := Outcome.bind_eq_ok.1 e1
      obtain ⟨v4, e5, e1⟩ := Outcome.bind_eq_ok.1 e1
      obtain ⟨v5, e6, e1⟩ := Outcome.bind_eq_ok.1 e1
      obtain ⟨v6, e7, e1⟩ := Outcome.bind_eq_ok.1 e1
      cases e1
      simp only [Dev.bind_apply, call_none (hf _), toHost_none (hf _), Dev.of_ok, Outcome.ok_bind, hdb,
        e2, e3, e4, e5, e6, e7]
      exact ⟨_, rfl⟩
  cases host with
  | false => exact key c h h' x' e
  | true =>
    obtain ⟨⟨y, h2⟩, e1, e⟩ := Outcome.bind_eq_ok.1 (show directApplyHost m.debug lib name a b x h = _ from e)
    obtain ⟨z, e2, e⟩ := Outcome.bind_eq_ok.1 e
    obtain ⟨v1, -, e⟩ := Outcome.bind_eq_ok.1 e
    obtain ⟨v2, -, e⟩ := Outcome.bind_eq_ok.1 e
    cases e
    obtain ⟨c', k⟩ := key (c + 1 + 1) _ _ _ e1
    simp only [directSolverF, if_true, directHostF, Dev.bind_apply]
    rw [copy_none (hf _) _ _ _ (by simp), Outcome.ok_bind, copy_none (hf _) _ _ _ (by simp),
      Outcome.ok_bind, k, Outcome.ok_bind, toHost_none (hf _)]
    have e3 : copyToHost y x.length = .ok x' := e2
    refine ⟨c' + 1, ?_⟩
    change Dev.of (copyToHost y x.length) _ = _
    rw [e3]
    rfl

/-- **C95**, direct solvers in debug builds.  Whatever calls of CUDA, cuSPARSE and cuSOLVER fail, a direct
solver returns only if no call failed, and then it returns the solution; without failures it does return.

Missing: release builds (`C95_direct_silent_violated`, `C95_direct_violated`). -/
theorem C95_direct_partial [LinearOrder K] (m : Machine K) (hd : m.debug = true) (host : Bool)
    (lib : CuSolver K) (hlib : lib.Correct) (name : List Char) (rows : List (List (ℕ × K)))
    (hr : SquareRows rows) (a : SolverMatrix K) (ha : a.Serial rows)
    (hname : name = chars! "cholesky" ∧ PositiveDefinite rows ∨
      (name = chars! "lu_dense" ∨ name = chars! "lu_sparse_host") ∧ Nonsingular rows)
    (b x : List K) (hb : b.length = rows.length) (hx : x.length = rows.length) (s : DevState)
    (hs : s.Healthy) :
    ReportsErrors m (directSolverF m host lib name a b x) s ∧
    (∀ x' s', directSolverF m host lib name a b x s = .ok (x', s') → Solves rows x' b) ∧
    ((∀ n, m.fault n = .none) → ∃ x' s', directSolverF m host lib name a b x s = .ok (x', s')) := by
  obtain ⟨c, p, br⟩ := s
  obtain ⟨rfl, rfl⟩ : p = false ∧ br = false := hs
  obtain ⟨y, h', e, hy, -⟩ := C69_solves_partial m.debug host lib hlib name rows hr a ha hname b x hb hx
    ⟨0, [], []⟩
  obtain ⟨c', k⟩ := direct_clean m host lib name a b x y _ h' c false e
  have hst := strict_direct m host lib name a b x hd
  refine ⟨fun x' s' e' => ?_, fun x' s' e' => ?_, fun hn => ?_⟩
  · obtain ⟨-, h2, h3, -⟩ := hst _ _ _ e'
    exact ⟨h2, h3⟩
  · obtain ⟨h1, -⟩ := hst _ _ _ e'
    rw [k] at h1
    cases h1
    exact hy
  · have hm : m.clean = m := by
      cases m
      simp only [Machine.clean, Machine.mk.injEq, true_and, and_true]
      exact (funext hn).symm
    rw [hm] at k
    exact ⟨_, _, k⟩

/-- **C95**, direct solvers in release builds: nothing is ever reported.  Whatever calls fail, and whatever
matrix and vectors are given, the solver neither throws nor ends the program. -/
theorem C95_direct_silent_violated (m : Machine K) (hd : m.debug = false) (host : Bool) (lib : CuSolver K)
    (name : List Char)
    (hname : name = chars! "cholesky" ∨ name = chars! "lu_dense" ∨ name = chars! "lu_sparse_host")
    (a : SolverMatrix K) (b x : List K) (s : DevState) :
    Silent (directSolverF m host lib name a b x) s := by
  have key : ∀ b x s, Silent (directF m lib name a b x) s := by
    intro b x s
    unfold directF
    split_ifs with h1 h2 h3
    · unfold choleskyF
      split_ifs
      · exact silent_of (silent_ub _) s
      · exact silent_of (silent_ub _) s
      · exact silent_of (silent_ub _) s
      · exact (silent_call hd _ (fun _ => silent_ok _) _ s).bind fun _ s =>
          (silent_of (silent_assert hd _) s).bind fun _ s => silent_pure _ s
    · unfold luDenseF
      have hci : ∀ q s, Silent (m.checkInfo q) s := by
        intro q s
        unfold Machine.checkInfo
        rw [if_neg (by simp [hd])]
        exact silent_pure _ s
      refine (silent_of (silent_assert hd _) s).bind fun _ s => (silent_malloc hd _ _ s).bind fun _ s =>
        (silent_of (silent_arg _) s).bind fun _ s =>
        (silent_call hd _ (fun _ => silent_csr2dense _ _ _) _ s).bind fun _ s =>
        (silent_call hd _ (fun _ => silent_ok _) _ s).bind fun _ s =>
        (silent_of (silent_assert hd _) s).bind fun _ s =>
        (silent_malloc hd _ _ s).bind fun _ s => (silent_malloc hd _ _ s).bind fun _ s =>
        (silent_malloc hd _ _ s).bind fun _ s => (silent_of (silent_arg _) s).bind fun _ s =>
        (silent_of (silent_arg _) s).bind fun _ s => (silent_of (silent_arg _) s).bind fun _ s =>
        (silent_call hd _ (fun _ => silent_ok _) _ s).bind fun _ s => (hci _ s).bind fun _ s => ?_
      split_ifs
      · exact silent_of (silent_ub _) s
      · exact (silent_copy hd _ _ _ s).bind fun _ s =>
          (silent_call hd _ (fun _ => silent_ok _) _ s).bind fun _ s => (hci _ s).bind fun _ s =>
          (silent_free hd _ s).bind fun _ s => (silent_free hd _ s).bind fun _ s =>
          (silent_free hd _ s).bind fun _ s => (silent_free hd _ s).bind fun _ s => silent_pure _ s
    · exact (silent_toHost hd _ _ _ _ s).bind fun _ s => (silent_toHost hd _ _ _ _ s).bind fun _ s =>
        (silent_toHost hd _ _ _ _ s).bind fun _ s => (silent_toHost hd _ _ _ _ s).bind fun _ s =>
        (silent_toHost hd _ _ _ _ s).bind fun _ s =>
        (silent_call hd _ (fun _ => silent_ok _) _ s).bind fun _ s =>
        (silent_of (silent_assert hd _) s).bind fun _ s => silent_call hd _ (fun _ => silent_ok _) _ s
    · rcases hname with h | h | h
      · exact absurd h h1
      · exact absurd h h2
      · exact absurd h h3
  cases host
  · exact key b x s
  · exact (silent_copy hd _ _ _ s).bind fun _ s => (silent_copy hd _ _ _ s).bind fun _ s =>
      (key _ _ s).bind fun _ s => silent_toHost hd _ _ _ _ s

/-- **C95**, direct solvers in release builds: a single failed call makes each of them return a wrong result as
if it were the solution, for every matrix, unless the initial guess or the right-hand side is the solution. -/
theorem C95_direct_violated [LinearOrder K] (lib : CuSolver K) (name : List Char)
    (hname : name = chars! "cholesky" ∨ name = chars! "lu_dense" ∨ name = chars! "lu_sparse_host")
    (rows : List (List (ℕ × K))) (hr : SquareRows rows) (a : SolverMatrix K) (ha : a.Serial rows)
    (b x : List K) (hb : b.length = rows.length) (hx : x.length = rows.length)
    (hxb : ¬ Solves rows x b) (hbb : ¬ Solves rows b b) :
    ∃ k, ∀ (m : Machine K) (s : DevState), m.debug = false → (∀ n l, m.left n l = l) →
      s.Healthy → m.OnlyFault (s.calls + k) →
      ∃ y s', directSolverF m false lib name a b x s = .ok (y, s') ∧ ¬ Solves rows y b := by
  obtain ⟨hc, hm, hn, hz⟩ := ha
  have hlen : a.csr.rowPtr.length = rows.length + 1 := by rw [hc.ptrs]; simp
  have hasrt : ∀ q : Bool, Outcome.assert false q = .ok () := fun q => by cases q <;> rfl
  rcases hname with rfl | rfl | rfl
  · refine ⟨0, ?_⟩
    rintro m ⟨c, p, br⟩ hd hl ⟨rfl, rfl⟩ ⟨hf, -⟩
    refine ⟨x, ⟨c + 1, true, false⟩, ?_, hxb⟩
    · simp only [directSolverF, Bool.false_eq_true, if_false, directF, if_true, choleskyF]
      rw [if_neg (by omega), if_neg (by rw [hc.vals, hc.cols]; omega), if_neg (by omega)]
      simp only [Dev.bind_apply, call_fails hd (show m.fault c = .fails from hf), Outcome.ok_bind, hd,
        hasrt, Dev.of_ok, Dev.pure_apply, hl, List.take_append_drop]
  · refine ⟨8, ?_⟩
    rintro m ⟨c, p, br⟩ hd hl ⟨rfl, rfl⟩ ⟨hf, hnf⟩
    have hf' : m.fault (c + 8) = .fails := hf
    have hnf' : ∀ k, k ≠ 8 → m.fault (c + k) = .none := fun k hk => hnf (c + k) (by change c + k ≠ c + _; omega)
    have f0 : m.fault c = .none := hnf' 0 (by omega)
    have hne : ¬ (chars! "lu_dense" = chars! "cholesky") := by decide
    refine ⟨b, ⟨c + 13, true, false⟩, ?_, hbb⟩
    · simp only [directSolverF, Bool.false_eq_true, if_false, directF, if_neg hne, if_true, luDenseF,
        Dev.bind_apply, hd, hasrt, Dev.of_ok, Outcome.ok_bind, malloc_none f0, Ptr.arg,
        call_none (show m.fault (c + 1) = .none from hnf' 1 (by omega)), hm, hn,
        csr2dense_ok rows hr a.csr hc,
        call_none (show m.fault (c + 1 + 1) = .none from hnf' 2 (by omega)),
        malloc_none (show m.fault (c + 1 + 1 + 1) = .none from hnf' 3 (by omega)),
        malloc_none (show m.fault (c + 1 + 1 + 1 + 1) = .none from hnf' 4 (by omega)),
        malloc_none (show m.fault (c + 1 + 1 + 1 + 1 + 1) = .none from hnf' 5 (by omega)),
        call_none (show m.fault (c + 1 + 1 + 1 + 1 + 1 + 1) = .none from hnf' 6 (by omega)),
        checkInfo_release hd]
      rw [if_neg (by omega)]
      simp only [Dev.bind_apply]
      rw [copy_none (hnf' 7 (by omega)) _ _ _ (by simp only [List.length_take]; omega)]
      simp only [Outcome.ok_bind, call_fails hd (show m.fault (c + 1 + 1 + 1 + 1 + 1 + 1 + 1 + 1) = .fails
        from hf'), checkInfo_release hd, hl,
        free_none (show m.fault (c + 1 + 1 + 1 + 1 + 1 + 1 + 1 + 1 + 1) = .none from hnf' 9 (by omega)),
        free_none (show m.fault (c + 1 + 1 + 1 + 1 + 1 + 1 + 1 + 1 + 1 + 1) = .none from
          hnf' 10 (by omega)),
        free_none (show m.fault (c + 1 + 1 + 1 + 1 + 1 + 1 + 1 + 1 + 1 + 1 + 1) = .none from
          hnf' 11 (by omega)),
        free_none (show m.fault (c + 1 + 1 + 1 + 1 + 1 + 1 + 1 + 1 + 1 + 1 + 1 + 1) = .none from
          hnf' 12 (by omega)), Dev.pure_apply]
      rw [List.take_of_length_le (by omega), List.drop_eq_nil_of_le (by omega), List.append_nil]
  · refine ⟨6, ?_⟩
    rintro m ⟨c, p, br⟩ hd hl ⟨rfl, rfl⟩ ⟨hf, hnf⟩
    have hf' : m.fault (c + 6) = .fails := hf
    have hnf' : ∀ k, k ≠ 6 → m.fault (c + k) = .none := fun k hk => hnf (c + k) (by change c + k ≠ c + _; omega)
    have f0 : m.fault c = .none := hnf' 0 (by omega)
    have hne : ¬ (chars! "lu_sparse_host" = chars! "cholesky") := by decide
    have hne' : ¬ (chars! "lu_sparse_host" = chars! "lu_dense") := by decide
    refine ⟨x, ⟨c + 7, true, false⟩, ?_, hxb⟩
    simp only [directSolverF, Bool.false_eq_true, if_false, directF, if_neg hne, if_neg hne', if_true,
      luSparseF, Dev.bind_apply, hd, hasrt, Dev.of_ok, Outcome.ok_bind, hm, hz,
      toHost_none f0, copyToHost_all _ _ hc.vals,
      toHost_none (show m.fault (c + 1) = .none from hnf' 1 (by omega)), copyToHost_all _ _ hc.cols,
      toHost_none (show m.fault (c + 1 + 1) = .none from hnf' 2 (by omega)), copyToHost_all _ _ hlen,
      toHost_none (show m.fault (c + 1 + 1 + 1) = .none from hnf' 3 (by omega)), copyToHost_all _ _ hb,
      toHost_none (show m.fault (c + 1 + 1 + 1 + 1) = .none from hnf' 4 (by omega)),
      copyToHost_all _ _ hx,
      call_none (show m.fault (c + 1 + 1 + 1 + 1 + 1) = .none from hnf' 5 (by omega)),
      call_fails hd (show m.fault (c + 1 + 1 + 1 + 1 + 1 + 1) = .fails from hf'), hl]

end

/-! ## AMGX -/

section

variable {K : Type} {α β : Type}

theorem call_aborts {m : Machine K} (hd : m.debug = true) {c : ℕ} {p : Bool} (h : m.fault c ≠ .none)
    (arg : Option α) (good : α → Outcome β) (bad : ℕ → β) :
    m.call arg good bad ⟨c, p, false⟩ = .aborted := by
  cases arg <;> simp [Machine.call, Machine.failing, h, hd]

/-- **C95**, AMGX in debug builds: as long as the calls of AMGX itself succeed, the solver returns only if no
call failed, and then returns the result of the solve without failures.

Missing: calls of AMGX that fail (`C95_amgx_violated`), release builds. -/
theorem C95_amgx_partial [CommRing K] (m : Machine K) (hd : m.debug = true) (n : ℕ) (sent : List ℕ)
    (hsent : sent.Nodup) (hs : ∀ i ∈ sent, i < n) (rowMap : UMap) (hmap : rowMap.Perm (localMap n sent))
    (solve : List K → List K → List K) (hsolve : ∀ b x, b.length = n → x.length = n → (solve b x).length = n)
    (rhs sol b x : List K) (hb : b.length = n) (hx : x.length = n) (s : DevState) (hh : s.Healthy)
    (hamgx : ∀ k, 2 ≤ k → k ≤ 5 → m.fault (s.calls + k) = .none) :
    ReportsErrors m (amgxF m rowMap solve rhs sol b x) s ∧
    (∀ r s', amgxF m rowMap solve rhs sol b x s = .ok (r, s') →
      amgxSolveDevice rowMap solve b x = .ok r) ∧
    ((∀ n, m.fault n = .none) → ∃ r s', amgxF m rowMap solve rhs sol b x s = .ok (r, s')) := by
  obtain ⟨c, p, br⟩ := s
  obtain ⟨rfl, rfl⟩ : p = false ∧ br = false := hh
  have f2 : m.fault (c + 1 + 1) = .none := hamgx 2 (by omega) (by omega)
  have f3 : m.fault (c + 1 + 1 + 1) = .none := hamgx 3 (by omega) (by omega)
  have f4 : m.fault (c + 1 + 1 + 1 + 1) = .none := hamgx 4 (by omega) (by omega)
  have f5 : m.fault (c + 1 + 1 + 1 + 1 + 1) = .none := hamgx 5 (by omega) (by omega)
  obtain ⟨b', hb1, hb2, -⟩ := (C45_vectors n sent hsent hs rowMap hmap b b b hb hb hb).1
  have hl := hsolve b' x hb2 hx
  obtain ⟨x', hx1, hx2, -⟩ := (C45_vectors n sent hsent hs rowMap hmap b _ _ hb hl hl).2
  have ha : amgxSolveDevice rowMap solve b x = .ok (b', x') := by
    unfold amgxSolveDevice
    rw [hb1, Outcome.ok_bind]
    simp only []
    rw [hx1]
    rfl
  -- either the program ends or every call succeeds
  have key : amgxF m rowMap solve rhs sol b x ⟨c, false, false⟩ = .aborted ∧ (∃ k, m.fault k ≠ .none) ∨
      amgxF m rowMap solve rhs sol b x ⟨c, false, false⟩ = .ok ((b', x'), ⟨c + 8, false, false⟩) ∧
        m.NoFault c (c + 8) := by
    unfold amgxF
    simp only [Dev.bind_apply]
    by_cases f0 : m.fault c = .none
    swap
    · left
      rw [Machine.toHost, call_aborts hd f0]
      exact ⟨rfl, c, f0⟩
    rw [toHost_none f0, copyToHost_all _ _ rfl, Dev.of_ok, Outcome.ok_bind, hb1, Dev.of_ok,
      Outcome.ok_bind]
    by_cases f1 : m.fault (c + 1) = .none
    swap
    · left
      rw [Machine.copy, call_aborts hd f1]
      exact ⟨rfl, _, f1⟩
    rw [copy_none f1 _ _ _ (by simp only []; omega), Outcome.ok_bind, amgx_none f2, Dev.of_ok, Outcome.ok_bind,
      amgx_none f3, Dev.of_ok, Outcome.ok_bind, amgx_none f4, Dev.of_ok, Outcome.ok_bind,
      amgx_none f5, Dev.of_ok, Outcome.ok_bind]
    by_cases f6 : m.fault (c + 1 + 1 + 1 + 1 + 1 + 1) = .none
    swap
    · left
      rw [Machine.toHost, call_aborts hd f6]
      exact ⟨rfl, _, f6⟩
    rw [toHost_none f6, copyToHost_all _ _ rfl, Dev.of_ok, Outcome.ok_bind, hx1, Dev.of_ok,
      Outcome.ok_bind]
    by_cases f7 : m.fault (c + 1 + 1 + 1 + 1 + 1 + 1 + 1) = .none
    swap
    · left
      rw [Machine.copy, call_aborts hd f7]
      exact ⟨rfl, _, f7⟩
    rw [copy_none f7 _ _ _ (by simp only []; omega), Outcome.ok_bind]
    refine .inr ⟨rfl, fun k h1 h2 => ?_⟩
    obtain rfl | rfl | rfl | rfl | rfl | rfl | rfl | rfl : k = c ∨ k = c + 1 ∨ k = c + 1 + 1 ∨
        k = c + 1 + 1 + 1 ∨ k = c + 1 + 1 + 1 + 1 ∨ k = c + 1 + 1 + 1 + 1 + 1 ∨
        k = c + 1 + 1 + 1 + 1 + 1 + 1 ∨ k = c + 1 + 1 + 1 + 1 + 1 + 1 + 1 := by omega
    all_goals assumption
  rcases key with ⟨k, j, hj⟩ | ⟨k, hnf⟩
  · refine ⟨fun r s' e => ?_, fun r s' e => ?_, fun h => absurd (h j) hj⟩
    · rw [k] at e; cases e
    · rw [k] at e; cases e
  · refine ⟨fun r s' e => ?_, fun r s' e => ?_, fun _ => ⟨_, _, k⟩⟩
    · rw [k] at e
      cases e
      exact ⟨Nat.le_add_right _ _, hnf⟩
    · rw [k] at e
      cases e
      exact ha

/-- **C95**, AMGX: a solve that fails is not reported, in debug builds and in release builds.  The program goes
on with the initial guess, its entries in another order, whatever the matrix and the right-hand side are. -/
theorem C95_amgx_violated [CommRing K] (n : ℕ) (sent : List ℕ)
    (hsent : sent.Nodup) (hs : ∀ i ∈ sent, i < n) (rowMap : UMap) (hmap : rowMap.Perm (localMap n sent))
    (x : List K) (hx : x.length = n) :
    ∃ x' : List K, x'.length = n ∧ (∀ i, i < n → x'[i]? = x[(localMap n sent).at i]?) ∧
      ∀ (m : Machine K) (s : DevState) (solve : List K → List K → List K) (rhs sol b : List K),
        b.length = n → s.Healthy → (∀ n l, m.left n l = l) → m.OnlyFault (s.calls + 4) →
        ∃ b' s', amgxF m rowMap solve rhs sol b x s = .ok ((b', x'), s') ∧ s'.Healthy := by
  obtain ⟨x', hx1, hx2, hx3⟩ := (C45_vectors n sent hsent hs rowMap hmap x x x hx hx hx).2
  refine ⟨x', hx2, hx3, ?_⟩
  rintro m ⟨c, p, br⟩ solve rhs sol b hb ⟨rfl, rfl⟩ hl ⟨hf, hnf⟩
  have hf' : m.fault (c + 1 + 1 + 1 + 1) = .fails := hf
  have hnf' : ∀ k, k ≠ 4 → m.fault (c + k) = .none :=
    fun k hk => hnf (c + k) (by change c + k ≠ c + _; omega)
  have f0 : m.fault c = .none := hnf' 0 (by omega)
  have f1 : m.fault (c + 1) = .none := hnf' 1 (by omega)
  have f2 : m.fault (c + 1 + 1) = .none := hnf' 2 (by omega)
  have f3 : m.fault (c + 1 + 1 + 1) = .none := hnf' 3 (by omega)
  have f5 : m.fault (c + 1 + 1 + 1 + 1 + 1) = .none := hnf' 5 (by omega)
  have f6 : m.fault (c + 1 + 1 + 1 + 1 + 1 + 1) = .none := hnf' 6 (by omega)
  have f7 : m.fault (c + 1 + 1 + 1 + 1 + 1 + 1 + 1) = .none := hnf' 7 (by omega)
  obtain ⟨b', hb1, hb2, -⟩ := (C45_vectors n sent hsent hs rowMap hmap b b b hb hb hb).1
  refine ⟨b', ⟨c + 8, false, false⟩, ?_, rfl, rfl⟩
  unfold amgxF
  simp only [Dev.bind_apply]
  rw [toHost_none f0, copyToHost_all _ _ rfl, Dev.of_ok, Outcome.ok_bind, hb1, Dev.of_ok,
    Outcome.ok_bind, copy_none f1 _ _ _ (by simp only []; omega), Outcome.ok_bind, amgx_none f2, Dev.of_ok,
    Outcome.ok_bind, amgx_none f3, Dev.of_ok, Outcome.ok_bind, amgx_fails hf', Outcome.ok_bind,
    amgx_none f5, Dev.of_ok, Outcome.ok_bind]
  simp only [hl]
  rw [toHost_none f6, copyToHost_all _ _ rfl, Dev.of_ok, Outcome.ok_bind, hx1, Dev.of_ok,
      Outcome.ok_bind, copy_none f7 _ _ _ (by simp only []; omega), Outcome.ok_bind]
  rfl

end

/-! ## The handles -/

section

variable {K : Type}

/-- The creation of a handle. -/
theorem createHandle_cases (m : Machine K) (live : List ℕ) (s : DevState) :
    (m.debug = true ∧ createHandle m live s = .aborted) ∨
    ∃ o s', createHandle m live s = .ok ((o, o.elim live (· :: live)), s') ∧ s'.calls = s.calls + 1 ∧
      (o = none ∨ o = some s.calls) ∧
      (m.debug = true → o = some s.calls ∧ m.NoFault s.calls s'.calls) ∧
      (s.broken = false → m.fault s.calls ≠ .breaks → s'.broken = false) := by
  unfold createHandle Machine.call
  by_cases h : m.failing s = true
  · rcases hd : m.debug with _ | _
    · right
      simp only [h, if_true, Bool.false_eq_true, if_false]
      refine ⟨none, m.after s, rfl, rfl, .inl rfl, by simp, fun h1 h2 => ?_⟩
      simp [Machine.after, h1, h2]
    · left
      simp [h]
  · right
    simp only [h, Bool.false_eq_true, if_false]
    exact ⟨some s.calls, _, rfl, rfl, .inr rfl,
      fun _ => ⟨rfl, (noFault_step (Bool.not_eq_true _ ▸ h)).2⟩, fun h1 _ => h1⟩

/-- The destruction of a handle. -/
theorem destroyHandle_cases (m : Machine K) (o : Option ℕ) (live : List ℕ) (s : DevState)
    (ho : ∀ p, o = some p → p ∈ live) :
    (m.debug = true ∧ destroyHandle m o live s = .aborted) ∨
    ∃ live' s', destroyHandle m o live s = .ok (live', s') ∧ s.calls ≤ s'.calls ∧
      (∀ q ∈ live, o ≠ some q → q ∈ live') ∧
      (m.debug = true → live' = o.elim live live.erase ∧ m.NoFault s.calls s'.calls) ∧
      (s.broken = false → (∀ n, s.calls ≤ n → m.fault n = .none) →
        live' = o.elim live live.erase ∧ s'.broken = false) := by
  cases o with
  | none =>
    exact .inr ⟨live, s, rfl, le_rfl, fun q hq _ => hq, fun _ => ⟨rfl, Machine.NoFault.refl m _⟩,
      fun h _ => ⟨rfl, h⟩⟩
  | some p =>
    simp only [destroyHandle, if_pos (ho p rfl), Machine.call]
    by_cases h : m.failing s = true
    · rcases hd : m.debug with _ | _
      · right
        simp only [h, if_true, Bool.false_eq_true, if_false]
        refine ⟨live, m.after s, rfl, Nat.le_succ _, fun q hq _ => hq, by simp, fun h1 h2 => ?_⟩
        simp [Machine.failing, h1, h2 s.calls le_rfl] at h
      · left
        simp [h]
    · right
      simp only [h, Bool.false_eq_true, if_false]
      refine ⟨live.erase p, _, rfl, Nat.le_succ _, fun q hq hne => ?_,
        fun _ => ⟨rfl, (noFault_step (Bool.not_eq_true _ ▸ h)).2⟩, fun h1 _ => ⟨rfl, h1⟩⟩
      exact (List.mem_erase_of_ne (fun e => hne (by rw [e]))).2 hq

/-- **C95**, handles: whatever calls fail, constructing and destroying a `CudaHandle` never destroys a handle
that does not exist and never throws; in debug builds it returns only if no call failed and then nothing is
left over; in release builds it always returns, and if the failures are over when the destructor runs, exactly
the handles that could be created are destroyed. -/
theorem C95_handles (m : Machine K) (live : List ℕ) (s : DevState) :
    let run := (constructHandles m live >>= fun r => destructHandles m r.1 r.2) s
    (∀ w, run ≠ .ub w) ∧ (∀ msg, run ≠ .throws msg) ∧
    (m.debug = true → ∀ live' s', run = .ok (live', s') → live' = live ∧ m.NoFault s.calls s'.calls) ∧
    (m.debug = false → ∃ live' s', run = .ok (live', s') ∧
      (s.broken = false → (∀ n, m.fault n ≠ .breaks) → (∀ n, s.calls + 3 ≤ n → m.fault n = .none) →
        live' = live)) := by
  intro run
  have hab : ∀ {P : Prop}, m.debug = true → run = .aborted → (∀ w, run ≠ .ub w) ∧
      (∀ msg, run ≠ .throws msg) ∧ (m.debug = true → ∀ live' s', run = .ok (live', s') → live' = live ∧
        m.NoFault s.calls s'.calls) ∧ (m.debug = false → P) := by
    intro P hd e
    rw [e, hd]
    simp
  have hrun : run = ((constructHandles m live >>= fun r => destructHandles m r.1 r.2) s) := rfl
  simp only [constructHandles, destructHandles, Dev.bind_apply] at hrun
  rcases createHandle_cases m live s with ⟨hd, e1⟩ | ⟨o1, s1, e1, c1, d1, g1, b1⟩
  · exact hab hd (by rw [hrun, e1]; rfl)
  rw [e1, Outcome.ok_bind] at hrun
  simp only [] at hrun
  rcases createHandle_cases m (o1.elim live (· :: live)) s1 with ⟨hd, e2⟩ | ⟨o2, s2, e2, c2, d2, g2, b2⟩
  · exact hab hd (by rw [hrun, e2]; rfl)
  rw [e2, Outcome.ok_bind] at hrun
  simp only [] at hrun
  generalize hl2 : o2.elim (o1.elim live (· :: live)) (· :: o1.elim live (· :: live)) = live2 at *
  rcases createHandle_cases m live2 s2 with ⟨hd, e3⟩ | ⟨o3, s3, e3, c3, d3, g3, b3⟩
  · exact hab hd (by rw [hrun, e3]; rfl)
  rw [e3, Outcome.ok_bind] at hrun
  simp only [Dev.pure_apply, Outcome.ok_bind] at hrun
  generalize hl3 : o3.elim live2 (· :: live2) = live3 at *
  have m3 : ∀ p, o3 = some p → p ∈ live3 := by
    rintro p rfl; rw [← hl3]; simp
  have m2 : ∀ p, o2 = some p → p ∈ live3 := by
    rintro p rfl; rw [← hl3, ← hl2]; cases o3 <;> simp
  have m1 : ∀ p, o1 = some p → p ∈ live3 := by
    rintro p rfl; rw [← hl3, ← hl2]; cases o3 <;> cases o2 <;> simp
  rcases destroyHandle_cases m o3 live3 s3 m3 with ⟨hd, e4⟩ | ⟨l4, s4, e4, c4, d4, g4, b4⟩
  · exact hab hd (by rw [hrun, e4]; rfl)
  rw [e4, Outcome.ok_bind] at hrun
  simp only [] at hrun
  have m2' : ∀ p, o2 = some p → p ∈ l4 := fun p hp => d4 p (m2 p hp) (by
    rintro rfl; rw [hp] at d2; simp at d2 d3; omega)
  have m1' : ∀ p, o1 = some p → p ∈ l4 := fun p hp => d4 p (m1 p hp) (by
    rintro rfl; rw [hp] at d1; simp at d1 d3; omega)
  rcases destroyHandle_cases m o2 l4 s4 m2' with ⟨hd, e5⟩ | ⟨l5, s5, e5, c5, d5, g5, b5⟩
  · exact hab hd (by rw [hrun, e5]; rfl)
  rw [e5, Outcome.ok_bind] at hrun
  have m1'' : ∀ p, o1 = some p → p ∈ l5 := fun p hp => d5 p (m1' p hp) (by
    rintro rfl; rw [hp] at d1; simp at d1 d2; omega)
  rcases destroyHandle_cases m o1 l5 s5 m1'' with ⟨hd, e6⟩ | ⟨l6, s6, e6, c6, d6, g6, b6⟩
  · exact hab hd (by rw [hrun, e6])
  rw [e6] at hrun
  have hlive : l4 = o3.elim live3 live3.erase → l5 = o2.elim l4 l4.erase → l6 = o1.elim l5 l5.erase →
      l6 = live := by
    rintro rfl rfl rfl
    rw [← hl3, ← hl2]
    cases o1 <;> cases o2 <;> cases o3 <;> simp
  rw [hrun]
  refine ⟨by simp, by simp, fun hd live' s' e => ?_, fun hd => ⟨l6, s6, rfl, fun hb hnb hnf => ?_⟩⟩
  · cases e
    exact ⟨hlive (g4 hd).1 (g5 hd).1 (g6 hd).1, (g1 hd).2.trans <| (g2 hd).2.trans <| (g3 hd).2.trans <|
      (g4 hd).2.trans <| (g5 hd).2.trans (g6 hd).2⟩
  · obtain ⟨k4, k4'⟩ := b4 (b3 (b2 (b1 hb (hnb _)) (hnb _)) (hnb _)) fun n hn => hnf n (by omega)
    obtain ⟨k5, k5'⟩ := b5 k4' fun n hn => hnf n (by omega)
    obtain ⟨k6, -⟩ := b6 k5' fun n hn => hnf n (by omega)
    exact hlive k4 k5 k6

end

/-! ## Examples -/

/-- A machine on which the call `n` fails. -/
def exMachine (debug : Bool) (n : ℕ) : Machine ℚ where
  debug := debug
  fault k := if k = n then .fails else .none
  left _ l := l
  leftN _ l := l
  fresh _ _ := 7
  freshN _ _ := 0

theorem exMachine_only (debug : Bool) (n : ℕ) : (exMachine debug n).OnlyFault n :=
  ⟨by simp [exMachine], fun k h => by simp [exMachine, h]⟩

example (n : ℕ) (b0 b1 : ℚ) :
    ReportsErrors (exMachine true n) (directSolverF (exMachine true n) false exCuSolver (chars! "lu_dense")
      (exSerial exSpd) [b0, b1] [0, 0]) ⟨0, false, false⟩ :=
  (C95_direct_partial (exMachine true n) rfl false exCuSolver exCuSolver_correct _ exSpd exSpd_square _
    (exSerial_serial exSpd) (Or.inr ⟨Or.inl rfl, positiveDefinite_nonsingular _ exSpd_pd⟩) _ _ rfl rfl _
    ⟨rfl, rfl⟩).1

example (m : Machine ℚ) (hd : m.debug = false) (s : DevState) :
    Silent (directSolverF m true exCuSolver (chars! "cholesky") (exSerial exSingular) [1, 0] [0, 0]) s :=
  C95_direct_silent_violated m hd true exCuSolver _ (Or.inl rfl) _ _ _ s

theorem exSpd_not_solved : ¬ Solves exSpd [0, 0] [1, 0] ∧ ¬ Solves exSpd [1, 0] [1, 0] := by
  constructor
  · rintro ⟨-, h⟩
    have := h 0 (by simp [exSpd])
    simp [exSpd, rowTimes] at this
  · rintro ⟨-, h⟩
    have := h 0 (by simp [exSpd])
    simp [exSpd, rowTimes] at this

/-- The solution of `2 u - v = 1`, `-u + 2 v = 0` is (2/3, 1/3); with one failed call a release build returns
something else. -/
example : ∃ k y s', directSolverF (exMachine false k) false exCuSolver (chars! "lu_dense") (exSerial exSpd)
    [1, 0] [0, 0] ⟨0, false, false⟩ = .ok (y, s') ∧ ¬ Solves exSpd y [1, 0] := by
  obtain ⟨k, hk⟩ := C95_direct_violated exCuSolver _ (Or.inr (Or.inl rfl)) exSpd exSpd_square _
    (exSerial_serial exSpd) [1, 0] [0, 0] rfl rfl exSpd_not_solved.1 exSpd_not_solved.2
  refine ⟨k, hk (exMachine false k) ⟨0, false, false⟩ rfl (fun _ _ => rfl) ⟨rfl, rfl⟩ ?_⟩
  simpa using exMachine_only false k

/-- Debug build, the solve fails: AMGX returns the initial guess in another order. -/
example : ∃ b' s', amgxF (exMachine true 4) [(1, 2), (0, 0), (2, 1)] (fun b _ => b) [] [] [10, 11, 12]
    [1, 2, 3] ⟨0, false, false⟩ = .ok ((b', [1, 3, 2]), s') := by
  obtain ⟨x', h1, h2, h3⟩ := C95_amgx_violated 3 [1] (by decide) (by decide) [(1, 2), (0, 0), (2, 1)]
    (by decide +kernel) [1, 2, (3 : ℚ)] rfl
  obtain ⟨b', s', e, -⟩ := h3 (exMachine true 4) ⟨0, false, false⟩ (fun b _ => b) [] [] [10, 11, 12] rfl
    ⟨rfl, rfl⟩ (fun _ _ => rfl) (exMachine_only true 4)
  refine ⟨b', s', ?_⟩
  rw [e]
  have : x' = [1, 3, 2] := by
    have e0 := h2 0 (by omega)
    have e1 := h2 1 (by omega)
    have e2 := h2 2 (by omega)
    have q : (localMap 3 [1]).at 0 = 0 ∧ (localMap 3 [1]).at 1 = 2 ∧ (localMap 3 [1]).at 2 = 1 := by
      decide +kernel
    rw [q.1] at e0
    rw [q.2.1] at e1
    rw [q.2.2] at e2
    match x', h1 with
    | [u, v, w], _ => simp at e0 e1 e2; simp [e0, e1, e2]
  rw [this]

example : ReportsErrors (exMachine true 1) (amgxF (exMachine true 1) [(1, 2), (0, 0), (2, 1)]
    (fun b _ => b) [] [] [10, 11, 12] [1, 2, 3]) ⟨0, false, false⟩ :=
  (C95_amgx_partial (exMachine true 1) rfl 3 [1] (by decide) (by decide) _ (by decide +kernel) _
    (fun _ _ h _ => h) [] [] _ _ rfl rfl _ ⟨rfl, rfl⟩ (by
      intro k h1 h2
      simp only [exMachine, Nat.zero_add]
      rw [if_neg (by omega)])).1

/-- Release build: the second creation fails; the other two handles are destroyed. -/
example : ∃ live' s', (constructHandles (exMachine false 1) [] >>= fun r =>
    destructHandles (exMachine false 1) r.1 r.2) ⟨0, false, false⟩ = .ok (live', s') ∧ live' = [] := by
  obtain ⟨-, -, -, h⟩ := C95_handles (exMachine false 1) [] ⟨0, false, false⟩
  obtain ⟨live', s', e, h⟩ := h rfl
  refine ⟨live', s', e, h rfl (fun n => ?_) (fun n hn => ?_)⟩
  · simp only [exMachine]; split_ifs <;> simp
  · simp only [exMachine]
    rw [if_neg (by simp at hn; omega)]

end Mfmg
