import Verif.Spec.AmgxHandles
import Mathlib.Data.List.Perm.Basic
import Mathlib.Data.List.Count
import Mathlib.Data.List.Nodup

/-!
# C48: the AMGX handles
-/

set_option autoImplicit false

namespace Mfmg

/-- The six handles with identities `b, …, b + 5`. -/
def six (b : ℕ) : List Handle :=
  [(.solver, b + 5), (.solution, b + 4), (.rhs, b + 3), (.matrix, b + 2), (.resources, b + 1),
    (.config, b)]

/-- The solver with the handles `six b`. -/
def amgxObj (b : ℕ) : SolverObj :=
  { amgx := true, config := some (.config, b), resources := some (.resources, b + 1),
    matrix := some (.matrix, b + 2), rhs := some (.rhs, b + 3), solution := some (.solution, b + 4),
    solver := some (.solver, b + 5) }

/-- The handles that a solver keeps alive: all six, or the matrix after its destruction. -/
def keeps : SolverObj × Bool → List Handle
  | (o, d) =>
    if o.amgx then
      if d then o.matrix.toList
      else o.solver.toList ++ o.solution.toList ++ o.rhs.toList ++ o.matrix.toList
        ++ o.resources.toList ++ o.config.toList
    else []

structure SolverInv (s : SolverState) : Prop where
  shape : ∀ e ∈ s.solvers, e.1 = { amgx := false } ∨ ∃ b, e.1 = amgxObj b
  perm : s.lib.live.Perm (s.solvers.flatMap keeps)
  nodup : s.lib.live.Nodup
  fresh : ∀ h ∈ s.lib.live, h.2 < s.lib.next

theorem keeps_alive (b : ℕ) : keeps (amgxObj b, false) = six b := rfl

theorem keeps_destroyed (b : ℕ) : keeps (amgxObj b, true) = [(.matrix, b + 2)] := rfl

theorem SolverInv.init : SolverInv SolverState.init := by
  constructor <;> simp [SolverState.init]

theorem construct_inv (s : SolverState) (h : SolverInv s) (amgx : Bool) (s' : SolverState)
    (hs : solverStep s (.construct amgx) = .ok s') :
    SolverInv s' ∧ s'.solvers.map Prod.fst
      = s.solvers.map Prod.fst ++ [if amgx then amgxObj s.lib.next else { amgx := false }] := by
  cases amgx with
  | false =>
    cases hs
    refine ⟨⟨?_, ?_, h.nodup, h.fresh⟩, by simp⟩
    · intro e he
      rcases List.mem_append.1 he with he | he
      · exact h.shape e he
      · left; simp at he; rw [he]
    · simpa [constructSolver, keeps] using h.perm
  | true =>
    have e : s' = ⟨⟨six s.lib.next ++ s.lib.live, s.lib.next + 6⟩,
        s.solvers ++ [(amgxObj s.lib.next, false)]⟩ := by
      cases hs; rfl
    subst e
    refine ⟨⟨?_, ?_, ?_, ?_⟩, by simp⟩
    · intro e he
      rcases List.mem_append.1 he with he | he
      · exact h.shape e he
      · right; exact ⟨s.lib.next, by simp at he; rw [he]⟩
    · rw [List.flatMap_append]
      have : [(amgxObj s.lib.next, false)].flatMap keeps = six s.lib.next := by
        simp [keeps_alive]
      rw [this]
      exact (h.perm.append_left _).trans List.perm_append_comm
    · rw [List.nodup_append]
      refine ⟨by simp [six], h.nodup, ?_⟩
      rintro a ha c hc rfl
      have := h.fresh a hc
      simp only [six, List.mem_cons, List.not_mem_nil, or_false] at ha
      rcases ha with rfl | rfl | rfl | rfl | rfl | rfl <;> simp at this <;> omega
    · intro a ha
      rcases List.mem_append.1 ha with ha | ha
      · simp only [six, List.mem_cons, List.not_mem_nil, or_false] at ha
        rcases ha with rfl | rfl | rfl | rfl | rfl | rfl <;> simp
      · have := h.fresh a ha; simp only []; omega

/-- The destructor of a solver all of whose handles exist. -/
theorem destruct_amgx (l : AmgxLib) (b : ℕ) (rest : List Handle)
    (h : l.live.Perm (six b ++ rest)) :
    ∃ live, destructSolver l (amgxObj b) = .ok { l with live := live } ∧
      live.Perm ((.matrix, b + 2) :: rest) ∧ live.Sublist l.live := by
  obtain ⟨live, next⟩ := l
  simp only at h
  have h1 : (live.erase (.solver, b + 5)).Perm
      ([(.solution, b + 4), (.rhs, b + 3), (.matrix, b + 2), (.resources, b + 1), (.config, b)]
        ++ rest) := by
    have := h.erase (HandleKind.solver, b + 5)
    simpa [six, List.erase_cons] using this
  have h2 : ((live.erase (.solver, b + 5)).erase (.solution, b + 4)).Perm
      ([(.rhs, b + 3), (.matrix, b + 2), (.resources, b + 1), (.config, b)] ++ rest) := by
    have := h1.erase (HandleKind.solution, b + 4)
    simpa [List.erase_cons] using this
  have h3 : (((live.erase (.solver, b + 5)).erase (.solution, b + 4)).erase (.rhs, b + 3)).Perm
      ([(.matrix, b + 2), (.resources, b + 1), (.config, b)] ++ rest) := by
    have := h2.erase (HandleKind.rhs, b + 3)
    simpa [List.erase_cons] using this
  have h4 : ((((live.erase (.solver, b + 5)).erase (.solution, b + 4)).erase (.rhs, b + 3)).erase
      (.resources, b + 1)).Perm ([(.matrix, b + 2), (.config, b)] ++ rest) := by
    have := h3.erase (HandleKind.resources, b + 1)
    simpa [List.erase_cons] using this
  have h5 : (((((live.erase (.solver, b + 5)).erase (.solution, b + 4)).erase (.rhs, b + 3)).erase
      (.resources, b + 1)).erase (.config, b)).Perm ([(.matrix, b + 2)] ++ rest) := by
    have := h4.erase (HandleKind.config, b)
    simpa [List.erase_cons] using this
  refine ⟨_, ?_, h5, ?_⟩
  · have m1 : (HandleKind.solver, b + 5) ∈ live := h.mem_iff.2 (by simp [six])
    have m2 : (HandleKind.solution, b + 4) ∈ live.erase (.solver, b + 5) := h1.mem_iff.2 (by simp)
    have m3 := h2.mem_iff.2 (show (HandleKind.rhs, b + 3) ∈ _ by simp)
    have m4 := h3.mem_iff.2 (show (HandleKind.resources, b + 1) ∈ _ by simp)
    have m5 := h4.mem_iff.2 (show (HandleKind.config, b) ∈ _ by simp)
    simp only [destructSolver, amgxObj, if_true, AmgxLib.destroy, m1, m2, m3, m4, m5,
      Outcome.ok_bind, Option.isSome_some]
  · exact (((List.erase_sublist.trans List.erase_sublist).trans List.erase_sublist).trans
      List.erase_sublist).trans List.erase_sublist

theorem flatMap_set_perm {α β : Type} (f : α → List β) (l : List α) (i : ℕ) (a b : α)
    (h : l[i]? = some a) :
    ∃ rest, (l.flatMap f).Perm (f a ++ rest) ∧ ((l.set i b).flatMap f).Perm (f b ++ rest) := by
  induction l generalizing i with
  | nil => simp at h
  | cons x l ih =>
    cases i with
    | zero =>
      simp at h; subst h
      exact ⟨l.flatMap f, by simp, by simp⟩
    | succ i =>
      obtain ⟨rest, h1, h2⟩ := ih i (by simpa using h)
      refine ⟨f x ++ rest, ?_, ?_⟩
      · rw [List.flatMap_cons]
        refine (h1.append_left _).trans ?_
        rw [← List.append_assoc, ← List.append_assoc]
        exact List.perm_append_comm.append_right _
      · rw [List.set_cons_succ, List.flatMap_cons]
        refine (h2.append_left _).trans ?_
        rw [← List.append_assoc, ← List.append_assoc]
        exact List.perm_append_comm.append_right _

theorem map_fst_set_flag (l : List (SolverObj × Bool)) (i : ℕ) (o : SolverObj) (d : Bool)
    (h : l[i]? = some (o, d)) (d' : Bool) :
    (l.set i (o, d')).map Prod.fst = l.map Prod.fst := by
  rw [List.map_set]
  apply List.ext_getElem?
  intro k
  rw [List.getElem?_set]
  split_ifs with hk hl
  · subst hk; simp [h]
  · subst hk
    rw [List.length_map] at hl
    rw [List.getElem?_eq_none (by simpa using hl)]
  · rfl

theorem destruct_inv (s : SolverState) (h : SolverInv s) (i : ℕ) :
    ∃ s', solverStep s (.destruct i) = .ok s' ∧ SolverInv s' ∧
      s'.solvers.map Prod.fst = s.solvers.map Prod.fst := by
  simp only [solverStep]
  split
  · rename_i o ho
    have hm := List.mem_of_getElem? ho
    rcases h.shape _ hm with e | ⟨b, e⟩
    · simp only at e
      subst e
      refine ⟨_, rfl, ⟨?_, ?_, h.nodup, h.fresh⟩, map_fst_set_flag _ _ _ _ ho _⟩
      · intro x hx
        rcases List.mem_or_eq_of_mem_set hx with hx | rfl
        · exact h.shape x hx
        · exact Or.inl rfl
      · obtain ⟨rest, p1, p2⟩ := flatMap_set_perm keeps s.solvers i _ (({ amgx := false } : SolverObj), true) ho
        exact h.perm.trans (p1.trans p2.symm)
    · simp only at e
      subst e
      obtain ⟨rest, p1, p2⟩ := flatMap_set_perm keeps s.solvers i _ (amgxObj b, true) ho
      rw [keeps_alive] at p1
      rw [keeps_destroyed] at p2
      obtain ⟨live, e1, e2, e3⟩ := destruct_amgx s.lib b rest (h.perm.trans p1)
      rw [e1, Outcome.ok_bind]
      refine ⟨_, rfl, ⟨?_, e2.trans p2.symm, h.nodup.sublist e3, fun x hx => h.fresh x (e3.subset hx)⟩,
        map_fst_set_flag _ _ _ _ ho _⟩
      intro x hx
      rcases List.mem_or_eq_of_mem_set hx with hx | rfl
      · exact h.shape x hx
      · exact Or.inr ⟨b, rfl⟩
  · exact ⟨s, rfl, h, rfl⟩

theorem solverRun_inv (cs : List SolverCall) (s : SolverState) (h : SolverInv s) :
    ∃ s', solverRun s cs = .ok s' ∧ SolverInv s' ∧
      s'.solvers.countP (fun e => e.1.amgx)
        = s.solvers.countP (fun e => e.1.amgx) + SolverCall.amgxConstructed cs := by
  induction cs generalizing s with
  | nil => exact ⟨s, rfl, h, by simp [SolverCall.amgxConstructed]⟩
  | cons c cs ih =>
    have key : ∃ s1, solverStep s c = .ok s1 ∧ SolverInv s1 ∧
        s1.solvers.countP (fun e => e.1.amgx)
          = s.solvers.countP (fun e => e.1.amgx) + SolverCall.amgxConstructed [c] := by
      have cnt : ∀ l : List (SolverObj × Bool),
          l.countP (fun e => e.1.amgx) = (l.map Prod.fst).countP (fun o => o.amgx) := by
        intro l; rw [List.countP_map]; rfl
      cases c with
      | construct amgx =>
        obtain ⟨hi, hl⟩ := construct_inv s h amgx _ rfl
        refine ⟨_, rfl, hi, ?_⟩
        rw [cnt, hl, cnt, List.countP_append]
        cases amgx <;> simp [SolverCall.amgxConstructed, amgxObj]
      | destruct i =>
        obtain ⟨s1, e, hi, hl⟩ := destruct_inv s h i
        refine ⟨s1, e, hi, ?_⟩
        rw [cnt, hl, cnt]
        simp [SolverCall.amgxConstructed]
    obtain ⟨s1, e1, i1, c1⟩ := key
    obtain ⟨s', e2, i2, c2⟩ := ih s1 i1
    refine ⟨s', ?_, i2, ?_⟩
    · rw [solverRun, e1, Outcome.ok_bind, e2]
    · rw [c2, c1]
      simp only [SolverCall.amgxConstructed, List.count_cons, List.count_nil]
      omega

theorem count_keeps (k : HandleKind) (l : List (SolverObj × Bool))
    (h : ∀ e ∈ l, e.1 = { amgx := false } ∨ ∃ b, e.1 = amgxObj b) :
    (l.flatMap keeps).countP (fun x => x.1 == k)
      = if k = .matrix then l.countP (fun e => e.1.amgx)
        else l.countP (fun e => e.1.amgx && !e.2) := by
  induction l with
  | nil => simp
  | cons e l ih =>
    obtain ⟨o, d⟩ := e
    rw [List.flatMap_cons, List.countP_append, ih (fun x hx => h x (List.mem_cons_of_mem _ hx)),
      List.countP_cons, List.countP_cons]
    rcases h _ List.mem_cons_self with e | ⟨b, e⟩
    · simp only at e
      subst e
      simp [keeps]
    · simp only at e
      subst e
      cases d
      · rw [keeps_alive]
        cases k <;> simp [six, amgxObj, Nat.add_comm]
      · rw [keeps_destroyed]
        cases k <;> simp [amgxObj, Nat.add_comm]

/-- **C48 (exact state).**  Any history of constructions and destructions runs without destroying an object
that does not exist, in particular without destroying one twice.  Of each kind other than the matrices there
is then one object for every `amgx` solver that still exists; of the matrices there is one for every `amgx`
solver ever constructed. -/
theorem C48_exact (cs : List SolverCall) :
    ∃ s, solverRun SolverState.init cs = .ok s ∧
      (∀ k, k ≠ .matrix → s.count k = s.amgxAlive) ∧
      s.count .matrix = SolverCall.amgxConstructed cs := by
  obtain ⟨s, e, hi, hc⟩ := solverRun_inv cs _ SolverInv.init
  refine ⟨s, e, ?_, ?_⟩
  · intro k hk
    unfold SolverState.count
    rw [hi.perm.countP_eq, count_keeps k _ hi.shape, if_neg hk]
    rfl
  · unfold SolverState.count
    rw [hi.perm.countP_eq, count_keeps _ _ hi.shape, if_pos rfl, hc]
    simp [SolverState.init]

/-- **C48 (part).**  Full statement: once all solvers are destroyed no AMGX object exists.  Proved: none
except matrices exists.  Missing: the matrices, for which the statement is false (`C48_violated`). -/
theorem C48_released_partial (cs : List SolverCall) (s : SolverState)
    (h : solverRun SolverState.init cs = .ok s) (hall : s.AllDestroyed) :
    ∀ x ∈ s.lib.live, x.1 = .matrix := by
  obtain ⟨s', e, hk, -⟩ := C48_exact cs
  rw [h] at e
  cases e
  intro x hx
  by_contra hne
  have h0 := hk x.1 hne
  have h1 : s.amgxAlive = 0 := by
    unfold SolverState.amgxAlive
    rw [List.countP_eq_zero]
    intro e he
    simp [hall e he]
  rw [h1] at h0
  unfold SolverState.count at h0
  rw [List.countP_eq_zero] at h0
  exact h0 x hx (by simp)

/-- **C48 (violated).**  When all solvers are destroyed, the matrix of each `amgx` solver still exists: the
number of leaked objects is the number of `amgx` solvers constructed. -/
theorem C48_violated (cs : List SolverCall) (s : SolverState)
    (h : solverRun SolverState.init cs = .ok s) (hall : s.AllDestroyed) :
    s.lib.live.length = SolverCall.amgxConstructed cs := by
  have hm := C48_released_partial cs s h hall
  obtain ⟨s', e, -, hc⟩ := C48_exact cs
  rw [h] at e
  cases e
  rw [← hc]
  unfold SolverState.count
  rw [eq_comm, List.countP_eq_length]
  intro x hx
  simp [hm x hx]

/-- **C48 (other solvers).**  A program without `amgx` solvers creates no AMGX object. -/
theorem C48_other_solvers (cs : List SolverCall) (hno : SolverCall.construct true ∉ cs)
    (s : SolverState) (h : solverRun SolverState.init cs = .ok s) : s.lib.live = [] := by
  obtain ⟨s', e, hi, hc⟩ := solverRun_inv cs _ SolverInv.init
  rw [h] at e
  cases e
  rw [SolverCall.amgxConstructed, List.count_eq_zero_of_not_mem hno] at hc
  simp only [SolverState.init, List.countP_nil, Nat.add_zero, List.countP_eq_zero] at hc
  have : s.solvers.flatMap keeps = [] := by
    rw [List.flatMap_eq_nil_iff]
    rintro ⟨o, d⟩ he
    have := hc _ he
    simp only [Bool.not_eq_true] at this
    simp [keeps, this]
  have hp := hi.perm
  rw [this] at hp
  exact hp.eq_nil

/-- Two `amgx` solvers and a direct one, with interleaved lifetimes. -/
def exSolverCalls : List SolverCall :=
  [.construct true, .construct false, .construct true, .destruct 0, .destruct 1, .destruct 2]

example : ∃ s, solverRun SolverState.init exSolverCalls = .ok s ∧ s.AllDestroyed ∧
    s.lib.live = [(.matrix, 8), (.matrix, 2)] := by
  refine ⟨{ lib := { live := [(.matrix, 8), (.matrix, 2)], next := 12 },
            solvers := [(amgxObj 0, true), ({ amgx := false }, true), (amgxObj 6, true)] }, ?_, ?_, rfl⟩
  · decide +kernel
  · intro e he
    simp at he
    rcases he with rfl | rfl | rfl <;> rfl

example : SolverCall.amgxConstructed exSolverCalls = 2 := by decide +kernel

example : SolverCall.construct true ∉ [SolverCall.construct false, .destruct 0] := by decide

end Mfmg
