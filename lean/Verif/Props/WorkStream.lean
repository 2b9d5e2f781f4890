import Verif.Lemmas.WorkStream
import Verif.Lemmas.Restriction
import Mathlib.Data.Rat.Defs
import Mathlib.Tactic.NormNum

/-!
# The set-up of the restrictor and the thread schedule (C25)
-/

set_option autoImplicit false

namespace Mfmg

section

variable {K : Type}

/-- Full statement of C25: all legal schedules for `n` agglomerates give the same result. -/
def ScheduleIndependent (debug matrixFree : Bool) (p : EigParams)
    (solver : ℕ → String → List (List K) → Outcome (CopyData K)) (unsolved : ℕ → CopyData K)
    (n : ℕ) : Prop :=
  ∀ es es', LegalSchedule n es → LegalSchedule n es' → ∀ x,
    setupCollect debug matrixFree p solver unsolved es = .ok x →
    setupCollect debug matrixFree p solver unsolved es' = .ok x

/-- **C25** (unless type is "anasazi" and "use_initial_guess" is set; see `C25_schedule_violated`).
For every number of agglomerates and every local eigensolver, all legal schedules give the same
result, which is the collection of the local results in agglomerate order, each solved without a
guess from another agglomerate. -/
theorem C25_schedule_partial (debug matrixFree : Bool) (p : EigParams)
    (solver : ℕ → String → List (List K) → Outcome (CopyData K)) (unsolved : ℕ → CopyData K)
    (n : ℕ) (hp : ¬ (p.type = some "anasazi" ∧ p.useInitialGuess = true)) :
    ScheduleIndependent debug matrixFree p solver unsolved n ∧
    ∀ es, LegalSchedule n es → ∀ x,
      (setupCollect debug matrixFree p solver unsolved es = .ok x ↔
        ∃ res : ℕ → CopyData K,
          (∀ i, i < n → computeLocal debug matrixFree p solver unsolved i [] = .ok (res i)) ∧
          x = collect ((List.range n).map res)) := by
  have hw : ∀ i c, localWorker debug matrixFree p solver unsolved i [] c
      = (computeLocal debug matrixFree p solver unsolved i [] >>= fun c => pure ([], c)) := by
    intro i c
    have : ¬ (p.type.getD "lanczos" = "anasazi" ∧ p.useInitialGuess = true) := by
      rintro ⟨h1, h2⟩
      cases ht : p.type with
      | none => rw [ht] at h1; simp at h1
      | some t => rw [ht] at h1; simp at h1; exact hp ⟨by rw [ht, h1], h2⟩
    simp only [localWorker, if_neg this]
  have main : ∀ es, LegalSchedule n es → ∀ x,
      (setupCollect debug matrixFree p solver unsolved es = .ok x ↔
        ∃ res : ℕ → CopyData K,
          (∀ i, i < n → computeLocal debug matrixFree p solver unsolved i [] = .ok (res i)) ∧
          x = collect ((List.range n).map res)) := by
    intro es hes x
    have hfwd : ∀ res : ℕ → CopyData K,
        (∀ i, i < n → computeLocal debug matrixFree p solver unsolved i [] = .ok (res i)) →
        setupCollect debug matrixFree p solver unsolved es
          = .ok (collect ((List.range n).map res)) := by
      intro res hres
      obtain ⟨st', h1, h2⟩ := wsRun_schedule (localWorker debug matrixFree p solver unsolved)
        (fun c s => copyLocalToGlobal s c) n (fun s => s = []) (fun _ => True) res
        (by
          rintro i s c hi rfl _
          exact ⟨[], rfl, by rw [hw, hres i hi]; rfl⟩) (fun _ _ => trivial)
        es hes ⟨fun _ => [], fun _ => ⟨[], [], [], []⟩, ⟨[], [], [], [], []⟩⟩ (fun _ => rfl)
        (fun _ => trivial)
      simp only [setupCollect, h1, Outcome.ok_bind, Outcome.pure_eq, h2, collect, List.foldl_map]
    constructor
    · intro h
      have hall : ∀ i, i < n →
          ∃ c, computeLocal debug matrixFree p solver unsolved i [] = .ok c := by
        intro i hi
        simp only [setupCollect] at h
        rw [Outcome.bind_eq_ok] at h
        obtain ⟨st', h1, -⟩ := h
        rcases wsRun_ok_work (localWorker debug matrixFree p solver unsolved)
          (fun c s => copyLocalToGlobal s c) n (fun s => s = [])
          (by
            rintro i s c s' c' rfl h
            rw [hw, Outcome.bind_eq_ok] at h
            obtain ⟨a, _, ha⟩ := h
            simp only [Outcome.pure_eq, Outcome.ok.injEq, Prod.mk.injEq] at ha
            exact ha.1.symm)
          es 0 _ _ hes _ _ (fun _ => rfl) h1 i (Nat.zero_le _) hi with ⟨c, hc⟩ | ⟨s, c, s', c', rfl, h⟩
        · cases hc
        · rw [hw, Outcome.bind_eq_ok] at h
          obtain ⟨a, ha, -⟩ := h
          exact ⟨a, ha⟩
      classical
      refine ⟨fun i => if h : i < n then (hall i h).choose else unsolved i, ?_, ?_⟩
      · intro i hi
        simp only [dif_pos hi]
        exact (hall i hi).choose_spec
      · have := hfwd (fun i => if h : i < n then (hall i h).choose else unsolved i) (by
          intro i hi
          simp only [dif_pos hi]
          exact (hall i hi).choose_spec)
        rw [h] at this
        exact Outcome.ok.inj this
    · rintro ⟨res, hres, rfl⟩
      exact hfwd res hres
  refine ⟨?_, main⟩
  intro es es' hes hes' x hx
  exact (main es' hes' x).2 ((main es hes x).1 hx)

/-- A solver that answers with the guess it gets (or with the item number if there is none). -/
def echoSolver : ℕ → String → List (List ℚ) → Outcome (CopyData ℚ) :=
  fun i _ guess => .ok ⟨[0], if guess = [] then [[(i : ℚ) + 1]] else guess, [1], [i]⟩

/-- Two threads; the second item is finished first. -/
def twoThreads : List WSEvent := [.work 1 1 1, .work 0 0 0, .copy 0 0, .copy 1 1]

theorem twoThreads_legal : LegalSchedule 2 twoThreads := by
  simp [LegalSchedule, twoThreads, Legal]

/-- The hypothesis of `C25_schedule_partial` holds for the default parameters, there are several
legal schedules, and the run succeeds. -/
example : ¬ ((none : Option String) = some "anasazi" ∧ false = true) ∧ LegalSchedule 2 twoThreads ∧
    LegalSchedule 2 (wsSequential 2) ∧
    setupCollect true false ⟨none, false⟩ echoSolver (fun _ => ⟨[], [], [], []⟩) twoThreads
      = .ok ⟨[0, 0], [[1], [2]], [[1], [1]], [[0], [1]], [1, 1]⟩ := by
  refine ⟨by simp, twoThreads_legal, wsSequential_legal 2, ?_⟩
  exact (((C25_schedule_partial true false ⟨none, false⟩ echoSolver _ 2 (by simp)).2 _
    twoThreads_legal) _).2 ⟨fun i => ⟨[0], [[(i : ℚ) + 1]], [1], [i]⟩,
      by intro i _; simp [computeLocal, echoSolver], by
        simp [collect_eq, List.range_succ]; norm_num⟩

/-- **C25** is false with type "anasazi" and "use_initial_guess": for every eigensolver whose answer
for the second agglomerate depends on whether it starts from the first agglomerate's eigenvectors,
the sequential schedule and a schedule with two threads both succeed with different
eigenvectors. -/
theorem C25_schedule_violated (debug matrixFree : Bool)
    (solver : ℕ → String → List (List K) → Outcome (CopyData K)) (unsolved : ℕ → CopyData K)
    (c0 c1 c1' : CopyData K) (h0 : solver 0 "anasazi" [] = .ok c0)
    (h1 : solver 1 "anasazi" c0.eigenvectors = .ok c1) (h1' : solver 1 "anasazi" [] = .ok c1')
    (hne : c1.eigenvectors ≠ c1'.eigenvectors) :
    ¬ ScheduleIndependent debug matrixFree ⟨some "anasazi", true⟩ solver unsolved 2 := by
  intro hcon
  have e0 : ∀ c, localWorker debug matrixFree ⟨some "anasazi", true⟩ solver unsolved 0 [] c
      = .ok (c0.eigenvectors, c0) := by
    intro c; simp [localWorker, computeLocal, h0]
  have e1 : ∀ c, localWorker debug matrixFree ⟨some "anasazi", true⟩ solver unsolved 1
      c0.eigenvectors c = .ok (c1.eigenvectors, c1) := by
    intro c; simp [localWorker, computeLocal, h1]
  have e1' : ∀ c, localWorker debug matrixFree ⟨some "anasazi", true⟩ solver unsolved 1 [] c
      = .ok (c1'.eigenvectors, c1') := by
    intro c; simp [localWorker, computeLocal, h1']
  have r1 : setupCollect debug matrixFree ⟨some "anasazi", true⟩ solver unsolved (wsSequential 2)
      = .ok (collect [c0, c1]) := by
    simp [setupCollect, wsSequential, List.range_succ, wsRun, wsStep, e0, e1, collect]
  have r2 : setupCollect debug matrixFree ⟨some "anasazi", true⟩ solver unsolved twoThreads
      = .ok (collect [c0, c1']) := by
    simp [setupCollect, twoThreads, wsRun, wsStep, e0, e1', collect]
  have := hcon _ _ (wsSequential_legal 2) twoThreads_legal _ r1
  rw [r2, Outcome.ok.injEq, collect_eq, collect_eq] at this
  simp only [List.flatMap_cons, List.flatMap_nil, List.append_nil, Collected.mk.injEq,
    List.append_cancel_left_eq] at this
  exact hne this.2.1.symm

example : echoSolver 0 "anasazi" [] = .ok ⟨[0], [[1]], [1], [0]⟩ ∧
    echoSolver 1 "anasazi" [[1]] = .ok ⟨[0], [[1]], [1], [1]⟩ ∧
    echoSolver 1 "anasazi" [] = .ok ⟨[0], [[2]], [1], [1]⟩ := by
  refine ⟨by simp [echoSolver], by simp [echoSolver], by simp [echoSolver]; norm_num⟩

end

end Mfmg
