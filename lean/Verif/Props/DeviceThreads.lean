import Verif.Lemmas.DeviceThreads
import Mathlib.LinearAlgebra.Matrix.Notation

/-!
# C97: device operators and hierarchies used by several threads

`apply` of an operator is `const`, and so is applying a hierarchy.  On the device several threads may nevertheless
not apply the same operator at the same time.
-/

set_option autoImplicit false

namespace Mfmg

open Spec

section

variable {ι K : Type} [NonUnitalNonAssocSemiring K] [DecidableEq ι] {debug : Bool}

omit [NonUnitalNonAssocSemiring K] [DecidableEq ι] in
/-- If for every operator without transposed matrix at most one thread applies the transpose, there is an owner. -/
theorem exists_opOwner [Nonempty ι] (s : OpSystem ι K)
    (h : ∀ i k l, k ≠ l → (s.shared.ops i).transposed = none →
      ¬ (WillTranspose (s.threads k) i ∧ WillTranspose (s.threads l) i)) : ∃ own, Owner s own := by
  classical
  refine ⟨fun i => if hi : ∃ k, WillTranspose (s.threads k) i then hi.choose else Classical.arbitrary ι, ?_⟩
  intro i k h0 hk
  have hi : ∃ k, WillTranspose (s.threads k) i := ⟨k, hk⟩
  simp only [dif_pos hi]
  by_contra hne
  exact h i k _ hne h0 ⟨hk, hi.choose_spec⟩

/-- **C97, when there is no data race.**  Threads that apply device operators are free of data races, whatever
the order of their steps, exactly if for every operator whose transposed matrix has not been made before, at most
one of the threads applies the transpose.

Missing for the full claim (any number of threads may apply the same operators): see `C97_race_violated`. -/
theorem C97_safe_partial (s : OpSystem ι K) (hb : Beginning s) :
    ThreadSafe debug s ↔ ∀ i k l, k ≠ l → (s.shared.ops i).transposed = none →
      ¬ (WillTranspose (s.threads k) i ∧ WillTranspose (s.threads l) i) := by
  constructor
  · rintro h i k l hkl h0 ⟨hk, hl⟩
    obtain ⟨sched, t, u, us, v, vs, h1, ⟨h2, -⟩, h3, h4, h5, h6, h7, h8, h9, h10, -, h12⟩ :=
      reach_both (debug := debug) k l hkl i s hb hk hl
    subst h4
    obtain ⟨t', g1, g2⟩ := h (sched ++ [k, k, k])
    have hm := h2 u.op
    have h0' : (t.shared.ops u.op).transposed = none := by rw [h12, h0]
    have g3 : t.run debug [k, k, k] = .ok ⟨t.shared, Function.update t.threads k ⟨u :: us,
        .assign ⟨t.shared.heap[(t.shared.ops u.op).matrix].mat.transpose, false, false⟩,
        (t.threads k).results⟩⟩ := by
      simp [OpSystem.run, OpSystem.step, opStepThread, h3, h5, h6, h0', DevShared.Valid.at hm]
    rw [OpSystem.run_append, h1] at g1
    change t.run debug [k, k, k] = _ at g1
    rw [g3] at g1
    cases g1
    refine g2 ⟨k, l, hkl, .transposed u.op, ?_, Or.inr ?_⟩
    · simp [opWrites]
    · simp [opReads, Function.update_of_ne hkl.symm, h7, h8, h9, h10]
  · intro h sched
    rcases isEmpty_or_nonempty ι with hι | hι
    · cases sched with
      | nil =>
        refine ⟨s, rfl, ?_⟩
        rintro ⟨k, -⟩
        exact hι.elim k
      | cons k _ => exact hι.elim k
    · obtain ⟨own, ho⟩ := exists_opOwner s h
      obtain ⟨t, h1, h2⟩ := (ThreadsInv.init (debug := debug) (own := own) hb).run hb ho sched
      exact ⟨t, h1, h2.not_racing hb ho⟩

/-- **C97, the results without data race.**  In that case each thread gets, for the calls it has finished so far,
the results that the same calls give in a program with one thread; the operators are the same as before, up to
transposed matrices made in between. -/
theorem C97_results_partial (s : OpSystem ι K) (hb : Beginning s) (hs : ThreadSafe debug s) (sched : List ι) :
    ∃ t, s.run debug sched = .ok t ∧
      (∀ k, ∃ done, (s.threads k).uses = done ++ (t.threads k).uses ∧
        (t.threads k).results = resultsAlone debug s.shared done []) ∧
      ∀ k, 8 * (s.threads k).uses.length ≤ sched.count k → (t.threads k).uses = [] := by
  rcases isEmpty_or_nonempty ι with hι | hι
  · obtain ⟨t, h1, -⟩ := hs sched
    exact ⟨t, h1, fun k => hι.elim k, fun k => hι.elim k⟩
  · obtain ⟨own, ho⟩ := exists_opOwner s ((C97_safe_partial s hb).1 hs)
    obtain ⟨t, h1, h2⟩ := (ThreadsInv.init (debug := debug) (own := own) hb).run hb ho sched
    refine ⟨t, h1, fun k => ?_, fun k hk => ?_⟩
    · obtain ⟨done, h3, h4, -⟩ := h2.uses k
      exact ⟨done, h3, h4⟩
    · have h3 := stepsLeft_run k sched h1
      have h4 : stepsLeft (s.threads k) ≤ 8 * (s.threads k).uses.length := by
        unfold stepsLeft
        cases hu : (s.threads k).uses with
        | nil => simp
        | cons u us => simp only [hb.pc k, List.length_cons]; omega
      exact finished_of_stepsLeft (by omega)

/-- The second component of `cudaApply` does not depend on whether the transposed matrix has been made. -/
theorem cudaApply_made (a : DevMatrix K) (tr : Bool) (x y : List K) :
    (do let z ← cudaApply debug { matrix := a, transposed := some (newTransposed a) } tr x y
        pure z.2) =
    (do let z ← cudaApply debug { matrix := a, transposed := none } tr x y
        pure z.2) := by
  cases tr with
  | false =>
    simp only [cudaApply, Bool.false_and, Bool.false_eq_true, if_false]
    cases devVmult debug a x y <;> rfl
  | true =>
    simp only [cudaApply, Option.isNone_some, Bool.and_false, Bool.false_eq_true, if_false, if_true, Outcome.deref,
      Outcome.ok_bind, Option.isNone_none, Bool.and_self, cudaTranspose]

/-- **C97, warming up.**  Let a first set of threads, for example a single one, run without data race to its end.
Afterwards any number of threads may apply the transposes that have been applied in it, without data race; and
their results are those of a program with one thread and the operators of the beginning. -/
theorem C97_warm_partial (s t : OpSystem ι K) (hb : Beginning s) (hs : ThreadSafe debug s) (sched : List ι)
    (ht : s.run debug sched = .ok t) (hf : ∀ k, (t.threads k).uses = [])
    (threads : ι → OpThread K) (hpc : ∀ k, (threads k).pc = .check) (hr : ∀ k, (threads k).results = [])
    (hw : ∀ k i, WillTranspose (threads k) i → (s.shared.ops i).transposed ≠ none ∨
      ∃ l, WillTranspose (s.threads l) i) (sched' : List ι) :
    ThreadSafe debug ⟨t.shared, threads⟩ ∧
    ∃ t', (OpSystem.mk t.shared threads).run debug sched' = .ok t' ∧
      ∀ k, ∃ done, (threads k).uses = done ++ (t'.threads k).uses ∧
        (t'.threads k).results = resultsAlone debug s.shared done [] := by
  rcases isEmpty_or_nonempty ι with hι | hι
  · have key : ∀ sched : List ι, (OpSystem.mk t.shared threads).run debug sched = .ok ⟨t.shared, threads⟩ := by
      intro sched
      cases sched with
      | nil => rfl
      | cons k _ => exact hι.elim k
    refine ⟨fun sched => ⟨_, key sched, ?_⟩, _, key _, fun k => hι.elim k⟩
    rintro ⟨k, -⟩
    exact hι.elim k
  · obtain ⟨own, ho⟩ := exists_opOwner s ((C97_safe_partial s hb).1 hs)
    obtain ⟨t₁, h1, h2⟩ := (ThreadsInv.init (debug := debug) (own := own) hb).run hb ho sched
    rw [ht] at h1
    cases h1
    have full : ∀ i p, (s.shared.ops i).transposed = none → (t.shared.ops i).transposed = some p →
        ∃ a, s.shared.heap[(s.shared.ops i).matrix]? = some a ∧ t.shared.heap[p]? = some (newTransposed a) := by
      intro i p h0 hp
      obtain ⟨-, a, h3, h4⟩ := h2.made i p h0 hp
      refine ⟨a, h3, ?_⟩
      rw [h4]
      simp [madeBy, hf]
    have hb' : Beginning (OpSystem.mk t.shared threads) := by
      refine ⟨hpc, hr, ?_, ?_⟩
      · intro i
        simp only [h2.matrix]
        exact (hb.matrix i).trans_le h2.longer
      · intro i p hp
        cases h0 : (s.shared.ops i).transposed with
        | some q =>
          simp only [h2.old i q h0, Option.some.injEq] at hp
          subst hp
          exact (hb.transposed i q h0).trans_le h2.longer
        | none =>
          obtain ⟨a, -, h4⟩ := full i p h0 hp
          by_contra hc
          rw [List.getElem?_eq_none (not_lt.1 hc)] at h4
          cases h4
    have safe : ThreadSafe debug ⟨t.shared, threads⟩ := by
      rw [C97_safe_partial _ hb']
      rintro i k l - h0 ⟨hk, -⟩
      simp only at h0
      rcases hw k i hk with h3 | ⟨j, u, hu, rfl, htr⟩
      · cases h4 : (s.shared.ops i).transposed with
        | none => exact h3 h4
        | some q =>
          rw [h2.old i q h4] at h0
          cases h0
      · obtain ⟨done, h5, -, h6⟩ := h2.uses j
        rw [hf, List.append_nil] at h5
        rw [h5] at hu
        obtain ⟨p, hp⟩ := h6 u hu htr
        rw [hp] at h0
        cases h0
    refine ⟨safe, ?_⟩
    obtain ⟨t', h3, h4, -⟩ := C97_results_partial _ hb' safe sched'
    refine ⟨t', h3, fun k => ?_⟩
    obtain ⟨done, h5, h6⟩ := h4 k
    refine ⟨done, h5, h6.trans ?_⟩
    -- the operators give the same results as at the beginning
    have op : ∀ i, ∃ a, (operatorOf t.shared i = operatorOf s.shared i) ∨
        (operatorOf s.shared i = some { matrix := a, transposed := none } ∧
          operatorOf t.shared i = some { matrix := a, transposed := some (newTransposed a) }) := by
      intro i
      have hlt := hb.matrix i
      have hm : t.shared.heap[(t.shared.ops i).matrix]? = some s.shared.heap[(s.shared.ops i).matrix] := by
        rw [h2.matrix, h2.kept _ hlt, List.getElem?_eq_getElem hlt]
      refine ⟨s.shared.heap[(s.shared.ops i).matrix], ?_⟩
      cases h0 : (s.shared.ops i).transposed with
      | some q =>
        left
        have hq := hb.transposed i q h0
        simp [operatorOf, hm, h0, h2.old i q h0, List.getElem?_eq_getElem hlt, h2.kept q hq]
      | none =>
        cases h1 : (t.shared.ops i).transposed with
        | none =>
          left
          simp [operatorOf, hm, h0, h1, List.getElem?_eq_getElem hlt]
        | some p =>
          right
          obtain ⟨a, h7, h8⟩ := full i p h0 h1
          rw [List.getElem?_eq_getElem hlt] at h7
          cases h7
          constructor
          · simp [operatorOf, h0, List.getElem?_eq_getElem hlt]
          · simp [operatorOf, hm, h1, h8]
    have same : ∀ (us : List (OpUse K)) r, resultsAlone debug t.shared us r = resultsAlone debug s.shared us r := by
      intro us
      induction us with
      | nil => intro r; rfl
      | cons u us ih =>
        intro r
        rw [resultsAlone, resultsAlone, ih]
        obtain ⟨a, h7 | ⟨h7, h8⟩⟩ := op u.op
        · rw [h7]
        · rw [h7, h8]
          simp only [Outcome.deref, Outcome.ok_bind]
          rw [cudaApply_made]
    exact same _ _

/-- **C97 violated.**  Two threads that apply the transpose of the same operator for the first time have a data
race, although `apply` is `const`. -/
theorem C97_race_violated (s : OpSystem ι K) (hb : Beginning s) (i : ℕ) (k l : ι) (hkl : k ≠ l)
    (h0 : (s.shared.ops i).transposed = none) (hk : WillTranspose (s.threads k) i)
    (hl : WillTranspose (s.threads l) i) : ¬ ThreadSafe debug s :=
  fun h => (C97_safe_partial s hb).1 h i k l hkl h0 ⟨hk, hl⟩

/-- **C97 violated, the matrix.**  This would matter even if every access were atomic: there is an order of the
steps after which the operator has become its transpose, for all later calls. -/
theorem C97_swapped_violated (s : OpSystem ι K) (hb : Beginning s) (i : ℕ) (k l : ι) (hkl : k ≠ l)
    (a : DevMatrix K) (h0 : operatorOf s.shared i = some { matrix := a, transposed := none })
    (hk : WillTranspose (s.threads k) i) (hl : WillTranspose (s.threads l) i) :
    ∃ sched t, s.run debug sched = .ok t ∧
      operatorOf t.shared i = some { matrix := newTransposed a, transposed := some a } := by
  obtain ⟨sched, t, u, us, v, vs, h1, ⟨h2, -⟩, h3, h4, h5, h6, h7, h8, h9, h10, h11, h12⟩ :=
    reach_both (debug := debug) k l hkl i s hb hk hl
  subst h4
  have hm := h2 u.op
  have hs := hb.matrix u.op
  have hn : (s.shared.ops u.op).transposed = none ∧ s.shared.heap[(s.shared.ops u.op).matrix]? = some a := by
    rw [operatorOf, List.getElem?_eq_getElem hs] at h0
    cases h : (s.shared.ops u.op).transposed with
    | none =>
      simp only [h, Option.some.injEq, CudaOp.mk.injEq, and_true] at h0
      exact ⟨rfl, by rw [List.getElem?_eq_getElem hs, h0]⟩
    | some q => simp [h] at h0
  have h0' : (t.shared.ops u.op).transposed = none := by rw [h12, hn.1]
  have ha : t.shared.heap[(t.shared.ops u.op).matrix]? = some a := by rw [h12, h11 _ hs, hn.2]
  have ha' : t.shared.heap[(t.shared.ops u.op).matrix] = a := by
    rw [List.getElem?_eq_getElem hm] at ha
    exact Option.some.inj ha
  refine ⟨sched ++ [k, l, k, k, k, k, k, l, l], ⟨⟨t.shared.heap ++ [newTransposed a],
    Function.update t.shared.ops u.op ⟨t.shared.heap.length, some (t.shared.ops u.op).matrix⟩⟩,
    Function.update (Function.update t.threads k ⟨u :: us, .fetch, (t.threads k).results⟩) l
      ⟨v :: vs, .fetch, (t.threads l).results⟩⟩, ?_, ?_⟩
  · rw [OpSystem.run_append, h1]
    change t.run debug _ = _
    simp [OpSystem.run, OpSystem.step, opStepThread, h3, h5, h6, h7, h8, h9, h10, h0', DevShared.at, Outcome.get,
      List.getElem?_append_left hm, List.getElem?_eq_getElem hm, ha', newTransposed, Outcome.deref,
      Function.update_of_ne hkl, Function.update_of_ne hkl.symm, Function.update_comm hkl]
  · simp [operatorOf, List.getElem?_append_left hm, ha]

/-- **C97 violated, the result.**  And there is an order of the steps in which one thread uses the transposed
matrix before the other one has set its cuSPARSE handle: in debug builds the program is aborted, in release builds
the destination keeps what it had. -/
theorem C97_early_violated (s : OpSystem ι K) (hb : Beginning s) (i : ℕ) (k l : ι) (hkl : k ≠ l)
    (h0 : (s.shared.ops i).transposed = none)
    (hk : WillTranspose (s.threads k) i) (hl : WillTranspose (s.threads l) i) :
    ∃ sched t, s.run debug sched = .ok t ∧ ∃ v ∈ (s.threads l).uses, v.op = i ∧ v.tr = true ∧
      ∃ r, (t.threads l).results = r ++ [if debug then .aborted else .ok (v.args r).2] := by
  obtain ⟨sched, t, u, us, v, vs, h1, ⟨h2, -⟩, h3, h4, h5, h6, h7, h8, h9, h10, h11, h12⟩ :=
    reach_both (debug := debug) k l hkl i s hb hk hl
  subst h4
  have hm := h2 u.op
  have h0' : (t.shared.ops u.op).transposed = none := by rw [h12, h0]
  have hv : v ∈ (s.threads l).uses := by
    have : ∀ (sched : List ι) (s t : OpSystem ι K), s.run debug sched = .ok t →
        v ∈ (t.threads l).uses → v ∈ (s.threads l).uses := by
      intro sched
      induction sched with
      | nil => intro s t h; cases h; exact id
      | cons j js ih =>
        intro s t h hv
        rw [OpSystem.run] at h
        obtain ⟨s', g1, g2⟩ := Outcome.bind_eq_ok.1 h
        have g3 := ih s' t g2 hv
        rw [OpSystem.step] at g1
        obtain ⟨⟨sh, th⟩, g4, g5⟩ := Outcome.bind_eq_ok.1 g1
        cases g5
        simp only at g3
        by_cases e : j = l
        · subst e
          rw [Function.update_self] at g3
          exact opStepThread_uses g4 v g3
        · rwa [Function.update_of_ne (Ne.symm e)] at g3
    exact this sched s t h1 (by rw [h7]; simp)
  refine ⟨sched ++ [k, k, k, k, l, l, l], ⟨⟨t.shared.heap ++
      [⟨t.shared.heap[(t.shared.ops u.op).matrix].mat.transpose, false, false⟩],
    Function.update t.shared.ops u.op ⟨(t.shared.ops u.op).matrix, some t.shared.heap.length⟩⟩,
    Function.update (Function.update t.threads k ⟨u :: us, .setHandle, (t.threads k).results⟩) l
      ⟨vs, .check, (t.threads l).results ++ [if debug then .aborted else .ok (v.args (t.threads l).results).2]⟩⟩,
    ?_, v, hv, h8, h9, (t.threads l).results, by simp⟩
  rw [OpSystem.run_append, h1]
  change t.run debug _ = _
  simp [OpSystem.run, OpSystem.step, opStepThread, h3, h5, h6, h7, h8, h9, h10, h0', DevShared.at, Outcome.get,
    List.getElem?_eq_getElem hm, Outcome.deref, devVmult,
    Function.update_of_ne hkl.symm, Function.update_comm hkl]

omit [NonUnitalNonAssocSemiring K] in
/-- Which transposes an application of a hierarchy with `d` levels below level `l` needs. -/
theorem mem_cycleUses (n : ℕ) (args : List (Outcome (List K)) → List K × List K) (d l i : ℕ) :
    (∃ u ∈ cycleUses n args d l, u.op = i ∧ u.tr = true) ↔ ∃ j, l ≤ j ∧ j < l + d ∧ i = 2 * j + 1 := by
  induction d generalizing l with
  | zero =>
    constructor
    · rintro ⟨u, hu, -, ht⟩
      simp only [cycleUses, List.mem_singleton] at hu
      subst hu
      cases ht
    · rintro ⟨j, h1, h2, -⟩
      omega
  | succ d ih =>
    constructor
    · rintro ⟨u, hu, hi, ht⟩
      simp only [cycleUses, List.mem_append, List.mem_replicate, List.mem_cons, List.not_mem_nil, or_false] at hu
      rcases hu with (((⟨-, rfl⟩ | (rfl | rfl)) | hu) | rfl) | ⟨-, rfl⟩
      · cases ht
      · cases ht
      · cases ht
      · obtain ⟨j, h1, h2, h3⟩ := (ih (l + 1)).1 ⟨u, hu, hi, ht⟩
        exact ⟨j, by omega, by omega, h3⟩
      · exact ⟨l, le_rfl, by omega, hi.symm⟩
      · cases ht
    · rintro ⟨j, h1, h2, rfl⟩
      by_cases e : j = l
      · subst e
        exact ⟨⟨2 * j + 1, true, args⟩, by simp [cycleUses], rfl, rfl⟩
      · obtain ⟨u, hu, h3⟩ := (ih (l + 1)).2 ⟨j, by omega, by omega, rfl⟩
        exact ⟨u, by simp [cycleUses, hu], h3⟩

/-- **C97, hierarchies.**  Threads that each apply a device hierarchy of `d + 1` levels, one or more times, have no
data race exactly if there is only one thread or the transposed matrices of all restrictors have been made
before. -/
theorem C97_hierarchy_partial (n d : ℕ) (apps : ι → List (List (Outcome (List K)) → List K × List K))
    (ha : ∀ k, apps k ≠ []) (s : OpSystem ι K) (hb : Beginning s)
    (hu : ∀ k, (s.threads k).uses = (apps k).flatMap fun args => cycleUses n args d 0) :
    ThreadSafe debug s ↔ Subsingleton ι ∨ ∀ j, j < d → (s.shared.ops (2 * j + 1)).transposed ≠ none := by
  have hw : ∀ k i, WillTranspose (s.threads k) i ↔ ∃ j, j < d ∧ i = 2 * j + 1 := by
    intro k i
    unfold WillTranspose
    rw [hu]
    constructor
    · rintro ⟨u, hm, h⟩
      obtain ⟨args, -, hm⟩ := List.mem_flatMap.1 hm
      obtain ⟨j, -, h2, h3⟩ := (mem_cycleUses n args d 0 i).1 ⟨u, hm, h⟩
      exact ⟨j, by omega, h3⟩
    · rintro ⟨j, h1, h2⟩
      obtain ⟨args, hargs⟩ := List.exists_mem_of_ne_nil _ (ha k)
      obtain ⟨u, h3, h4⟩ := (mem_cycleUses n args d 0 i).2 ⟨j, by omega, by omega, h2⟩
      exact ⟨u, List.mem_flatMap.2 ⟨args, hargs, h3⟩, h4⟩
  rw [C97_safe_partial s hb]
  constructor
  · intro h
    by_cases hsub : Subsingleton ι
    · exact Or.inl hsub
    · right
      intro j hj h0
      obtain ⟨k, l, hkl⟩ := (not_subsingleton_iff_nontrivial.1 hsub).exists_pair_ne
      exact h (2 * j + 1) k l hkl h0 ⟨(hw k _).2 ⟨j, hj, rfl⟩, (hw l _).2 ⟨j, hj, rfl⟩⟩
  · rintro (h | h) i k l hkl h0 ⟨hk, -⟩
    · exact hkl (Subsingleton.elim k l)
    · obtain ⟨j, hj, rfl⟩ := (hw k i).1 hk
      exact h j hj h0

end

/-! ## Examples -/

/-- The matrix `(1 2; 3 4)`. -/
def exThreadMatrix : DevMatrix ℤ := { mat := ⟨2, 2, !![1, 2; 3, 4]⟩, handle := true, descr := true }

/-- A call with the vector `(1, 0)` and a destination `(7, 7)`. -/
def exThreadUse (i : ℕ) (tr : Bool) : OpUse ℤ := ⟨i, tr, fun _ => ([1, 0], [7, 7])⟩

/-- Two threads; all operators have the matrix, and no transposed one. -/
def exThreadSys (u v : List (OpUse ℤ)) : OpSystem Bool ℤ where
  shared := { heap := [exThreadMatrix], ops := fun _ => ⟨0, none⟩ }
  threads b := { uses := if b then v else u }

theorem exThreadSys_beginning (u v : List (OpUse ℤ)) : Beginning (exThreadSys u v) where
  pc _ := rfl
  results _ := rfl
  matrix _ := by simp [exThreadSys]
  transposed _ _ h := by simp [exThreadSys] at h

/-- The results of a thread after a run. -/
def exThreadResults (o : Outcome (OpSystem Bool ℤ)) (k : Bool) : List (Outcome (List ℤ)) :=
  match o with
  | .ok t => (t.threads k).results
  | _ => []

/-- Two threads, one transposing operator 0 and applying operator 1, the other the other way round: no race. -/
example (debug : Bool) : ThreadSafe debug (exThreadSys [exThreadUse 0 true, exThreadUse 1 false]
    [exThreadUse 0 false, exThreadUse 1 true]) := by
  rw [C97_safe_partial _ (exThreadSys_beginning _ _)]
  rintro i k l hkl - ⟨⟨u, hu, rfl, ht⟩, v, hv, hi, ht'⟩
  cases k <;> cases l <;> simp [exThreadSys, exThreadUse] at hu hv hkl
  · rcases hu with rfl | rfl <;> rcases hv with rfl | rfl <;> simp_all
  · rcases hu with rfl | rfl <;> rcases hv with rfl | rfl <;> simp_all

/-- Both threads transposing operator 0: a race. -/
example (debug : Bool) : ¬ ThreadSafe debug (exThreadSys [exThreadUse 0 true] [exThreadUse 0 true]) :=
  C97_race_violated _ (exThreadSys_beginning _ _) 0 false true (by decide) rfl
    ⟨_, List.mem_singleton.2 rfl, rfl, rfl⟩ ⟨_, List.mem_singleton.2 rfl, rfl, rfl⟩

/-- One after the other: the transposed product twice. -/
example : exThreadResults ((exThreadSys [exThreadUse 0 true] [exThreadUse 0 true]).run false
    (List.replicate 8 false ++ List.replicate 3 true)) true = [.ok [1, 2]] := by decide

/-- After the order of `C97_swapped_violated` both threads get the product with the matrix itself. -/
example : exThreadResults ((exThreadSys [exThreadUse 0 true] [exThreadUse 0 true]).run false
    [false, true, false, false, false, false, false, true, true, true, true, false, false]) true = [.ok [1, 3]] ∧
  exThreadResults ((exThreadSys [exThreadUse 0 true] [exThreadUse 0 true]).run false
    [false, true, false, false, false, false, false, true, true, true, true, false, false]) false = [.ok [1, 3]] := by
  decide

/-- And a later product with the matrix is one with the transposed matrix. -/
example : exThreadResults ((exThreadSys [exThreadUse 0 true] [exThreadUse 0 true, exThreadUse 0 false]).run true
    [false, true, false, false, false, false, false, true, true, true, true, true, true, true]) true
    = [.ok [1, 3], .ok [1, 2]] := by
  decide

/-- After the order of `C97_early_violated` the destination is unchanged in release builds. -/
example : exThreadResults ((exThreadSys [exThreadUse 0 true] [exThreadUse 0 true]).run false
    [false, false, false, false, true, true, true]) true = [.ok [7, 7]] := by decide

/-- Two threads that each apply a hierarchy with two levels race, even if they apply it only once. -/
example (debug : Bool) (args : List (Outcome (List ℤ)) → List ℤ × List ℤ) :
    ¬ ThreadSafe debug (exThreadSys (cycleUses 1 args 1 0) (cycleUses 1 args 1 0)) := by
  rw [C97_hierarchy_partial 1 1 (fun _ => [args]) (by simp) _ (exThreadSys_beginning _ _)
    (by intro k; simp [exThreadSys])]
  rintro (h | h)
  · exact absurd (Subsingleton.elim (h := h) false true) (by decide)
  · exact h 0 (by decide) rfl

/-- One thread applies the hierarchy; then two threads may apply it. -/
example (debug : Bool) (args : List (Outcome (List ℤ)) → List ℤ × List ℤ) :
    ∃ t : OpSystem Bool ℤ, (exThreadSys (cycleUses 1 args 1 0) []).run debug (List.replicate 100 false) = .ok t ∧
      ThreadSafe debug (⟨t.shared, fun _ => { uses := cycleUses 1 args 1 0 }⟩ : OpSystem Bool ℤ) := by
  have hs : ThreadSafe debug (exThreadSys (cycleUses 1 args 1 0) []) := by
    rw [C97_safe_partial _ (exThreadSys_beginning _ _)]
    rintro i k l hkl - ⟨⟨u, hu, -⟩, v, hv, -⟩
    cases k <;> cases l <;> simp [exThreadSys] at hu hv hkl
  obtain ⟨t, h1, -, h3⟩ := C97_results_partial _ (exThreadSys_beginning _ _) hs (List.replicate 100 false)
  refine ⟨t, h1, (C97_warm_partial _ t (exThreadSys_beginning _ _) hs _ h1 ?_
    (fun _ => { uses := cycleUses 1 args 1 0 }) (fun _ => rfl) (fun _ => rfl)
    (fun _ i hi => Or.inr ⟨false, hi⟩) []).1⟩
  intro k
  exact h3 k (by cases k <;> simp [exThreadSys, cycleUses])

end Mfmg
