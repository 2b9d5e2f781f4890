import Verif.Spec.DeviceOperator
import Mathlib.Tactic.Tauto
import Mathlib.Algebra.Ring.Parity
import Mathlib.Algebra.Ring.Nat
import Mathlib.Data.Fin.VecNotation
import Mathlib.Data.Int.Notation
import Mathlib.Algebra.Ring.Int.Defs

/-!
# C46 and C63: histories of calls on device operators
-/

set_option autoImplicit false

namespace Mfmg

section

variable {K : Type} [NonUnitalNonAssocSemiring K]

omit [NonUnitalNonAssocSemiring K] in
@[simp] theorem GMat.transpose_transpose (A : GMat K) : A.transpose.transpose = A := rfl

/-- A matrix with handle and descriptor. -/
def readyMat (A : GMat K) : DevMatrix K := { mat := A, handle := true, descr := true }

/-- An operator with a computed transpose. -/
def opState (A B : GMat K) : CudaOp K :=
  { matrix := readyMat A, transposed := some (readyMat B) }

/-- How the state of an operator is related to the matrix it stands for. -/
def OpRel (A : GMat K) (cached : Prop) (o : CudaOp K) : Prop :=
  o.matrix = readyMat A ∧
    (o.transposed = none ∨ (cached ∧ o.transposed = some (readyMat A.transpose)))

/-- The invariant of histories. -/
def OpsRel (before : List (OpCall K)) (ms : List (GMat K)) (ops : List (CudaOp K)) : Prop :=
  ops.length = ms.length ∧ ∀ i A o, ms[i]? = some A → ops[i]? = some o →
    OpRel A (∃ d ∈ before, d.needsTranspose i = true) o

omit [NonUnitalNonAssocSemiring K] in
theorem OpRel.mono {A : GMat K} {p q : Prop} {o : CudaOp K} (h : OpRel A p o) (hpq : p → q) :
    OpRel A q o := ⟨h.1, h.2.imp id fun h => ⟨hpq h.1, h.2⟩⟩

omit [NonUnitalNonAssocSemiring K] in
theorem OpsRel.get {before : List (OpCall K)} {ms : List (GMat K)} {ops : List (CudaOp K)}
    (h : OpsRel before ms ops) {i : ℕ} {A : GMat K} (hi : ms[i]? = some A) :
    ∃ o, ops[i]? = some o ∧ OpRel A (∃ d ∈ before, d.needsTranspose i = true) o := by
  have hlt : i < ops.length := by
    rw [h.1]
    exact (List.getElem?_eq_some_iff.1 hi).1
  exact ⟨ops[i], List.getElem?_eq_getElem hlt, h.2 i A _ hi (List.getElem?_eq_getElem hlt)⟩

omit [NonUnitalNonAssocSemiring K] in
/-- Replacing one operator. -/
theorem OpsRel.set {before : List (OpCall K)} {ms : List (GMat K)} {ops : List (CudaOp K)}
    (h : OpsRel before ms ops) (c : OpCall K) {i : ℕ} {A : GMat K} (hi : ms[i]? = some A)
    {o : CudaOp K} (ho : OpRel A (∃ d ∈ before ++ [c], d.needsTranspose i = true) o) :
    OpsRel (before ++ [c]) ms (ops.set i o) := by
  refine ⟨by rw [List.length_set, h.1], ?_⟩
  intro j B p hj hp
  by_cases hij : i = j
  · subst hij
    rw [hi] at hj
    injection hj with hj
    subst hj
    rw [List.getElem?_set_self' ] at hp
    obtain ⟨o', ho', -⟩ := h.get hi
    rw [ho'] at hp
    injection hp with hp
    subst hp
    exact ho
  · rw [List.getElem?_set_ne hij] at hp
    refine (h.2 j B p hj hp).mono ?_
    rintro ⟨d, hd, hd'⟩
    exact ⟨d, List.mem_append_left _ hd, hd'⟩

omit [NonUnitalNonAssocSemiring K] in
/-- A further call that appends an operator. -/
theorem OpsRel.append {before : List (OpCall K)} {ms : List (GMat K)} {ops : List (CudaOp K)}
    (h : OpsRel before ms ops) (A : GMat K) :
    OpsRel before (ms ++ [A]) (ops ++ [{ matrix := readyMat A, transposed := none }]) := by
  refine ⟨by simp [h.1], ?_⟩
  intro i B o hB ho
  by_cases hi : i < ms.length
  · rw [List.getElem?_append_left hi] at hB
    rw [List.getElem?_append_left (by rw [h.1]; exact hi)] at ho
    exact h.2 i B o hB ho
  · rw [List.getElem?_append_right (by omega)] at hB
    rw [List.getElem?_append_right (by rw [h.1]; omega), h.1] at ho
    obtain ⟨hlt, hB⟩ := List.getElem?_eq_some_iff.1 hB
    obtain ⟨hlt', ho⟩ := List.getElem?_eq_some_iff.1 ho
    have h0 : i - ms.length = 0 := by simpa using hlt
    simp only [h0, List.getElem_cons_zero] at hB ho
    subst hB ho
    exact ⟨rfl, Or.inl rfl⟩

omit [NonUnitalNonAssocSemiring K] in
theorem OpsRel.later {before : List (OpCall K)} {ms : List (GMat K)} {ops : List (CudaOp K)}
    (h : OpsRel before ms ops) (c : OpCall K) : OpsRel (before ++ [c]) ms ops := by
  refine ⟨h.1, fun i A o hA ho => (h.2 i A o hA ho).mono ?_⟩
  rintro ⟨d, hd, hd'⟩
  exact ⟨d, List.mem_append_left _ hd, hd'⟩

theorem devVmult_ready (debug : Bool) (A : GMat K) (x y z : List K) (hz : A.mulVec x = some z)
    (hy : y.length = z.length) : devVmult debug (readyMat A) x y = .ok z := by
  have hl : z.length = A.rows := by
    unfold GMat.mulVec at hz
    split at hz
    · injection hz with hz
      subst hz
      simp
    · cases hz
  simp [devVmult, readyMat, hz, hy, hl]

theorem transposeOf_eq {L : Type} (A : GMat L) : transposeOf A = A.transpose := rfl

theorem timesOf_eq (A : GMat K) (x : List K) : timesOf A x = A.mulVec x := by
  unfold timesOf GMat.mulVec
  by_cases h : A.cols = x.length
  · rw [if_pos h.symm, dif_pos h]
    congr 2
    funext i
    unfold Matrix.mulVec dotProduct
    refine Finset.sum_congr rfl fun j _ => ?_
    have hj : (j : ℕ) < x.length := h ▸ j.2
    simp [List.getD, hj]
  · rw [if_neg (Ne.symm h), dif_neg h]

theorem productOf_eq (A B : GMat K) : productOf A B = A.mul B := rfl

/-- One call preserves the invariant and gives the intended result. -/
theorem opStep_ok (procs : ℕ) (debug : Bool) (before : List (OpCall K)) (ms ms' : List (GMat K))
    (ops : List (CudaOp K)) (c : OpCall K) (r : OpResult K) (h : OpsRel before ms ops)
    (hc : idealStep ms c = some (ms', r))
    (hone : ∀ i, c.isTranspose i = true → (∃ A, ms[i]? = some A ∧ A.transpose = A) ∨
      ∀ d ∈ before, d.needsTranspose i = false)
    (hmt : procs = 1 ∨ c.isMultiplyTranspose = false) :
    ∃ ops', opStep procs debug ops c = .ok (ops', r) ∧ OpsRel (before ++ [c]) ms' ops' := by
  cases c with
  | apply i tr x y =>
    simp only [idealStep, transposeOf_eq, timesOf_eq, Option.bind_eq_bind, Option.bind_eq_some_iff] at hc
    obtain ⟨A, hA, z, hz, hc⟩ := hc
    split at hc
    case isFalse => cases hc
    case isTrue hy =>
    injection hc with hc
    injection hc with h1 h2
    subst h1 h2
    obtain ⟨o, ho, hrel⟩ := h.get hA
    cases tr with
    | false =>
      refine ⟨ops.set i o, ?_, h.set _ hA (hrel.mono ?_)⟩
      · simp only [opStep, Outcome.get, ho, Outcome.ok_bind, cudaApply, Bool.false_and,
          Bool.false_eq_true, if_false, hrel.1]
        rw [devVmult_ready debug A x y z (by simpa using hz) hy]
        rfl
      · rintro ⟨d, hd, hd'⟩
        exact ⟨d, List.mem_append_left _ hd, hd'⟩
    | true =>
      have hz' : A.transpose.mulVec x = some z := by simpa using hz
      refine ⟨ops.set i { matrix := readyMat A, transposed := some (readyMat A.transpose) }, ?_,
        h.set _ hA ⟨rfl, Or.inr ⟨⟨_, List.mem_append_right _ (List.mem_singleton.2 rfl), ?_⟩, rfl⟩⟩⟩
      · rcases o with ⟨m, t⟩
        obtain ⟨hm, ht⟩ := hrel
        simp only at hm ht
        subst hm
        rcases ht with ht | ⟨-, ht⟩
        · subst ht
          simp only [opStep, Outcome.get, ho, Outcome.ok_bind, cudaApply, Option.isNone_none,
            Bool.and_self, if_true, cudaTranspose, Outcome.deref_some]
          have : newTransposed (readyMat A) = readyMat A.transpose := rfl
          rw [this, devVmult_ready debug _ x y z hz' hy]
          rfl
        · subst ht
          simp only [opStep, Outcome.get, ho, Outcome.ok_bind, cudaApply, Option.isNone_some,
            Bool.and_false, Bool.false_eq_true, if_false, if_true, Outcome.deref_some]
          rw [devVmult_ready debug _ x y z hz' hy]
          rfl
      · simp [OpCall.needsTranspose]
  | transpose i =>
    simp only [idealStep, transposeOf_eq, Option.bind_eq_bind, Option.bind_eq_some_iff] at hc
    obtain ⟨A, hA, hc⟩ := hc
    injection hc with hc
    injection hc with h1 h2
    subst h1 h2
    obtain ⟨o, ho, hrel⟩ := h.get hA
    have hmem : ∃ d ∈ before ++ [OpCall.transpose (K := K) i], d.needsTranspose i = true :=
      ⟨_, List.mem_append_right _ (List.mem_singleton.2 rfl), by simp [OpCall.needsTranspose]⟩
    have hset := h.set (OpCall.transpose i) hA
      (o := { matrix := readyMat A, transposed := some (readyMat A.transpose) })
      ⟨rfl, Or.inr ⟨hmem, rfl⟩⟩
    refine ⟨_, ?_, hset.append A.transpose⟩
    rcases o with ⟨m, t⟩
    obtain ⟨hm, ht⟩ := hrel
    simp only at hm ht
    subst hm
    rcases ht with ht | ⟨⟨d, hd, hd'⟩, ht⟩
    · subst ht
      simp only [opStep, Outcome.get, ho, Outcome.ok_bind, cudaTranspose]
      rfl
    · subst ht
      rcases hone i (by simp [OpCall.isTranspose]) with ⟨A', hA', hsym⟩ | hno
      · rw [hA] at hA'
        injection hA' with hA'
        subst hA'
        simp only [opStep, Outcome.get, ho, Outcome.ok_bind, cudaTranspose]
        rw [hsym]
        rfl
      · rw [hno d hd] at hd'
        cases hd'
  | multiply i j =>
    simp only [idealStep, productOf_eq, Option.bind_eq_bind, Option.bind_eq_some_iff] at hc
    obtain ⟨A, hA, B, hB, C, hC, hc⟩ := hc
    injection hc with hc
    injection hc with h1 h2
    subst h1 h2
    obtain ⟨a, ha, hra⟩ := h.get hA
    obtain ⟨b, hb, hrb⟩ := h.get hB
    refine ⟨_, ?_, (h.later _).append C⟩
    simp only [opStep, Outcome.get, ha, hb, Outcome.ok_bind, cudaMultiply, hra.1, hrb.1, devMmult,
      readyMat, hC]
    simp
  | multiplyTranspose i j =>
    simp only [idealStep, transposeOf_eq, productOf_eq, Option.bind_eq_bind, Option.bind_eq_some_iff] at hc
    obtain ⟨A, hA, B, hB, C, hC, hc⟩ := hc
    injection hc with hc
    injection hc with h1 h2
    subst h1 h2
    obtain ⟨a, ha, hra⟩ := h.get hA
    obtain ⟨b, hb, hrb⟩ := h.get hB
    refine ⟨_, ?_, (h.later _).append C⟩
    have hp : procs = 1 := hmt.resolve_right (by simp [OpCall.isMultiplyTranspose])
    simp only [opStep, Outcome.get, ha, hb, Outcome.ok_bind, cudaMultiplyTranspose, hra.1, hrb.1,
      devMmult, readyMat, hC, hp]
    simp

/-- Matrices keep their positions in the intended runs. -/
theorem idealRun_prefix (ms ms' : List (GMat K)) (cs : List (OpCall K)) (rs : List (OpResult K))
    (h : idealRun ms cs = some (ms', rs)) : ms <+: ms' := by
  induction cs generalizing ms rs with
  | nil =>
    simp only [idealRun, Option.some.injEq, Prod.mk.injEq] at h
    rw [h.1]
  | cons c cs ih =>
    simp only [idealRun, Option.bind_eq_bind, Option.bind_eq_some_iff] at h
    obtain ⟨s, hs, r, hr, h⟩ := h
    injection h with h
    injection h with h1 h2
    have h3 := ih s.1 r.2 (by rw [hr, ← h1])
    refine List.IsPrefix.trans ?_ h3
    cases c <;> simp only [idealStep, transposeOf_eq, timesOf_eq, productOf_eq, Option.bind_eq_bind, Option.bind_eq_some_iff] at hs
    · obtain ⟨A, -, z, -, hs⟩ := hs
      split at hs
      · injection hs with hs
        rw [← hs]
      · cases hs
    · obtain ⟨A, -, hs⟩ := hs
      injection hs with hs
      rw [← hs]
      exact List.prefix_append _ _
    · obtain ⟨A, -, B, -, C, -, hs⟩ := hs
      injection hs with hs
      rw [← hs]
      exact List.prefix_append _ _
    · obtain ⟨A, -, B, -, C, -, hs⟩ := hs
      injection hs with hs
      rw [← hs]
      exact List.prefix_append _ _

theorem opRun_ok (procs : ℕ) (debug : Bool) (cs before : List (OpCall K)) (ms ms' : List (GMat K))
    (ops : List (CudaOp K)) (rs : List (OpResult K)) (h : OpsRel before ms ops)
    (hideal : idealRun ms cs = some (ms', rs))
    (hone : TransposesOnce (fun i => ∃ A, ms'[i]? = some A ∧ A.transpose = A) (before ++ cs))
    (hmt : procs = 1 ∨ ∀ c ∈ cs, c.isMultiplyTranspose = false) :
    ∃ ops', opRun procs debug ops cs = .ok (ops', rs) ∧ OpsRel (before ++ cs) ms' ops' := by
  induction cs generalizing ms ops before rs with
  | nil =>
    simp only [idealRun, Option.some.injEq, Prod.mk.injEq] at hideal
    obtain ⟨rfl, rfl⟩ := hideal
    exact ⟨ops, rfl, by simpa using h⟩
  | cons c cs ih =>
    have hpre := idealRun_prefix _ _ _ _ hideal
    simp only [idealRun, Option.bind_eq_bind, Option.bind_eq_some_iff] at hideal
    obtain ⟨s, hs, r, hr, hideal⟩ := hideal
    injection hideal with hideal
    injection hideal with h1 h2
    obtain ⟨ops1, ho1, hrel1⟩ := opStep_ok procs debug before ms s.1 ops c s.2 h (by rw [hs])
      (by
        intro i hi
        refine (hone before cs c i rfl hi).imp ?_ id
        rintro ⟨A, hA, hsym⟩
        -- an operator that is transposed exists
        cases c with
        | transpose k =>
          have hk : k = i := by simpa [OpCall.isTranspose] using hi
          subst hk
          simp only [idealStep, transposeOf_eq, Option.bind_eq_bind, Option.bind_eq_some_iff] at hs
          obtain ⟨B, hB, -⟩ := hs
          obtain ⟨hlt, hB'⟩ := List.getElem?_eq_some_iff.1 hB
          have := hpre.getElem hlt
          obtain ⟨hlt', hA'⟩ := List.getElem?_eq_some_iff.1 hA
          refine ⟨B, hB, ?_⟩
          have hAB : B = A := by rw [← hB', ← hA', this]
          rw [hAB, hsym]
        | _ => simp [OpCall.isTranspose] at hi)
      (hmt.imp id fun h => h c List.mem_cons_self)
    obtain ⟨ops', ho', hrel'⟩ := ih (before ++ [c]) s.1 ops1 r.2 hrel1 (by rw [hr, ← h1])
      (by simpa using hone) (hmt.imp id fun h d hd => h d (List.mem_cons_of_mem _ hd))
    refine ⟨ops', ?_, by simpa using hrel'⟩
    simp only [opRun, ho1, Outcome.ok_bind, ho', Outcome.pure_eq, ← h2]

/-- **C46.** (Partial: histories that transpose an operator again are excluded unless its matrix is
symmetric, see `C46_violated`; on several processes `multiply_transpose` is excluded, see
`C63_violated`.)  For every history of calls `apply`, `transpose`, `multiply`, `multiply_transpose`
on any number of operators, including operators returned by earlier calls, in debug and release builds:
if the history is meaningful for operators that never change, every call returns what it returns for
such operators. -/
theorem C46_history_partial (procs : ℕ) (debug : Bool) (ms ms' : List (GMat K))
    (cs : List (OpCall K)) (rs : List (OpResult K)) (hideal : idealRun ms cs = some (ms', rs))
    (hone : TransposesOnce (fun i => ∃ A, ms'[i]? = some A ∧ transposeOf A = A) cs)
    (hmt : procs = 1 ∨ ∀ c ∈ cs, c.isMultiplyTranspose = false) :
    ∃ ops', opRun procs debug (ms.map CudaOp.fresh) cs = .ok (ops', rs) := by
  have hrel : OpsRel ([] : List (OpCall K)) ms (ms.map CudaOp.fresh) := by
    refine ⟨by simp, ?_⟩
    intro i A o hA ho
    rw [List.getElem?_map, hA] at ho
    injection ho with ho
    subst ho
    exact ⟨rfl, Or.inl rfl⟩
  obtain ⟨ops', h, -⟩ := opRun_ok procs debug cs [] ms ms' _ rs hrel hideal hone hmt
  exact ⟨ops', h⟩

/-- C46, without restriction for programs that only apply operators, in any modes and any order. -/
theorem C46_apply_only (procs : ℕ) (debug : Bool) (ms ms' : List (GMat K)) (cs : List (OpCall K))
    (rs : List (OpResult K)) (hideal : idealRun ms cs = some (ms', rs))
    (happly : ∀ c ∈ cs, ∃ i tr x y, c = OpCall.apply i tr x y) :
    ∃ ops', opRun procs debug (ms.map CudaOp.fresh) cs = .ok (ops', rs) := by
  apply C46_history_partial procs debug ms ms' cs rs hideal
  · intro before after c i hcs hc
    obtain ⟨k, tr, x, y, rfl⟩ := happly c (by rw [hcs]; simp)
    simp [OpCall.isTranspose] at hc
  · right
    intro c hc
    obtain ⟨k, tr, x, y, rfl⟩ := happly c hc
    rfl

/-- C46 is false: what an operator stands for alternates.  After `n + 1` calls of `transpose()`, the
operator of any square matrix `A` multiplies by `A` if `n` is even and by the transpose of `A` if `n`
is odd; the operator returned by the last call is the other one. -/
theorem C46_violated (procs : ℕ) (debug : Bool) (A : GMat K) (n : ℕ) :
    ∃ o r rs, opRun procs debug [CudaOp.fresh A] (List.replicate (n + 1) (OpCall.transpose 0))
        = .ok (o :: rs ++ [r], List.replicate (n + 1) .created) ∧ rs.length = n ∧
      o.matrix.mat = (if n % 2 = 0 then A else transposeOf A) ∧
      r.matrix.mat = (if n % 2 = 0 then transposeOf A else A) ∧
      ∀ x y : List K, A.rows = A.cols → x.length = A.rows → y.length = A.rows →
        ∃ o' z, cudaApply debug o false x y = .ok (o', z) ∧
          some z = timesOf (if n % 2 = 0 then A else transposeOf A) x := by
  simp only [transposeOf_eq, timesOf_eq]
  -- from an operator with a computed transpose
  have hstep : ∀ (n : ℕ) (B : GMat K) (rest : List (CudaOp K)) (last : CudaOp K),
      ∃ r rs, opRun procs debug (opState B B.transpose :: rest ++ [last]) (List.replicate n (OpCall.transpose 0))
        = .ok (opState (if n % 2 = 0 then B else B.transpose) (if n % 2 = 0 then B.transpose else B)
            :: (rest ++ rs) ++ [r],
          List.replicate n .created) ∧ rs.length = n ∧
        (n = 0 → r = last) ∧
        (n ≠ 0 → r.matrix = readyMat (if n % 2 = 0 then B.transpose else B)) := by
    intro n
    induction n with
    | zero =>
      intro B rest last
      exact ⟨last, [], by simp [opRun], rfl, fun _ => rfl, fun h => absurd rfl h⟩
    | succ n ih =>
      intro B rest last
      obtain ⟨r, rs, h1, h2, h3, h4⟩ := ih B.transpose (rest ++ [last])
        { matrix := readyMat B, transposed := none }
      rw [GMat.transpose_transpose] at h1 h4
      have hpar : (if (n + 1) % 2 = 0 then B else B.transpose)
          = (if n % 2 = 0 then B.transpose else B) := by
        rcases Nat.mod_two_eq_zero_or_one n with h | h
        · rw [if_neg (by omega), if_pos h]
        · rw [if_pos (by omega), if_neg (by omega)]
      have hpar' : (if (n + 1) % 2 = 0 then B.transpose else B)
          = (if n % 2 = 0 then B else B.transpose) := by
        rcases Nat.mod_two_eq_zero_or_one n with h | h
        · rw [if_neg (by omega), if_pos h]
        · rw [if_pos (by omega), if_neg (by omega)]
      refine ⟨r, last :: rs, ?_, by simp [h2], by omega, fun _ => ?_⟩
      · rw [List.replicate_succ, opRun]
        have hs : opStep procs debug (opState B B.transpose :: rest ++ [last]) (OpCall.transpose 0)
          = .ok (opState B.transpose B :: (rest ++ [last]) ++ [{ matrix := readyMat B, transposed := none }], .created) := by
          simp [opStep, Outcome.get, cudaTranspose, opState]
        rw [hs, Outcome.ok_bind]
        simp only []
        rw [h1, Outcome.ok_bind, hpar, hpar']
        simp [List.replicate_succ]
      · rw [hpar']
        rcases Nat.eq_zero_or_pos n with h | h
        · subst h
          rw [h3 rfl]
          rfl
        · exact h4 (by omega)
  obtain ⟨r, rs, h1, h2, h3, h4⟩ := hstep n A []
    { matrix := readyMat A.transpose, transposed := none }
  refine ⟨opState (if n % 2 = 0 then A else A.transpose) (if n % 2 = 0 then A.transpose else A), r, rs, ?_, h2, rfl, ?_, ?_⟩
  · rw [List.replicate_succ, opRun]
    have hs : opStep procs debug [CudaOp.fresh A] (OpCall.transpose 0)
        = .ok (opState A A.transpose :: []
          ++ [{ matrix := readyMat A.transpose, transposed := none }], .created) := by
      simp [opStep, Outcome.get, cudaTranspose, CudaOp.fresh, newTransposed, readyMat, opState]
    rw [hs, Outcome.ok_bind]
    simp only []
    rw [h1, Outcome.ok_bind]
    simp [List.replicate_succ]
  · rcases Nat.eq_zero_or_pos n with h | h
    · subst h
      rw [h3 rfl]
      rfl
    · rw [h4 (by omega)]
      rfl
  · intro x y hsq hx hy
    have hdef : ∀ B : GMat K, B.cols = x.length → ∃ z, B.mulVec x = some z ∧ z.length = B.rows := by
      intro B hB
      refine ⟨_, dif_pos hB, ?_⟩
      simp
    have hB : ∃ z, (if n % 2 = 0 then A else A.transpose).mulVec x = some z ∧
        z.length = A.rows := by
      split
      · exact hdef A (by omega)
      · obtain ⟨z, hz, hl⟩ := hdef A.transpose (by rw [hx]; rfl)
        exact ⟨z, hz, by rw [hl, hsq]; rfl⟩
    obtain ⟨z, hz, hl⟩ := hB
    refine ⟨opState (if n % 2 = 0 then A else A.transpose) (if n % 2 = 0 then A.transpose else A), z, ?_, hz.symm⟩
    simp only [cudaApply, Bool.false_and, Bool.false_eq_true, if_false, opState]
    rw [devVmult_ready debug _ x y z hz (by omega)]
    rfl

/-- C46 is false also when the transpose has been computed by `apply` only: one call of `transpose()`
after one `apply` in transposed mode exchanges the matrices. -/
theorem C46_apply_transpose_violated (procs : ℕ) (debug : Bool) (A : GMat K) (x y z : List K)
    (hz : timesOf (transposeOf A) x = some z) (hy : y.length = z.length) :
    ∃ o r, opRun procs debug [CudaOp.fresh A] [.apply 0 true x y, .transpose 0]
        = .ok ([o, r], [.vector z, .created]) ∧
      o.matrix.mat = transposeOf A ∧ r.matrix.mat = A := by
  rw [transposeOf_eq, timesOf_eq] at hz
  refine ⟨{ matrix := readyMat A.transpose, transposed := some (readyMat A) },
    { matrix := readyMat A, transposed := none }, ?_, rfl, rfl⟩
  have hv := devVmult_ready debug _ x y z hz hy
  have hs : opStep procs debug [CudaOp.fresh A] (.apply 0 true x y)
      = .ok ([{ matrix := readyMat A, transposed := some (readyMat A.transpose) }], .vector z) := by
    simp only [opStep, Outcome.get, List.getElem?_cons_zero, Outcome.ok_bind, cudaApply,
      CudaOp.fresh, Option.isNone_none, Bool.and_self, if_true, cudaTranspose, Outcome.deref_some]
    rw [show newTransposed ({ mat := A, handle := true, descr := true } : DevMatrix K)
      = readyMat A.transpose from rfl, hv]
    rfl
  rw [opRun, hs, Outcome.ok_bind]
  simp [opRun, opStep, Outcome.get, cudaTranspose]

/-- **C63.** (Partial: one process, or no `multiply_transpose`.)  All operators that exist after a
history that returned normally can be applied: their matrices, and their transposed matrices, have a
handle and a descriptor. -/
theorem C63_usable_partial (procs : ℕ) (debug : Bool) (ops ops' : List (CudaOp K))
    (cs : List (OpCall K)) (rs : List (OpResult K))
    (hmt : procs = 1 ∨ ∀ c ∈ cs, c.isMultiplyTranspose = false)
    (hops : ∀ o ∈ ops, (o.matrix.handle = true ∧ o.matrix.descr = true) ∧
      ∀ t, o.transposed = some t → t.handle = true ∧ t.descr = true)
    (hrun : opRun procs debug ops cs = .ok (ops', rs)) :
    ∀ o ∈ ops', (o.matrix.handle = true ∧ o.matrix.descr = true) ∧
      ∀ t, o.transposed = some t → t.handle = true ∧ t.descr = true := by
  induction cs generalizing ops rs with
  | nil =>
    simp only [opRun, Outcome.ok.injEq, Prod.mk.injEq] at hrun
    rw [← hrun.1]
    exact hops
  | cons c cs ih =>
    rw [opRun] at hrun
    obtain ⟨⟨ops1, r1⟩, hs, hrun⟩ := Outcome.bind_eq_ok.1 hrun
    obtain ⟨⟨ops2, r2⟩, hr, hrun⟩ := Outcome.bind_eq_ok.1 hrun
    injection hrun with hrun
    injection hrun with h1 h2
    subst h1 h2
    refine ih ops1 r2 (hmt.imp id fun h d hd => h d (List.mem_cons_of_mem _ hd)) ?_ hr
    have hget : ∀ {i : ℕ} {o : CudaOp K}, Outcome.get ops i "no such operator" = .ok o →
        o ∈ ops := by
      intro i o h
      unfold Outcome.get at h
      split at h
      case h_1 a ha =>
        injection h with h
        subst h
        exact List.mem_of_getElem? ha
      case h_2 => cases h
    have hT : ∀ o ∈ ops, ∀ p, p = (cudaTranspose o).1 ∨ p = (cudaTranspose o).2 →
        (p.matrix.handle = true ∧ p.matrix.descr = true) ∧
        ∀ t, p.transposed = some t → t.handle = true ∧ t.descr = true := by
      intro o ho p hp
      obtain ⟨ha, hb⟩ := hops o ho
      rcases o with ⟨m, _ | t⟩
      · rcases hp with rfl | rfl
        · refine ⟨ha, ?_⟩
          intro t ht
          simp only [cudaTranspose, Option.some.injEq] at ht
          rw [← ht]
          exact ⟨ha.1, rfl⟩
        · exact ⟨⟨ha.1, rfl⟩, by simp [cudaTranspose]⟩
      · rcases hp with rfl | rfl
        · refine ⟨hb t rfl, ?_⟩
          intro t' ht
          simp only [cudaTranspose, Option.some.injEq] at ht
          rw [← ht]
          exact ha
        · exact ⟨ha, by simp [cudaTranspose]⟩
    have hM : ∀ (a b c : DevMatrix K), a.handle = true → devMmult procs debug a b = .ok c →
        c.handle = true ∧ c.descr = true := by
      intro a b c ha hc
      unfold devMmult at hc
      split at hc
      · split at hc <;> cases hc
      · split at hc
        · split at hc <;> cases hc
        · injection hc with hc
          subst hc
          exact ⟨ha, rfl⟩
    cases c with
    | apply i tr x y =>
      obtain ⟨o, ho, hs⟩ := Outcome.bind_eq_ok.1 hs
      obtain ⟨⟨o', z⟩, hap, hs⟩ := Outcome.bind_eq_ok.1 hs
      injection hs with hs
      injection hs with h1 h2
      subst h1
      have ho' : o' = o ∨ o' = (cudaTranspose o).1 := by
        unfold cudaApply at hap
        simp only [] at hap
        split at hap
        · obtain ⟨t, -, hap⟩ := Outcome.bind_eq_ok.1 hap
          obtain ⟨w, -, hap⟩ := Outcome.bind_eq_ok.1 hap
          injection hap with hap
          injection hap with h1 h2
          rw [← h1]
          split
          · exact Or.inr rfl
          · exact Or.inl rfl
        · obtain ⟨w, -, hap⟩ := Outcome.bind_eq_ok.1 hap
          injection hap with hap
          injection hap with h1 h2
          rw [← h1]
          split
          · exact Or.inr rfl
          · exact Or.inl rfl
      intro p hp
      rcases List.mem_or_eq_of_mem_set hp with hp | rfl
      · exact hops p hp
      · rcases ho' with h | h
        · rw [h]
          exact hops o (hget ho)
        · exact hT o (hget ho) _ (Or.inl h)
    | transpose i =>
      obtain ⟨o, ho, hs⟩ := Outcome.bind_eq_ok.1 hs
      injection hs with hs
      injection hs with h1 h2
      subst h1
      intro p hp
      rcases List.mem_append.1 hp with hp | hp
      · rcases List.mem_or_eq_of_mem_set hp with hp | hp
        · exact hops p hp
        · exact hT o (hget ho) p (Or.inl hp)
      · exact hT o (hget ho) p (Or.inr (List.mem_singleton.1 hp))
    | multiply i j =>
      obtain ⟨a, ha, hs⟩ := Outcome.bind_eq_ok.1 hs
      obtain ⟨b, hb, hs⟩ := Outcome.bind_eq_ok.1 hs
      obtain ⟨d, hd, hs⟩ := Outcome.bind_eq_ok.1 hs
      injection hs with hs
      injection hs with h1 h2
      subst h1
      obtain ⟨e, he, hd⟩ := Outcome.bind_eq_ok.1 hd
      injection hd with hd
      subst hd
      intro p hp
      rcases List.mem_append.1 hp with hp | hp
      · exact hops p hp
      · rw [List.mem_singleton.1 hp]
        exact ⟨hM _ _ _ (hops a (hget ha)).1.1 he, by simp⟩
    | multiplyTranspose i j =>
      have hp1 : procs = 1 := hmt.resolve_right fun h => by
        have := h _ List.mem_cons_self
        simp [OpCall.isMultiplyTranspose] at this
      obtain ⟨a, ha, hs⟩ := Outcome.bind_eq_ok.1 hs
      obtain ⟨b, hb, hs⟩ := Outcome.bind_eq_ok.1 hs
      obtain ⟨d, hd, hs⟩ := Outcome.bind_eq_ok.1 hs
      injection hs with hs
      injection hs with h1 h2
      subst h1
      unfold cudaMultiplyTranspose at hd
      rw [if_pos hp1] at hd
      obtain ⟨e, he, hd⟩ := Outcome.bind_eq_ok.1 hd
      injection hd with hd
      subst hd
      intro p hp
      rcases List.mem_append.1 hp with hp | hp
      · exact hops p hp
      · rw [List.mem_singleton.1 hp]
        exact ⟨hM _ _ _ (hops a (hget ha)).1.1 he, by simp⟩

/-- C63 is false on several processes: the operator returned by `multiply_transpose` cannot be applied.
Whatever the operators, `apply` (in either mode) aborts in debug builds, and in release builds it
returns without having written to the destination. -/
theorem C63_violated (procs : ℕ) (hp : procs ≠ 1) (debug : Bool) (A B C : GMat K)
    (hC : productOf A (transposeOf B) = some C) :
    ∃ c, cudaMultiplyTranspose procs debug (CudaOp.fresh A) (CudaOp.fresh B) = .ok c ∧
      c.matrix.mat = C ∧ ∀ (tr : Bool) (x y : List K),
        cudaApply true c tr x y = .aborted ∧
        ∃ c', cudaApply false c tr x y = .ok (c', y) := by
  rw [productOf_eq, transposeOf_eq] at hC
  refine ⟨{ matrix := { mat := C, handle := false, descr := false }, transposed := none }, ?_, rfl,
    ?_⟩
  · simp [cudaMultiplyTranspose, hp, CudaOp.fresh, hC]
  · intro tr x y
    cases tr
    · exact ⟨by simp [cudaApply, devVmult], _, by simp [cudaApply, devVmult]; rfl⟩
    · exact ⟨by simp [cudaApply, cudaTranspose, newTransposed, devVmult], _, by
        simp [cudaApply, cudaTranspose, newTransposed, devVmult]; rfl⟩

end

/-! ### Examples -/

/-- A matrix that is not symmetric. -/
def exOpA : GMat ℤ := ⟨2, 2, fun i j => if i = j then 1 else if i < j then 2 else 0⟩

/-- A rectangular matrix. -/
def exOpB : GMat ℤ := ⟨1, 2, fun _ j => if j = 0 then 3 else 4⟩

/-- Applying, transposing, multiplying and using the operators returned: the history is meaningful and
transposes no operator twice. -/
example : ∃ ops', opRun 1 true [CudaOp.fresh exOpA, CudaOp.fresh exOpB]
    [.apply 0 false [1, 1] [0, 0], .transpose 0, .apply 0 true [1, 1] [0, 0],
      .apply 2 false [1, 1] [0, 0], .multiplyTranspose 0 1, .apply 3 false [1] [0, 0]]
    = .ok (ops', [.vector [3, 1], .created, .vector [1, 3], .vector [1, 3], .created,
        .vector [11, 4]]) := by
  have h : (idealRun [exOpA, exOpB]
    [.apply 0 false [1, 1] [0, 0], .transpose 0, .apply 0 true [1, 1] [0, 0],
      .apply 2 false [1, 1] [0, 0], .multiplyTranspose 0 1, .apply 3 false [1] [0, 0]]).map Prod.snd
      = some [.vector [3, 1], .created, .vector [1, 3], .vector [1, 3], .created,
        .vector [11, 4]] := by decide +kernel
  obtain ⟨⟨ms', rs⟩, h, rfl⟩ := Option.map_eq_some_iff.1 h
  refine C46_history_partial 1 true _ ms' _ _ h ?_ (Or.inl rfl)
  intro before after c i hcs hc
  right
  -- the only `transpose()` is the second call
  rcases before with _ | ⟨d, _ | ⟨d', before⟩⟩
  · simp
  · injection hcs with h1 h2
    subst h1
    simp [OpCall.needsTranspose]
  · exfalso
    injection hcs with h1 h2
    injection h2 with h2 h3
    have : ∀ e ∈ before ++ c :: after, e.isTranspose i = false := by
      change ∀ e ∈ before.append (c :: after), _
      rw [← h3]
      simp [OpCall.isTranspose]
    rw [this c (by simp)] at hc
    cases hc

/-- The second `transpose()`: the operator of a matrix that is not symmetric multiplies by the
transpose. -/
example : timesOf exOpA [1, 1] = some [3, 1] ∧ timesOf (transposeOf exOpA) [1, 1] = some [1, 3] ∧
    ∃ o r rs, opRun 1 true [CudaOp.fresh exOpA] [.transpose 0, .transpose 0]
      = .ok (o :: rs ++ [r], [.created, .created]) ∧
      ∃ o', cudaApply true o false [1, 1] [0, 0] = .ok (o', [1, 3]) := by
  have h1 : timesOf (transposeOf exOpA) [1, 1] = some [1, 3] := by decide +kernel
  refine ⟨by decide +kernel, h1, ?_⟩
  obtain ⟨o, r, rs, h, -, -, -, hz⟩ := C46_violated 1 true exOpA 1
  obtain ⟨o', z, ho', hz⟩ := hz [1, 1] [0, 0] rfl rfl rfl
  rw [if_neg (by decide), h1] at hz
  injection hz with hz
  subst hz
  exact ⟨o, r, rs, h, o', ho'⟩

example : ∃ o r, opRun 1 true [CudaOp.fresh exOpA] [.apply 0 true [1, 1] [0, 0], .transpose 0]
        = .ok ([o, r], [.vector [1, 3], .created]) ∧
      o.matrix.mat = transposeOf exOpA ∧ r.matrix.mat = exOpA :=
  C46_apply_transpose_violated 1 true exOpA [1, 1] [0, 0] [1, 3] (by decide +kernel) rfl

example : ∃ ops', opRun 4 false [CudaOp.fresh exOpA, CudaOp.fresh exOpB]
    [.apply 0 true [1, 1] [0, 0], .apply 0 false [1, 1] [0, 0], .apply 1 true [1] [0, 0]]
    = .ok (ops', [.vector [1, 3], .vector [3, 1], .vector [3, 4]]) := by
  have h : (idealRun [exOpA, exOpB]
    [.apply 0 true [1, 1] [0, 0], .apply 0 false [1, 1] [0, 0], .apply 1 true [1] [0, 0]]).map
      Prod.snd = some [.vector [1, 3], .vector [3, 1], .vector [3, 4]] := by decide +kernel
  obtain ⟨⟨ms', rs⟩, h, rfl⟩ := Option.map_eq_some_iff.1 h
  exact C46_apply_only 4 false _ ms' _ _ h (by simp)

example : ∃ (C : GMat ℤ) (c : CudaOp ℤ), productOf exOpA (transposeOf exOpB) = some C ∧
    cudaMultiplyTranspose 2 false (CudaOp.fresh exOpA) (CudaOp.fresh exOpB) = .ok c ∧
    c.matrix.mat = C ∧ ∀ (tr : Bool) (x y : List ℤ),
      cudaApply true c tr x y = .aborted ∧ ∃ c', cudaApply false c tr x y = .ok (c', y) := by
  obtain ⟨C, h⟩ : ∃ C, productOf exOpA (transposeOf exOpB) = some C := ⟨_, dif_pos rfl⟩
  obtain ⟨c, h1, h2, h3⟩ := C63_violated 2 (by decide) false _ _ _ h
  exact ⟨C, c, h, h1, h2, h3⟩

example : ∃ ops' rs, opRun 3 false [CudaOp.fresh exOpA] [.multiply 0 0, .transpose 1, .transpose 1]
      = .ok (ops', rs) ∧ ops'.length = 4 ∧
    ∀ o ∈ ops', (o.matrix.handle = true ∧ o.matrix.descr = true) ∧
      ∀ t, o.transposed = some t → t.handle = true ∧ t.descr = true := by
  refine ⟨_, _, rfl, rfl, C63_usable_partial 3 false [CudaOp.fresh exOpA] _
    [.multiply 0 0, .transpose 1, .transpose 1] _ (Or.inr ?_) ?_ rfl⟩
  · simp [OpCall.isMultiplyTranspose]
  · simp [CudaOp.fresh]

end Mfmg
