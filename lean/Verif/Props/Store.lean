import Verif.Lemmas.StoreThreads
import Verif.Props.Construction

/-!
# Properties of applications as programs on vectors in memory (C86, C87)
-/

set_option autoImplicit false

namespace Mfmg

open Spec Example

variable {V : ℕ → Type} [∀ l, AddCommGroup (V l)]

/-- Every linear hierarchy (of two or more levels, or used as a preconditioner) is made of its linear maps. -/
theorem madeOf_of_isLinear {K : Type} [Field K] [∀ l, Module K (V l)] {H : Hierarchy V}
    {D : Data K V} (h : IsLinear H D) (h1 : 1 < H.numLevels ∨ H.isPreconditioner = true)
    (q : Option ℕ) :
    MadeOf H { numLevels := H.numLevels, isPreconditioner := H.isPreconditioner,
               nSmoothingSteps := H.nSmoothingSteps, A := fun l => D.A l, B := fun l => D.B l,
               R := fun l => D.R l, RT := fun l => D.P l, C := fun l b _ => D.C l b,
               problem := q } where
  pos := h.pos
  levels := rfl
  preconditioner := rfl
  steps := rfl
  operator := h.operator
  smoother := h.smoother
  restrictor := h.restrictor
  solver := by
    obtain ⟨s, hs, hv⟩ := h.solver
    exact ⟨s, hs, fun b x hx => by rw [hx h1, hv]⟩

/-! ## C86 -/

/-- **C86** (partial: the two vectors are different objects).  Full statement: `vmult(x, b)` leaves the result of
the cycle in `x` and changes no other vector of the program, whatever vectors `x` and `b` are.  Missing: `x` and
`b` are the same object, see `C86_in_place_violated`. -/
theorem C86_output_partial {H : Hierarchy V} {P : Parts V} (h : MadeOf H P) (fresh : ∀ l, V l)
    (junk : ∀ l, ℕ → V l) (t i j : ℕ) (hij : i ≠ j) (σ : Store V) (x b : V 0)
    (hx : σ 0 (.user i) = some x) (hb : σ 0 (.user j) = some b)
    (hl : ∀ l k, σ l (.temp t k) = none) :
    ∃ v τ, (H.vmult fresh x b).result = .ok v ∧
      runStmts (vmultStmts P junk t (.user i) (.user j)) σ = .ok τ ∧
      OnlyChanged σ τ (.user i) v := by
  refine ⟨_, _, vmult_eq_applyValue h fresh b x,
    applyStmts_run P junk t _ 0 0 (.user j) (.user i) σ b x (by simpa using Ne.symm hij)
      (by simp) (by simp) (fun l k _ => hl l k) hb hx, ⟨Store.set_same _ _ _ _, fun l a h => ?_⟩⟩
  rw [Store.set_other _ _ h]

/-- **C86.** Wherever an application stops because a statement throws: when the exception has left `vmult`, no
vector but `x` has changed and no local vector is left. -/
theorem C86_exception {H : Hierarchy V} {P : Parts V} (h : MadeOf H P)
    (junk : ∀ l, ℕ → V l) (t i j : ℕ) (hij : i ≠ j) (σ : Store V) (x b : V 0)
    (hx : σ 0 (.user i) = some x) (hb : σ 0 (.user j) = some b)
    (hl : ∀ l k, σ l (.temp t k) = none) (n : ℕ) :
    ∃ τ, runStmts ((vmultStmts P junk t (.user i) (.user j)).take n) σ = .ok τ ∧
      ∀ l a, ¬ (l = 0 ∧ a = .user i) → unwind t τ l a = σ l a := by
  obtain ⟨v, ω, -, hω, -⟩ := C86_output_partial h (fun l => junk l 0) junk t i j hij σ x b hx hb hl
  have hsplit := runStmts_append ((vmultStmts P junk t (.user i) (.user j)).take n)
    ((vmultStmts P junk t (.user i) (.user j)).drop n) σ
  rw [List.take_append_drop, hω] at hsplit
  obtain ⟨τ, hτ, -⟩ := Outcome.bind_eq_ok.mp hsplit.symm
  refine ⟨τ, hτ, fun l a ha => ?_⟩
  have key : (∀ k, a ≠ .temp t k) → τ l a = σ l a := fun hk =>
    runStmts_frame hτ l a fun s hs hw => by
      have hc := (applyStmts_confined P junk t _ 0 0 (.user j) (.user i) s
        (List.mem_of_mem_take hs)).2 _ hw
      rcases hc with hc | ⟨m, k, hc⟩ | ⟨q, -, hc⟩
      · simp only [VCell.vec.injEq] at hc
        exact ha hc
      · simp only [VCell.vec.injEq] at hc
        exact hk k hc.2
      · simp at hc
  cases a with
  | user n => exact key fun k => by simp
  | temp t' k =>
    by_cases ht : t' = t
    · subst ht
      simp [unwind, hl]
    · simp only [unwind, if_neg ht]
      exact key fun k' => by simp [ht]

/-- **C86** violated: in preconditioner mode `vmult(x, x)` gives zero, whatever `x` was. -/
theorem C86_in_place_violated {P : Parts V} (hP : Homogeneous P) (hp : P.isPreconditioner = true)
    (junk : ∀ l, ℕ → V l) (t i : ℕ) (σ : Store V) (x : V 0) (hx : σ 0 (.user i) = some x)
    (hl : ∀ l k, σ l (.temp t k) = none) :
    ∃ τ, runStmts (vmultStmts P junk t (.user i) (.user i)) σ = .ok τ ∧
      OnlyChanged σ τ (.user i) 0 := by
  refine ⟨_, applyStmts_inPlace P junk t _ (.user i) σ x (by simp) (fun l k _ => hl l k) hx, ?_⟩
  rw [inPlaceValue_zero hP hp]
  exact ⟨Store.set_same _ _ _ _, fun l a h => by rw [Store.set_other _ _ h]⟩

/-- The parts of the two-level example. -/
def exParts (pre : Bool) (q : Option ℕ) : Parts exV where
  numLevels := 2
  isPreconditioner := pre
  nSmoothingSteps := 1
  A := fun l => exData.A l
  B := fun l => exData.B l
  R := fun l => exData.R l
  RT := fun l => exData.P l
  C := fun l b _ => exData.C l b
  problem := q

theorem exParts_madeOf (pre timer : Bool) (q : Option ℕ) :
    MadeOf (ofData exData 2 1 pre timer) (exParts pre q) :=
  madeOf_of_isLinear (ofData_isLinear exData 2 1 pre timer (by decide)) (.inl Nat.one_lt_two) q

/-- Three vectors of a program. -/
def exVectors : Store exV := fun l a =>
  match l, a with
  | 0, .user 0 => some (5, 7)
  | 0, .user 1 => some (8, 9)
  | 0, .user 2 => some (3, 1)
  | _, _ => none

/-- A hierarchy and vectors that meet the hypotheses of `C86_output_partial` and `C86_exception`, with the result
of the application. -/
example : MadeOf (ofData exData 2 1 true true) (exParts true (some 0)) ∧
    exVectors 0 (.user 0) = some (5, 7) ∧ exVectors 0 (.user 2) = some (3, 1) ∧
    (∀ l k, exVectors l (.temp 0 k) = none) ∧
    (do let τ ← runStmts (vmultStmts (exParts true (some 0)) (fun _ _ => (11, 12)) 0 (.user 0)
          (.user 2)) exVectors
        pure ((τ 0 (.user 0), τ 0 (.user 2), τ 0 (.temp 0 0)) :
          Option (ℚ × ℚ) × Option (ℚ × ℚ) × Option (ℚ × ℚ))) =
      Outcome.ok (some (37/16, 27/16), some (3, 1), none) := by
  refine ⟨exParts_madeOf _ _ _, rfl, rfl, fun l k => by cases l <;> rfl, ?_⟩
  decide +kernel

/-- The example meets the hypotheses of `C86_in_place_violated`, and the result should not be zero. -/
example : Homogeneous (exParts true (some 0)) ∧
    ((ofData exData 2 1 true true).vmult (fun _ => 0) (3, 1) (3, 1)).result ≠ .ok 0 := by
  refine ⟨⟨fun l => map_zero (exData.A l), fun l => map_zero (exData.B l), fun l => map_zero (exData.R l),
    fun l => map_zero (exData.P l), fun l => map_zero (exData.C l)⟩, ?_⟩
  rw [vmult_eq_applyValue (exParts_madeOf true true (some 0))]
  simp [applyValue, exParts, exData]
  norm_num

/-- Not in preconditioner mode the result in place is wrong too: here two levels, from `(3, 1)`. -/
example : (do
    let τ ← runStmts (vmultStmts (exParts false none) (fun _ _ => 0) 0 (.user 2) (.user 2)) exVectors
    pure (τ 0 (.user 2) : Option (ℚ × ℚ))) = Outcome.ok (some (9/4, 7/4)) ∧
    ((ofData exData 2 1 false true).vmult (fun _ => 0) (3, 1) (3, 1)).result = .ok (19/8, 13/8) := by
  constructor
  · decide +kernel
  · rw [vmult_eq_applyValue (exParts_madeOf false true none)]
    decide +kernel

/-! ## C87 -/

/-- **C87** (partial).  Full statement: any number of threads may apply hierarchies at the same time, also the
same hierarchy, as long as no thread's output vector is used by another thread; whatever the order in which their
statements are executed, each thread gets the result it would get alone, and nothing else changes.  Proved for
hierarchies without a timer whose direct coarse solvers, if they have any, are different objects.  Missing: one
hierarchy with a direct solver applied by two threads, see `C87_direct_solver_violated`, and a timer, see
`C87_timer_violated`. -/
theorem C87_threads_partial {ι : Type} [DecidableEq ι] {H : ι → Hierarchy V} {P : ι → Parts V}
    (h : ∀ i, MadeOf (H i) (P i)) (hq : ∀ i j, i ≠ j → ∀ q, (P i).problem = some q →
      (P j).problem ≠ some q)
    (fresh : ∀ l, V l) (junk : ι → ∀ l, ℕ → V l) (thread : ι → ℕ)
    (ht : Function.Injective thread) (x b : ι → ℕ) (hx : Function.Injective x)
    (hxb : ∀ i j, x i ≠ b j) (σ : Store V) (vx vb : ι → V 0)
    (hvx : ∀ i, σ 0 (.user (x i)) = some (vx i)) (hvb : ∀ i, σ 0 (.user (b i)) = some (vb i))
    (hl : ∀ i l k, σ l (.temp (thread i) k) = none) :
    (∀ i j, i ≠ j → ¬ DataRace (vmultStmts (P i) (junk i) (thread i) (.user (x i)) (.user (b i)))
      (vmultStmts (P j) (junk j) (thread j) (.user (x j)) (.user (b j)))) ∧
    ∀ s, Interleaving (fun i => vmultStmts (P i) (junk i) (thread i) (.user (x i)) (.user (b i))) s →
      ∃ τ, runStmts (s.map (·.2)) σ = .ok τ ∧
        (∀ i, ∃ v, ((H i).vmult fresh (vx i) (vb i)).result = .ok v ∧
          τ 0 (.user (x i)) = some v) ∧
        ∀ l a, (∀ i, ¬ (l = 0 ∧ a = .user (x i))) → τ l a = σ l a := by
  have conf := fun i => applyStmts_confined (P i) (junk i) (thread i) ((P i).numLevels - 1) 0 0
    (.user (b i)) (.user (x i))
  constructor
  · have key : ∀ i j, i ≠ j → ∀ s ∈ vmultStmts (P i) (junk i) (thread i) (.user (x i)) (.user (b i)),
        ∀ s' ∈ vmultStmts (P j) (junk j) (thread j) (.user (x j)) (.user (b j)),
        ∀ c, c ∈ s.writes → c ∈ s'.accesses → False := by
      intro i j hij s hs s' hs' c hc hc'
      have h1 := (conf i s hs).2 c hc
      have h2 := (conf j s' hs').1 c hc'
      have hxij : x i ≠ x j := fun e => hij (hx e)
      have htij : thread i ≠ thread j := fun e => hij (ht e)
      rcases h1 with rfl | ⟨m, k, rfl⟩ | ⟨q, hq1, rfl⟩
      · rcases h2 with h2 | h2 | ⟨m, k, h2⟩ | ⟨q, -, h2⟩
        · simp [hxb i j] at h2
        · simp [hxij] at h2
        · simp at h2
        · simp at h2
      · rcases h2 with h2 | h2 | ⟨m, k, h2⟩ | ⟨q, -, h2⟩
        · simp at h2
        · simp at h2
        · simp [htij] at h2
        · simp at h2
      · rcases h2 with h2 | h2 | ⟨m, k, h2⟩ | ⟨q', hq2, h2⟩
        · simp at h2
        · simp at h2
        · simp at h2
        · simp only [VCell.problem.injEq] at h2
          subst h2
          exact hq i j hij q hq1 hq2
    rintro i j hij ⟨s, hs, s', hs', c, ⟨h1, h2⟩ | ⟨h1, h2⟩⟩
    · exact key i j hij s hs s' hs' c h1 h2
    · exact key j i (Ne.symm hij) s' hs' s hs c h2 h1
  · intro s hs
    have solo : ∀ i, runStmts (vmultStmts (P i) (junk i) (thread i) (.user (x i)) (.user (b i))) σ =
        .ok (σ.set 0 (.user (x i)) (some (applyValue (P i) ((P i).numLevels - 1) 0 (vb i) (vx i)))) :=
      fun i => applyStmts_run (P i) (junk i) (thread i) _ 0 0 (.user (b i)) (.user (x i)) σ (vb i)
        (vx i) (by simpa using Ne.symm (hxb i i)) (by simp) (by simp) (fun l k _ => hl i l k) (hvb i)
        (hvx i)
    obtain ⟨τ, hτ, h1, h2⟩ := interleaving_run hs σ (fun _ => σ) _
      (fun i l a => (l = 0 ∧ (a = .user (b i) ∨ a = .user (x i))) ∨ ∃ k, a = .temp (thread i) k)
      (fun i l a => (l = 0 ∧ a = .user (x i)) ∨ ∃ k, a = .temp (thread i) k)
      (fun i q hq l a hc => by
        rcases (conf i q hq).1 _ hc with h | h | ⟨m, k, h⟩ | ⟨q, -, h⟩
        · simp only [VCell.vec.injEq] at h; exact .inl ⟨h.1, .inl h.2⟩
        · simp only [VCell.vec.injEq] at h; exact .inl ⟨h.1, .inr h.2⟩
        · simp only [VCell.vec.injEq] at h; exact .inr ⟨k, h.2⟩
        · simp at h)
      (fun i q hq l a hc => by
        rcases (conf i q hq).2 _ hc with h | ⟨m, k, h⟩ | ⟨q, -, h⟩
        · simp only [VCell.vec.injEq] at h; exact .inl h
        · simp only [VCell.vec.injEq] at h; exact .inr ⟨k, h.2⟩
        · simp at h)
      (fun i j hij l a hW hF => by
        rcases hW with ⟨rfl, rfl⟩ | ⟨k, rfl⟩
        · rcases hF with ⟨-, h | h⟩ | ⟨k, h⟩
          · simp [hxb i j] at h
          · simp only [VecName.user.injEq] at h; exact hij (hx h)
          · simp at h
        · rcases hF with ⟨-, h | h⟩ | ⟨k, h⟩
          · simp at h
          · simp at h
          · simp only [VecName.temp.injEq] at h; exact hij (ht h.1))
      (fun i l a _ => rfl) solo
    refine ⟨τ, hτ, fun i => ⟨_, vmult_eq_applyValue (h i) fresh (vb i) (vx i), ?_⟩, fun l a ha => ?_⟩
    · rw [h1 i 0 _ (.inl ⟨rfl, .inr rfl⟩), Store.set_same]
    · by_cases hk : ∃ i k, a = .temp (thread i) k
      · obtain ⟨i, k, rfl⟩ := hk
        rw [h1 i l _ (.inr ⟨k, rfl⟩), Store.set_name _ _ (by simp)]
      · refine h2 l a fun i hW => ?_
        rcases hW with hW | ⟨k, hW⟩
        · exact ha i hW
        · exact hk ⟨i, k, hW⟩

/-- Two threads that use the same right-hand side and hierarchies with their own direct solvers meet the hypotheses
of `C87_threads_partial`; so do two threads with one hierarchy whose coarse solver is not a direct one. -/
example : (∀ i : Bool, MadeOf (ofData exData 2 1 true false) (exParts true (if i then some 0 else some 1))) ∧
    (∀ i j : Bool, i ≠ j → ∀ q, (exParts true (if i then some 0 else some 1)).problem = some q →
      (exParts true (if j then some 0 else some 1)).problem ≠ some q) ∧
    (∀ q, (exParts true none).problem = some q → (exParts true none).problem ≠ some q) ∧
    Function.Injective (fun i : Bool => if i then 0 else 1) ∧
    (∀ i _j : Bool, (if i then 0 else 1) ≠ 2) ∧
    (∀ i : Bool, (exVectors 0 (.user (if i then 0 else 1))).isSome) ∧
    (∀ _i : Bool, exVectors 0 (.user 2) = some (3, 1)) ∧
    ∀ (i : Bool) l k, exVectors l (.temp (if i then 0 else 1) k) = none := by
  refine ⟨fun i => exParts_madeOf _ _ _, ?_, by simp [exParts], by decide, by decide, by decide,
    fun _ => rfl, fun i l k => by cases l <;> rfl⟩
  intro i j hij q
  cases i <;> cases j <;> simp_all [exParts]
  · rintro rfl; decide
  · rintro rfl; decide

/-- Orders in which the statements of two threads can be executed exist. -/
example : Interleaving (fun i : Bool => if i then [1, 2] else [3])
    [(true, 1), (false, 3), (true, 2)] := by
  refine .step _ true 1 [2] _ rfl (.step _ false 3 [] _ rfl (.step _ true 2 [] _ rfl (.done _ ?_)))
  decide

omit [∀ l, AddCommGroup (V l)] in
/-- **C87** violated: two threads that apply the same hierarchy with a direct coarse solver at the same time race,
whatever vectors they use: both store pointers to their vectors in the one solver. -/
theorem C87_direct_solver_violated (P : Parts V) (q : ℕ) (hP : P.problem = some q)
    (junk junk' : ∀ l, ℕ → V l) (t t' : ℕ) (x b x' b' : VecName) :
    DataRace (vmultStmts P junk t x b) (vmultStmts P junk' t' x' b') := by
  obtain ⟨b₁, x₁, h₁⟩ := applyStmts_solve P junk t (P.numLevels - 1) 0 0 b x
  obtain ⟨b₂, x₂, h₂⟩ := applyStmts_solve P junk' t' (P.numLevels - 1) 0 0 b' x'
  exact ⟨_, h₁, _, h₂, .problem q, .inl ⟨by simp [VStmt.writes, hP], by simp [VStmt.accesses, hP]⟩⟩

/-- **C87** violated: two threads that apply hierarchies with the same timer must do so one after the other.  In
every other order one of them enters the section "Apply" while it is active. -/
theorem C87_timer_violated {H₁ H₂ : Hierarchy V} (h₁ : Populated H₁) (h₂ : Populated H₂)
    (t₁ : H₁.timer = true) (t₂ : H₂.timer = true) (fresh : ∀ l, V l) (x₁ b₁ x₂ b₂ : V 0)
    (s : List (Bool × Event))
    (hs : Interleaving (fun i => if i then (H₁.vmult fresh x₁ b₁).trace
      else (H₂.vmult fresh x₂ b₂).trace) s)
    (hok : timerRun [] (s.map (·.2)) ≠ none) :
    s.map (·.2) = (H₁.vmult fresh x₁ b₁).trace ++ (H₂.vmult fresh x₂ b₂).trace ∨
    s.map (·.2) = (H₂.vmult fresh x₂ b₂).trace ++ (H₁.vmult fresh x₁ b₁).trace := by
  set p : Bool → List Event := fun i => if i then (H₁.vmult fresh x₁ b₁).trace
      else (H₂.vmult fresh x₂ b₂).trace with hp
  have form : ∀ i, ∃ t, Deepens t ∧ p i = .enter "Apply" :: (t ++ [.leave]) := by
    intro i
    cases i
    · exact ⟨_, applyTrace_deepens _ _ _, by simp [hp, vmult_trace H₂ h₂, t₂, tEnter, tLeave]; rfl⟩
    · exact ⟨_, applyTrace_deepens _ _ _, by simp [hp, vmult_trace H₁ h₁, t₁, tEnter, tLeave]; rfl⟩
  have main : ∃ i, s = (p i).map (fun a => (i, a)) ++ (p (!i)).map (fun a => (!i, a)) := by
    cases hs with
    | done _ hd =>
      obtain ⟨t, -, h⟩ := form true
      rw [hd true] at h
      simp at h
    | step _ i a rest s hi hs =>
      obtain ⟨t, hd, h⟩ := form i
      obtain ⟨t', -, h'⟩ := form (!i)
      rw [h, List.cons.injEq] at hi
      obtain ⟨rfl, rfl⟩ := hi
      have hpn : Function.update p i (t ++ [.leave]) (!i) = p (!i) :=
        Function.update_of_ne (by cases i <;> simp) _ _
      have := interleaving_timer hd "Apply" i (t ++ [.leave]) [.enter "Apply"] ["Apply"] _ s rfl
        (by simp) rfl (Function.update_self _ _ _) (by rw [hpn, h']) hs
        (by simpa [timerRun_enter] using hok)
      refine ⟨i, ?_⟩
      rw [this, hpn, h]
      rfl
  obtain ⟨i, rfl⟩ := main
  have e : ∀ i, ((p i).map (fun a => (i, a))).map (·.2) = p i := fun i => by simp
  rw [List.map_append, e, e]
  cases i
  · exact .inr rfl
  · exact .inl rfl

/-- The example hierarchy meets the hypotheses of `C87_direct_solver_violated` and `C87_timer_violated`; one
application after the other is accepted. -/
example : (exParts true (some 0)).problem = some 0 ∧ Populated (ofData exData 2 1 true true) ∧
    (ofData exData 2 1 true true).timer = true ∧
    timerRun [] (((ofData exData 2 1 true true).vmult (fun _ => 0) (3, 1) (3, 1)).trace ++
      ((ofData exData 2 1 true true).vmult (fun _ => 0) (5, 7) (3, 1)).trace) ≠ none := by
  have hP : Populated (ofData exData 2 1 true true) := ofData_populated _ _ _ _ _ (by decide)
  refine ⟨rfl, hP, rfl, ?_⟩
  rw [timerRun_append, C09_apply_balanced_partial _ hP (.inl le_rfl) _ _ _ _ (by simp)]
  rw [Option.bind_some, C09_apply_balanced_partial _ hP (.inl le_rfl) _ _ _ _ (by simp)]
  simp

end Mfmg
