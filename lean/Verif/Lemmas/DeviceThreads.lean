import Verif.Spec.DeviceThreads

/-!
# Lemmas: threads that apply device operators
-/

set_option autoImplicit false

namespace Mfmg

open Spec

variable {ι K : Type} [NonUnitalNonAssocSemiring K]

/-- The matrix that thread `th` has made of `a` for operator `i`. -/
def madeBy (th : OpThread K) (a : DevMatrix K) (i : ℕ) : DevMatrix K :=
  match th.uses with
  | [] => newTransposed a
  | u :: _ =>
    if u.op = i then
      match th.pc with
      | .setHandle => { mat := a.mat.transpose, handle := false, descr := false }
      | .setDescr => { mat := a.mat.transpose, handle := a.handle, descr := false }
      | _ => newTransposed a
    else newTransposed a

/-- What is known about a thread, given the members of the operators at the beginning (`ops₀`) and now. -/
def ThreadInv (sh₀ sh : DevShared K) (th : OpThread K) : Prop :=
  match th.uses with
  | [] => True
  | u :: _ =>
    match th.pc with
    | .check => True
    | .enter | .convert =>
      u.tr = true ∧ (sh₀.ops u.op).transposed = none ∧ (sh.ops u.op).transposed = none
    | .assign t => (u.tr = true ∧ (sh₀.ops u.op).transposed = none ∧ (sh.ops u.op).transposed = none) ∧
        ∃ a, sh₀.heap[(sh₀.ops u.op).matrix]? = some a ∧
          t = { mat := a.mat.transpose, handle := false, descr := false }
    | .setHandle | .setDescr => u.tr = true ∧ (sh₀.ops u.op).transposed = none ∧
        ∃ p, (sh.ops u.op).transposed = some p
    | .swap => False
    | .fetch => u.tr = true → ∃ p, (sh.ops u.op).transposed = some p
    | .product q => (u.tr = true → ∃ p, (sh.ops u.op).transposed = some p) ∧
        q = if u.tr then (sh.ops u.op).transposed else some (sh.ops u.op).matrix

/-- What holds all the time if for every operator only one thread makes the transposed matrix. -/
structure ThreadsInv (debug : Bool) (s₀ : OpSystem ι K) (own : ℕ → ι) (s : OpSystem ι K) : Prop where
  kept : ∀ p, p < s₀.shared.heap.length → s.shared.heap[p]? = s₀.shared.heap[p]?
  longer : s₀.shared.heap.length ≤ s.shared.heap.length
  matrix : ∀ i, (s.shared.ops i).matrix = (s₀.shared.ops i).matrix
  old : ∀ i t, (s₀.shared.ops i).transposed = some t → (s.shared.ops i).transposed = some t
  made : ∀ i p, (s₀.shared.ops i).transposed = none → (s.shared.ops i).transposed = some p →
    s₀.shared.heap.length ≤ p ∧ ∃ a, s₀.shared.heap[(s₀.shared.ops i).matrix]? = some a ∧
      s.shared.heap[p]? = some (madeBy (s.threads (own i)) a i)
  inj : ∀ i j p, (s₀.shared.ops i).transposed = none → (s₀.shared.ops j).transposed = none →
    (s.shared.ops i).transposed = some p → (s.shared.ops j).transposed = some p → i = j
  thread : ∀ k, ThreadInv s₀.shared s.shared (s.threads k)
  uses : ∀ k, ∃ done, (s₀.threads k).uses = done ++ (s.threads k).uses ∧
    (s.threads k).results = resultsAlone debug s₀.shared done [] ∧
    ∀ u ∈ done, u.tr = true → ∃ p, (s.shared.ops u.op).transposed = some p

theorem resultsAlone_append (debug : Bool) (sh : DevShared K) (us vs : List (OpUse K))
    (r : List (Outcome (List K))) :
    resultsAlone debug sh (us ++ vs) r = resultsAlone debug sh vs (resultsAlone debug sh us r) := by
  induction us generalizing r with
  | nil => rfl
  | cons u us ih => exact ih _

variable [DecidableEq ι]

/-- `own i` is the only thread that may make the transposed matrix of operator `i`. -/
def Owner (s₀ : OpSystem ι K) (own : ℕ → ι) : Prop :=
  ∀ i k, (s₀.shared.ops i).transposed = none → WillTranspose (s₀.threads k) i → k = own i

namespace ThreadsInv

variable {debug : Bool} {s₀ s : OpSystem ι K} {own : ℕ → ι}

omit [DecidableEq ι] in
theorem owner (h : ThreadsInv debug s₀ own s) (ho : Owner s₀ own) {k : ι} {u : OpUse K} {us : List (OpUse K)}
    (hu : (s.threads k).uses = u :: us) (ht : u.tr = true) (hn : (s₀.shared.ops u.op).transposed = none) :
    k = own u.op := by
  obtain ⟨done, h1, -, -⟩ := h.uses k
  exact ho u.op k hn ⟨u, by rw [h1, hu]; simp, rfl, ht⟩

omit [DecidableEq ι] [NonUnitalNonAssocSemiring K] in
/-- A thread that is not at work on the transposed matrix has it complete. -/
theorem madeBy_full {th : OpThread K} (h1 : ∀ u us, th.uses = u :: us → th.pc ≠ .setHandle)
    (h2 : ∀ u us, th.uses = u :: us → th.pc ≠ .setDescr) (a : DevMatrix K) (i : ℕ) :
    madeBy th a i = newTransposed a := by
  unfold madeBy
  cases hu : th.uses with
  | nil => rfl
  | cons u us =>
    have e1 := h1 u us hu
    have e2 := h2 u us hu
    simp only
    split_ifs
    · cases hp : th.pc <;> simp_all
    · rfl

/-- Steps that change nothing shared. -/
theorem local_step (h : ThreadsInv debug s₀ own s) (k : ι) (th : OpThread K)
    (hm : ∀ a i, madeBy th a i = madeBy (s.threads k) a i) (hth : ThreadInv s₀.shared s.shared th)
    (hu : ∃ done, (s₀.threads k).uses = done ++ th.uses ∧ th.results = resultsAlone debug s₀.shared done [] ∧
      ∀ u ∈ done, u.tr = true → ∃ p, (s.shared.ops u.op).transposed = some p) :
    ThreadsInv debug s₀ own { s with threads := Function.update s.threads k th } where
  kept := h.kept
  longer := h.longer
  matrix := h.matrix
  old := h.old
  made i p h1 h2 := by
    obtain ⟨h3, a, h4, h5⟩ := h.made i p h1 h2
    refine ⟨h3, a, h4, ?_⟩
    simp only [Function.update_apply]
    split_ifs with e
    · rw [h5, hm, e]
    · exact h5
  inj := h.inj
  thread l := by
    simp only [Function.update_apply]
    split_ifs with e
    · exact hth
    · exact h.thread l
  uses l := by
    simp only [Function.update_apply]
    split_ifs with e
    · subst e
      exact hu
    · exact h.uses l

omit [DecidableEq ι] in
theorem at_matrix (h : ThreadsInv debug s₀ own s) (hb : Beginning s₀) (i : ℕ) :
    ∃ a, s₀.shared.heap[(s₀.shared.ops i).matrix]? = some a ∧
      s.shared.at (s.shared.ops i).matrix = .ok a := by
  have hlt := hb.matrix i
  refine ⟨_, List.getElem?_eq_getElem hlt, ?_⟩
  rw [DevShared.at, Outcome.get, h.matrix, h.kept _ hlt, List.getElem?_eq_getElem hlt]

/-- The invariant is kept by every step. -/
theorem step (h : ThreadsInv debug s₀ own s) (hb : Beginning s₀) (ho : Owner s₀ own) (k : ι) :
    ∃ t, s.step debug k = .ok t ∧ ThreadsInv debug s₀ own t := by
  obtain ⟨done, hd, hr, hf⟩ := h.uses k
  have hth := h.thread k
  rw [OpSystem.step, opStepThread]
  cases hu : (s.threads k).uses with
  | nil =>
    refine ⟨_, rfl, h.local_step k _ (fun _ _ => rfl) hth ⟨done, hd, hr, hf⟩⟩
  | cons u us =>
    have hd' : (s₀.threads k).uses = done ++ u :: us := by rw [hd, hu]
    cases hpc : (s.threads k).pc with
    | check =>
      refine ⟨_, rfl, h.local_step k _ ?_ ?_ ⟨done, by simpa [hu] using hd', hr, hf⟩⟩
      · intro a i
        rw [madeBy_full (th := s.threads k) (by simp [hpc]) (by simp [hpc]), madeBy_full]
        all_goals
          intro _ _ _
          simp only
          split_ifs <;> simp
      · cases ht : (s.shared.ops u.op).transposed with
        | none =>
          cases htr : u.tr with
          | false => simp [ThreadInv, htr]
          | true =>
            simp only [ThreadInv, htr, Option.isNone_none, Bool.and_self, if_true, true_and]
            refine ⟨?_, ht⟩
            cases h0 : (s₀.shared.ops u.op).transposed with
            | none => rfl
            | some t => rw [h.old _ _ h0] at ht; cases ht
        | some p => simp [ThreadInv, ht]
    | enter =>
      simp only [ThreadInv, hu, hpc] at hth
      refine ⟨_, rfl, h.local_step k _ ?_ ?_ ⟨done, by simpa [hu] using hd', hr, hf⟩⟩
      · intro a i
        rw [madeBy_full (th := s.threads k) (by simp [hpc]) (by simp [hpc]), madeBy_full]
        all_goals
          intro _ _ _
          simp only
          split_ifs <;> simp
      · simpa [ThreadInv, hu, hth.2.2] using hth
    | convert =>
      simp only [ThreadInv, hu, hpc] at hth
      obtain ⟨a, ha, hat⟩ := h.at_matrix hb u.op
      simp only [hat, Outcome.ok_bind]
      refine ⟨_, rfl, h.local_step k _ ?_ ?_ ⟨done, by simpa [hu] using hd', hr, hf⟩⟩
      · intro a i
        rw [madeBy_full (th := s.threads k) (by simp [hpc]) (by simp [hpc]), madeBy_full]
        all_goals
          intro _ _ _
          simp
      · simp only [ThreadInv]
        exact ⟨hth, a, ha, rfl⟩
    | assign t =>
      simp only [ThreadInv, hu, hpc] at hth
      obtain ⟨⟨htr, h0, h1⟩, a, ha, rfl⟩ := hth
      have hk := h.owner ho hu htr h0
      have grown : ∀ v : OpUse K, (∃ p, (s.shared.ops v.op).transposed = some p) →
          ∃ p, (Function.update s.shared.ops u.op
            { matrix := (s.shared.ops u.op).matrix, transposed := some s.shared.heap.length }
            v.op).transposed = some p := by
        rintro v ⟨p, hp⟩
        simp only [Function.update_apply]
        split_ifs with e
        · exact ⟨_, rfl⟩
        · exact ⟨p, hp⟩
      refine ⟨_, rfl, ?_⟩
      refine ⟨?_, ?_, ?_, ?_, ?_, ?_, ?_, ?_⟩
      · intro p hp
        simp only
        rw [List.getElem?_append_left (lt_of_lt_of_le hp h.longer), h.kept p hp]
      · simp only [List.length_append]
        exact h.longer.trans (Nat.le_add_right _ _)
      · intro i
        simp only [Function.update_apply]
        split_ifs with e
        · rw [e, h.matrix]
        · exact h.matrix i
      · intro i t ht
        simp only [Function.update_apply]
        split_ifs with e
        · rw [e, h0] at ht
          cases ht
        · exact h.old i t ht
      · intro i p hi hp
        simp only [Function.update_apply] at hp ⊢
        by_cases e : i = u.op
        · subst e
          rw [if_pos rfl] at hp
          simp only [Option.some.injEq] at hp
          subst hp
          refine ⟨h.longer, a, ha, ?_⟩
          rw [if_pos hk.symm]
          simp [madeBy]
        · rw [if_neg e] at hp
          obtain ⟨h3, b, h4, h5⟩ := h.made i p hi hp
          refine ⟨h3, b, h4, ?_⟩
          rw [List.getElem?_append_left (by
            by_contra hc
            rw [List.getElem?_eq_none (not_lt.1 hc)] at h5
            cases h5), h5]
          split_ifs with e2
          · rw [e2]
            simp [madeBy, hu, Ne.symm e]
          · rfl
      · intro i j p hi hj hpi hpj
        have lt : ∀ i p, (s₀.shared.ops i).transposed = none → (s.shared.ops i).transposed = some p →
            p < s.shared.heap.length := by
          intro i p hi hp
          obtain ⟨-, b, -, h5⟩ := h.made i p hi hp
          by_contra hc
          rw [List.getElem?_eq_none (not_lt.1 hc)] at h5
          cases h5
        simp only [Function.update_apply] at hpi hpj
        split_ifs at hpi hpj with e1 e2 e2
        · rw [e1, e2]
        · simp only [Option.some.injEq] at hpi
          have := lt j p hj hpj
          omega
        · simp only [Option.some.injEq] at hpj
          have := lt i p hi hpi
          omega
        · exact h.inj i j p hi hj hpi hpj
      · intro l
        by_cases e : l = k
        · subst e
          simp only [Function.update_self]
          simp only [ThreadInv]
          simp [htr, h0]
        · simp only [Function.update_of_ne e]
          have hl := h.thread l
          unfold ThreadInv at hl ⊢
          cases hul : (s.threads l).uses with
          | nil => trivial
          | cons v vs =>
            simp only [hul] at hl ⊢
            have key : v.tr = true → v.op ≠ u.op := fun hv hvu => e (by
              rw [h.owner ho hul hv (hvu ▸ h0), hk, hvu])
            have keep : v.tr = true → (Function.update s.shared.ops u.op
                { matrix := (s.shared.ops u.op).matrix, transposed := some s.shared.heap.length } v.op)
                = s.shared.ops v.op := fun hv => Function.update_of_ne (key hv) _ _
            cases hpl : (s.threads l).pc <;> simp only [hpl] at hl ⊢
            case enter => rw [keep hl.1]; exact hl
            case convert => rw [keep hl.1]; exact hl
            case assign => rw [keep hl.1.1]; exact hl
            case setHandle => rw [keep hl.1]; exact hl
            case setDescr => rw [keep hl.1]; exact hl
            case fetch => intro hv; rw [keep hv]; exact hl hv
            case product q =>
              cases hv : v.tr with
              | true => rw [keep hv]; rw [hv] at hl; exact hl
              | false =>
                rw [hv] at hl
                refine ⟨by simp, ?_⟩
                rw [hl.2, if_neg (by simp), if_neg (by simp)]
                by_cases e3 : v.op = u.op
                · rw [e3, Function.update_self]
                · rw [Function.update_of_ne e3]
      · intro l
        by_cases e : l = k
        · subst e
          simp only [Function.update_self]
          exact ⟨done, by simpa [hu] using hd', hr, fun v hv ht => grown v (hf v hv ht)⟩
        · simp only [Function.update_of_ne e]
          obtain ⟨done, h1, h2, h3⟩ := h.uses l
          exact ⟨done, h1, h2, fun v hv ht => grown v (h3 v hv ht)⟩
    | setHandle =>
      simp only [ThreadInv, hu, hpc] at hth
      obtain ⟨htr, h0, p, hp⟩ := hth
      have hk := h.owner ho hu htr h0
      obtain ⟨a, ha, hat⟩ := h.at_matrix hb u.op
      obtain ⟨h3, b, h4, h5⟩ := h.made u.op p h0 hp
      rw [ha] at h4
      cases h4
      have hpt : s.shared.at p = .ok { mat := a.mat.transpose, handle := false, descr := false } := by
        rw [DevShared.at, Outcome.get, h5, ← hk]
        simp [madeBy, hu, hpc]
      simp only [hat, Outcome.ok_bind, hp, Outcome.deref, hpt]
      refine ⟨_, rfl, ?_⟩
      have hlt : p < s.shared.heap.length := by
        by_contra hc
        rw [List.getElem?_eq_none (not_lt.1 hc)] at h5
        cases h5
      refine ⟨?_, ?_, h.matrix, h.old, ?_, h.inj, ?_, ?_⟩
      · intro q hq
        simp only
        rw [List.getElem?_set_ne (by omega), h.kept q hq]
      · simpa using h.longer
      · intro i q hi hq
        simp only at hq ⊢
        obtain ⟨h6, b, h7, h8⟩ := h.made i q hi hq
        refine ⟨h6, b, h7, ?_⟩
        by_cases e : i = u.op
        · subst e
          rw [hp] at hq
          cases hq
          rw [ha] at h7
          cases h7
          rw [List.getElem?_set_self hlt, ← hk, Function.update_self]
          simp [madeBy]
        · have hne : p ≠ q := fun hc => e (h.inj i u.op q hi h0 hq (hc ▸ hp))
          rw [List.getElem?_set_ne hne, h8, Function.update_apply]
          split_ifs with e2
          · rw [e2]
            simp [madeBy, hu, Ne.symm e]
          · rfl
      · intro l
        by_cases e : l = k
        · subst e
          simp only [Function.update_self]
          simp only [ThreadInv]
          exact ⟨htr, h0, p, hp⟩
        · simp only [Function.update_of_ne e]
          exact h.thread l
      · intro l
        by_cases e : l = k
        · subst e
          simp only [Function.update_self]
          exact ⟨done, by simpa [hu] using hd', hr, hf⟩
        · simp only [Function.update_of_ne e]
          exact h.uses l
    | setDescr =>
      simp only [ThreadInv, hu, hpc] at hth
      obtain ⟨htr, h0, p, hp⟩ := hth
      have hk := h.owner ho hu htr h0
      obtain ⟨a, ha, hat⟩ := h.at_matrix hb u.op
      obtain ⟨h3, b, h4, h5⟩ := h.made u.op p h0 hp
      rw [ha] at h4
      cases h4
      have hpt : s.shared.at p = .ok { mat := a.mat.transpose, handle := a.handle, descr := false } := by
        rw [DevShared.at, Outcome.get, h5, ← hk]
        simp [madeBy, hu, hpc]
      simp only [Outcome.ok_bind, hp, Outcome.deref, hpt]
      refine ⟨_, rfl, ?_⟩
      have hlt : p < s.shared.heap.length := by
        by_contra hc
        rw [List.getElem?_eq_none (not_lt.1 hc)] at h5
        cases h5
      refine ⟨?_, ?_, h.matrix, h.old, ?_, h.inj, ?_, ?_⟩
      · intro q hq
        simp only
        rw [List.getElem?_set_ne (by omega), h.kept q hq]
      · simpa using h.longer
      · intro i q hi hq
        simp only at hq ⊢
        obtain ⟨h6, b, h7, h8⟩ := h.made i q hi hq
        refine ⟨h6, b, h7, ?_⟩
        by_cases e : i = u.op
        · subst e
          rw [hp] at hq
          cases hq
          rw [ha] at h7
          cases h7
          rw [List.getElem?_set_self hlt, ← hk, Function.update_self]
          simp [madeBy, newTransposed]
        · have hne : p ≠ q := fun hc => e (h.inj i u.op q hi h0 hq (hc ▸ hp))
          rw [List.getElem?_set_ne hne, h8, Function.update_apply]
          split_ifs with e2
          · rw [e2]
            simp [madeBy, hu, Ne.symm e]
          · rfl
      · intro l
        by_cases e : l = k
        · subst e
          simp only [Function.update_self]
          simp only [ThreadInv]
          exact fun _ => ⟨p, hp⟩
        · simp only [Function.update_of_ne e]
          exact h.thread l
      · intro l
        by_cases e : l = k
        · subst e
          simp only [Function.update_self]
          exact ⟨done, by simpa [hu] using hd', hr, hf⟩
        · simp only [Function.update_of_ne e]
          exact h.uses l
    | swap =>
      simp only [ThreadInv, hu, hpc] at hth
    | fetch =>
      simp only [ThreadInv, hu, hpc] at hth
      refine ⟨_, rfl, h.local_step k _ ?_ ?_ ⟨done, by simpa [hu] using hd', hr, hf⟩⟩
      · intro a i
        rw [madeBy_full (th := s.threads k) (by simp [hpc]) (by simp [hpc]), madeBy_full]
        all_goals
          intro _ _ _
          simp
      · simp only [ThreadInv]
        exact ⟨hth, trivial⟩
    | product q =>
      simp only [ThreadInv, hu, hpc] at hth
      obtain ⟨a, ha, hat⟩ := h.at_matrix hb u.op
      -- the matrix used is the right one
      have key : ∃ p b o, q = some p ∧ s.shared.at p = .ok b ∧ operatorOf s₀.shared u.op = some o ∧
          ∀ x y, (do let z ← cudaApply debug o u.tr x y
                     pure z.2) = devVmult debug b x y := by
        cases htr : u.tr with
        | false =>
          rw [htr] at hth
          refine ⟨(s.shared.ops u.op).matrix, a, ?_⟩
          cases h0 : (s₀.shared.ops u.op).transposed with
          | none =>
            refine ⟨{ matrix := a, transposed := none }, hth.2, hat, by simp [operatorOf, ha, h0], ?_⟩
            intro x y
            simp only [cudaApply, Bool.false_and, Bool.false_eq_true, if_false]
            cases devVmult debug a x y <;> rfl
          | some t =>
            have hlt := hb.transposed _ _ h0
            refine ⟨{ matrix := a, transposed := some s₀.shared.heap[t] }, hth.2, hat,
              by simp [operatorOf, ha, h0, List.getElem?_eq_getElem hlt], ?_⟩
            intro x y
            simp only [cudaApply, Bool.false_and, Bool.false_eq_true, if_false]
            cases devVmult debug a x y <;> rfl
        | true =>
          rw [htr] at hth
          obtain ⟨p, hp⟩ := hth.1 rfl
          cases h0 : (s₀.shared.ops u.op).transposed with
          | none =>
            have hk := h.owner ho hu htr h0
            obtain ⟨-, b, h4, h5⟩ := h.made u.op p h0 hp
            rw [ha] at h4
            cases h4
            rw [← hk, madeBy_full (by simp [hpc]) (by simp [hpc])] at h5
            refine ⟨p, newTransposed a, { matrix := a, transposed := none }, by simpa [hp] using hth.2, ?_,
              by simp [operatorOf, ha, h0], ?_⟩
            · rw [DevShared.at, Outcome.get, h5]
            · intro x y
              simp only [cudaApply, Option.isNone_none, Bool.and_self, if_true, cudaTranspose, Outcome.deref,
                Outcome.ok_bind]
              cases devVmult debug (newTransposed a) x y <;> rfl
          | some t =>
            have hlt := hb.transposed _ _ h0
            have hpt := h.old _ _ h0
            rw [hp] at hpt
            cases hpt
            refine ⟨p, s₀.shared.heap[p], { matrix := a, transposed := some s₀.shared.heap[p] },
              by simpa [hp] using hth.2, ?_, by simp [operatorOf, ha, h0, List.getElem?_eq_getElem hlt], ?_⟩
            · rw [DevShared.at, Outcome.get, h.kept p hlt, List.getElem?_eq_getElem hlt]
            · intro x y
              simp only [cudaApply, Option.isNone_some, Bool.and_false, Bool.false_eq_true, if_false, if_true,
                Outcome.deref, Outcome.ok_bind]
              cases devVmult debug s₀.shared.heap[p] x y <;> rfl
      obtain ⟨p, b, o, rfl, hbp, hop, hres⟩ := key
      simp only [Outcome.deref, Outcome.ok_bind, hbp]
      refine ⟨_, rfl, h.local_step k _ ?_ ?_ ⟨done ++ [u], by simpa using hd', ?_, ?_⟩⟩
      · intro a i
        rw [madeBy_full (th := s.threads k) (by simp [hpc]) (by simp [hpc]), madeBy_full]
        all_goals
          intro _ _ _
          simp
      · unfold ThreadInv
        cases us <;> trivial
      · rw [resultsAlone_append, ← hr]
        simp only [resultsAlone, hop, Outcome.deref, Outcome.ok_bind]
        rw [hres]
      · intro v hv ht
        rw [List.mem_append, List.mem_singleton] at hv
        rcases hv with hv | rfl
        · exact hf v hv ht
        · exact hth.1 ht

omit [DecidableEq ι] in
theorem init (hb : Beginning s₀) : ThreadsInv debug s₀ own s₀ where
  kept _ _ := rfl
  longer := le_refl _
  matrix _ := rfl
  old _ _ h := h
  made i p h h' := by rw [h] at h'; cases h'
  inj i j p h _ h' := by rw [h] at h'; cases h'
  thread k := by
    unfold ThreadInv
    cases (s₀.threads k).uses with
    | nil => trivial
    | cons u us => simp only [hb.pc k]
  uses k := ⟨[], by simp, by simp [resultsAlone, hb.results k], by simp⟩

theorem run (h : ThreadsInv debug s₀ own s) (hb : Beginning s₀) (ho : Owner s₀ own) (sched : List ι) :
    ∃ t, s.run debug sched = .ok t ∧ ThreadsInv debug s₀ own t := by
  induction sched generalizing s with
  | nil => exact ⟨s, rfl, h⟩
  | cons k ks ih =>
    obtain ⟨t, h1, h2⟩ := h.step hb ho k
    obtain ⟨t', h3, h4⟩ := ih h2
    exact ⟨t', by rw [OpSystem.run, h1]; exact h3, h4⟩

omit [DecidableEq ι] in
/-- What a thread is about to write to: something of an operator whose transposed matrix it makes. -/
theorem writes_cases (h : ThreadsInv debug s₀ own s) (ho : Owner s₀ own) (k : ι) (c : OpCell)
    (hc : c ∈ opWrites s.shared (s.threads k)) :
    ∃ i, (s₀.shared.ops i).transposed = none ∧ k = own i ∧
      (c = .transposed i ∨ ∃ p, c = .heap p ∧ (s.shared.ops i).transposed = some p) := by
  have hth := h.thread k
  unfold opWrites at hc
  cases hu : (s.threads k).uses with
  | nil => simp [hu] at hc
  | cons u us =>
    cases hpc : (s.threads k).pc <;> simp only [ThreadInv, hu, hpc] at hc hth <;>
      first
      | (simp at hc; done)
      | exact hth.elim
      | skip
    · exact ⟨u.op, hth.1.2.1, h.owner ho hu hth.1.1 hth.1.2.1, Or.inl (by simpa using hc)⟩
    · obtain ⟨htr, h0, p, hp⟩ := hth
      exact ⟨u.op, h0, h.owner ho hu htr h0, Or.inr ⟨p, by simpa [hp] using hc, hp⟩⟩
    · obtain ⟨htr, h0, p, hp⟩ := hth
      exact ⟨u.op, h0, h.owner ho hu htr h0, Or.inr ⟨p, by simpa [hp] using hc, hp⟩⟩

omit [DecidableEq ι] in
/-- What a thread is about to read. -/
theorem reads_cases (h : ThreadsInv debug s₀ own s) (hb : Beginning s₀) (ho : Owner s₀ own) (l : ι) (c : OpCell)
    (hc : c ∈ opReads s.shared (s.threads l)) :
    (∃ i, c = .matrix i) ∨ (∃ p, p < s₀.shared.heap.length ∧ c = .heap p) ∨
    ∃ i, ((s₀.shared.ops i).transposed = none → l = own i) ∧
      (c = .transposed i ∨ ∃ p, c = .heap p ∧ (s₀.shared.ops i).transposed = none ∧
        (s.shared.ops i).transposed = some p) := by
  have hth := h.thread l
  unfold opReads at hc
  cases hu : (s.threads l).uses with
  | nil => simp [hu] at hc
  | cons u us =>
    have hm : (s.shared.ops u.op).matrix < s₀.shared.heap.length := by rw [h.matrix]; exact hb.matrix _
    cases hpc : (s.threads l).pc <;> simp only [ThreadInv, hu, hpc] at hc hth
    case check =>
      split_ifs at hc with ht
      · exact Or.inr (Or.inr ⟨u.op, fun h0 => h.owner ho hu ht h0, Or.inl (by simpa using hc)⟩)
      · simp at hc
    case enter =>
      exact Or.inr (Or.inr ⟨u.op, fun h0 => h.owner ho hu hth.1 h0, Or.inl (by simpa using hc)⟩)
    case convert =>
      simp only [List.mem_cons, List.not_mem_nil, or_false] at hc
      rcases hc with rfl | rfl
      · exact Or.inl ⟨_, rfl⟩
      · exact Or.inr (Or.inl ⟨_, hm, rfl⟩)
    case assign => simp at hc
    case setHandle =>
      simp only [List.mem_cons, List.not_mem_nil, or_false] at hc
      rcases hc with rfl | rfl | rfl
      · exact Or.inl ⟨_, rfl⟩
      · exact Or.inr (Or.inr ⟨u.op, fun h0 => h.owner ho hu hth.1 h0, Or.inl rfl⟩)
      · exact Or.inr (Or.inl ⟨_, hm, rfl⟩)
    case setDescr =>
      exact Or.inr (Or.inr ⟨u.op, fun h0 => h.owner ho hu hth.1 h0, Or.inl (by simpa using hc)⟩)
    case fetch =>
      split_ifs at hc with ht
      · exact Or.inr (Or.inr ⟨u.op, fun h0 => h.owner ho hu ht h0, Or.inl (by simpa using hc)⟩)
      · exact Or.inl ⟨u.op, by simpa using hc⟩
    case product q =>
      obtain ⟨h1, rfl⟩ := hth
      split_ifs at hc with ht
      · obtain ⟨p, hp⟩ := h1 ht
        rw [hp] at hc
        simp only [Option.map_some, Option.toList_some, List.mem_singleton] at hc
        subst hc
        cases h0 : (s₀.shared.ops u.op).transposed with
        | none => exact Or.inr (Or.inr ⟨u.op, fun h0 => h.owner ho hu ht h0, Or.inr ⟨p, rfl, h0, hp⟩⟩)
        | some t =>
          have := h.old _ _ h0
          rw [hp] at this
          cases this
          exact Or.inr (Or.inl ⟨p, hb.transposed _ _ h0, rfl⟩)
      · simp only [Option.map_some, Option.toList_some, List.mem_singleton] at hc
        exact Or.inr (Or.inl ⟨_, hm, hc⟩)

omit [DecidableEq ι] in
theorem not_racing (h : ThreadsInv debug s₀ own s) (hb : Beginning s₀) (ho : Owner s₀ own) : ¬ Racing s := by
  rintro ⟨k, l, hkl, c, hk, hl⟩
  obtain ⟨i, h0, rfl, hi⟩ := h.writes_cases ho k c hk
  rcases hl with hl | hl
  · obtain ⟨j, h0', rfl, hj⟩ := h.writes_cases ho l c hl
    rcases hi with rfl | ⟨p, rfl, hp⟩
    · rcases hj with e | ⟨q, e, -⟩
      · cases e; exact hkl rfl
      · cases e
    · rcases hj with e | ⟨q, e, hq⟩
      · cases e
      · cases e
        rw [h.inj i j p h0 h0' hp hq] at hkl
        exact hkl rfl
  · rcases h.reads_cases hb ho l c hl with ⟨j, e⟩ | ⟨q, hq, e⟩ | ⟨j, h1, hj⟩
    · rcases hi with rfl | ⟨p, rfl, hp⟩ <;> cases e
    · rcases hi with rfl | ⟨p, rfl, hp⟩
      · cases e
      · cases e
        have := (h.made i _ h0 hp).1
        omega
    · rcases hi with rfl | ⟨p, rfl, hp⟩
      · rcases hj with e | ⟨q, e, -⟩
        · cases e; exact hkl (h1 h0).symm
        · cases e
      · rcases hj with e | ⟨q, e, h2, h3⟩
        · cases e
        · cases e
          have := h.inj i j p h0 h2 hp h3
          subst this
          exact hkl (h1 h0).symm

end ThreadsInv

section

variable {debug : Bool}

omit [DecidableEq ι] in
/-- How many steps a thread has left at most. -/
def stepsLeft (th : OpThread K) : ℕ :=
  match th.uses with
  | [] => 0
  | _ :: us => 8 * us.length +
    match th.pc with
    | .check => 8
    | .enter => 7
    | .convert => 6
    | .assign _ => 5
    | .setHandle => 4
    | .setDescr => 3
    | .swap => 3
    | .fetch => 2
    | .product _ => 1

theorem stepsLeft_step {sh sh' : DevShared K} {th th' : OpThread K}
    (h : opStepThread debug sh th = .ok (sh', th')) : stepsLeft th' ≤ stepsLeft th - 1 := by
  unfold opStepThread at h
  cases hu : th.uses with
  | nil =>
    simp only [hu] at h
    cases h
    simp [stepsLeft, hu]
  | cons u us =>
    cases hpc : th.pc <;> simp only [hu, hpc] at h
    case check =>
      cases h
      simp only [stepsLeft, hu, hpc]
      split_ifs <;> simp
    case enter =>
      cases h
      simp only [stepsLeft, hu, hpc]
      split_ifs <;> simp
    case convert =>
      obtain ⟨a, -, h⟩ := Outcome.bind_eq_ok.1 h
      cases h
      simp [stepsLeft, hu, hpc]
    case assign =>
      cases h
      simp [stepsLeft, hu, hpc]
    case setHandle =>
      obtain ⟨a, -, h⟩ := Outcome.bind_eq_ok.1 h
      obtain ⟨p, -, h⟩ := Outcome.bind_eq_ok.1 h
      obtain ⟨t, -, h⟩ := Outcome.bind_eq_ok.1 h
      cases h
      simp [stepsLeft, hu, hpc]
    case setDescr =>
      obtain ⟨p, -, h⟩ := Outcome.bind_eq_ok.1 h
      obtain ⟨t, -, h⟩ := Outcome.bind_eq_ok.1 h
      cases h
      simp [stepsLeft, hu, hpc]
    case swap =>
      obtain ⟨p, -, h⟩ := Outcome.bind_eq_ok.1 h
      cases h
      simp [stepsLeft, hu, hpc]
    case fetch =>
      cases h
      simp [stepsLeft, hu, hpc]
    case product =>
      obtain ⟨p, -, h⟩ := Outcome.bind_eq_ok.1 h
      obtain ⟨t, -, h⟩ := Outcome.bind_eq_ok.1 h
      cases h
      simp only [stepsLeft, hu, hpc]
      cases us with
      | nil => simp
      | cons v vs => simp only [List.length_cons]; omega

/-- A step leaves no new calls. -/
theorem opStepThread_uses {sh sh' : DevShared K} {th th' : OpThread K}
    (h : opStepThread debug sh th = .ok (sh', th')) (v : OpUse K) (hv : v ∈ th'.uses) : v ∈ th.uses := by
  unfold opStepThread at h
  cases hu : th.uses with
  | nil =>
    simp only [hu] at h
    cases h
    rw [hu] at hv
    exact hv
  | cons u us =>
    cases hpc : th.pc <;> simp only [hu, hpc] at h
    case product =>
      obtain ⟨p, -, h⟩ := Outcome.bind_eq_ok.1 h
      obtain ⟨t, -, h⟩ := Outcome.bind_eq_ok.1 h
      cases h
      exact List.mem_cons_of_mem _ hv
    case setHandle =>
      obtain ⟨a, -, h⟩ := Outcome.bind_eq_ok.1 h
      obtain ⟨p, -, h⟩ := Outcome.bind_eq_ok.1 h
      obtain ⟨t, -, h⟩ := Outcome.bind_eq_ok.1 h
      cases h
      simpa [hu] using hv
    case setDescr =>
      obtain ⟨p, -, h⟩ := Outcome.bind_eq_ok.1 h
      obtain ⟨t, -, h⟩ := Outcome.bind_eq_ok.1 h
      cases h
      simpa [hu] using hv
    case convert =>
      obtain ⟨a, -, h⟩ := Outcome.bind_eq_ok.1 h
      cases h
      simpa [hu] using hv
    case swap =>
      obtain ⟨a, -, h⟩ := Outcome.bind_eq_ok.1 h
      cases h
      simpa [hu] using hv
    all_goals
      cases h
      simpa [hu] using hv

theorem stepsLeft_run (k : ι) (sched : List ι) {s t : OpSystem ι K} (h : s.run debug sched = .ok t) :
    stepsLeft (t.threads k) ≤ stepsLeft (s.threads k) - sched.count k := by
  induction sched generalizing s with
  | nil => cases h; simp
  | cons l ls ih =>
    rw [OpSystem.run] at h
    obtain ⟨s', h1, h2⟩ := Outcome.bind_eq_ok.1 h
    have h3 := ih h2
    rw [OpSystem.step] at h1
    obtain ⟨⟨sh, th⟩, h4, h5⟩ := Outcome.bind_eq_ok.1 h1
    cases h5
    simp only at h3
    rw [List.count_cons]
    by_cases e : l = k
    · subst e
      rw [Function.update_self] at h3
      have := stepsLeft_step h4
      simp only [beq_self_eq_true, if_true]
      omega
    · rw [Function.update_of_ne (Ne.symm e)] at h3
      simp only [beq_iff_eq, e, if_false]
      omega

omit [DecidableEq ι] [NonUnitalNonAssocSemiring K] in
theorem finished_of_stepsLeft {th : OpThread K} (h : stepsLeft th = 0) : th.uses = [] := by
  unfold stepsLeft at h
  cases hu : th.uses with
  | nil => rfl
  | cons u us =>
    simp only [hu] at h
    cases hpc : th.pc <;> simp only [hpc] at h <;> omega

theorem OpSystem.run_append (debug : Bool) (ks ls : List ι) (s : OpSystem ι K) :
    s.run debug (ks ++ ls) = (s.run debug ks).bind fun t => t.run debug ls := by
  induction ks generalizing s with
  | nil => rfl
  | cons k ks ih =>
    rw [List.cons_append, OpSystem.run, OpSystem.run]
    cases h : s.step debug k with
    | ok t => simpa [h] using ih t
    | throws m => rfl
    | aborted => rfl
    | ub w => rfl

omit [DecidableEq ι] [NonUnitalNonAssocSemiring K] in
/-- All pointers point to matrices. -/
def DevShared.Valid (sh : DevShared K) : Prop :=
  (∀ i, (sh.ops i).matrix < sh.heap.length) ∧ ∀ i p, (sh.ops i).transposed = some p → p < sh.heap.length

omit [NonUnitalNonAssocSemiring K] in
theorem DevShared.Valid.at {sh : DevShared K} {p : ℕ} (h : p < sh.heap.length) :
    sh.at p = .ok sh.heap[p] := by
  rw [DevShared.at, Outcome.get, List.getElem?_eq_getElem h]

/-- A thread that is alone gets on to its next call. -/
theorem call_alone (s : OpSystem ι K) (k : ι) (u : OpUse K) (us : List (OpUse K)) (hv : s.shared.Valid)
    (hu : (s.threads k).uses = u :: us) (hpc : (s.threads k).pc = .check) :
    ∃ n t, s.run debug (List.replicate n k) = .ok t ∧ t.shared.Valid ∧ (t.threads k).uses = us ∧
      (t.threads k).pc = .check ∧ (∀ l, l ≠ k → t.threads l = s.threads l) ∧
      (∀ p, p < s.shared.heap.length → t.shared.heap[p]? = s.shared.heap[p]?) ∧
      (∀ i, (u.op = i → u.tr = false) → t.shared.ops i = s.shared.ops i) := by
  obtain ⟨hv1, hv2⟩ := hv
  have hm := hv1 u.op
  cases htr : u.tr with
  | false =>
    refine ⟨3, ⟨s.shared, Function.update s.threads k ⟨us, .check, (s.threads k).results ++
      [devVmult debug s.shared.heap[(s.shared.ops u.op).matrix] (u.args (s.threads k).results).1
        (u.args (s.threads k).results).2]⟩⟩, ?_, ⟨hv1, hv2⟩, by simp, by simp, ?_, fun _ _ => rfl, fun _ _ => rfl⟩
    · simp [List.replicate, OpSystem.run, OpSystem.step, opStepThread, hu, hpc, htr, Outcome.deref,
        DevShared.Valid.at (hv1 u.op)]
    · intro l hl
      simp [Function.update_of_ne hl]
  | true =>
    cases ht : (s.shared.ops u.op).transposed with
    | some p =>
      refine ⟨3, ⟨s.shared, Function.update s.threads k ⟨us, .check, (s.threads k).results ++
        [devVmult debug (s.shared.heap[p]'(hv2 _ _ ht)) (u.args (s.threads k).results).1
          (u.args (s.threads k).results).2]⟩⟩, ?_, ⟨hv1, hv2⟩, by simp, by simp, ?_, fun _ _ => rfl,
          fun _ _ => rfl⟩
      · simp [List.replicate, OpSystem.run, OpSystem.step, opStepThread, hu, hpc, htr, ht, Outcome.deref,
          DevShared.Valid.at (hv2 _ _ ht)]
      · intro l hl
        simp [Function.update_of_ne hl]
    | none =>
      refine ⟨8, ⟨⟨s.shared.heap ++ [newTransposed s.shared.heap[(s.shared.ops u.op).matrix]],
          Function.update s.shared.ops u.op ⟨(s.shared.ops u.op).matrix, some s.shared.heap.length⟩⟩,
        Function.update s.threads k ⟨us, .check, (s.threads k).results ++
        [devVmult debug (newTransposed s.shared.heap[(s.shared.ops u.op).matrix]) (u.args (s.threads k).results).1
          (u.args (s.threads k).results).2]⟩⟩, ?_, ⟨?_, ?_⟩, by simp, by simp, ?_, ?_, ?_⟩
      · simp [List.replicate, OpSystem.run, OpSystem.step, opStepThread, hu, hpc, htr, ht, Outcome.deref,
          DevShared.at, Outcome.get, List.getElem?_append_left (hv1 u.op), List.getElem?_eq_getElem (hv1 u.op),
          newTransposed]
      · intro i
        simp only [Function.update_apply, List.length_append, List.length_singleton]
        have := hv1 i
        have := hv1 u.op
        split_ifs <;> first | omega | (simp only []; omega)
      · intro i p hp
        simp only [Function.update_apply, List.length_append, List.length_singleton] at hp ⊢
        split_ifs at hp with e
        · simp only [Option.some.injEq] at hp
          omega
        · have := hv2 i p hp
          omega
      · intro l hl
        simp [Function.update_of_ne hl]
      · intro p hp
        simp [List.getElem?_append_left hp]
      · intro i hi
        have hne : i ≠ u.op := fun e => by simpa using hi e.symm
        simp [Function.update_of_ne hne]

/-- A thread that is alone gets to the first call that needs the transposed matrix of operator `i`. -/
theorem reach_alone (k : ι) (i : ℕ) (us : List (OpUse K)) (s : OpSystem ι K) (hv : s.shared.Valid)
    (hu : (s.threads k).uses = us) (hpc : (s.threads k).pc = .check) (hw : WillTranspose (s.threads k) i) :
    ∃ n t u vs, s.run debug (List.replicate n k) = .ok t ∧ t.shared.Valid ∧ (t.threads k).uses = u :: vs ∧
      u.op = i ∧ u.tr = true ∧ (t.threads k).pc = .check ∧ (∀ l, l ≠ k → t.threads l = s.threads l) ∧
      (∀ p, p < s.shared.heap.length → t.shared.heap[p]? = s.shared.heap[p]?) ∧
      t.shared.ops i = s.shared.ops i := by
  induction us generalizing s with
  | nil =>
    obtain ⟨u, hm, -⟩ := hw
    rw [hu] at hm
    cases hm
  | cons u us ih =>
    by_cases hc : u.op = i ∧ u.tr = true
    · exact ⟨0, s, u, us, rfl, hv, hu, hc.1, hc.2, hpc, fun _ _ => rfl, fun _ _ => rfl, rfl⟩
    · obtain ⟨n, t, h1, h2, h3, h4, h5, h6, h7⟩ := call_alone (debug := debug) s k u us hv hu hpc
      have hw' : WillTranspose (t.threads k) i := by
        obtain ⟨v, hm, hv⟩ := hw
        rw [hu, List.mem_cons] at hm
        rcases hm with rfl | hm
        · exact absurd hv hc
        · exact ⟨v, by rw [h3]; exact hm, hv⟩
      obtain ⟨m, t', v, vs, g1, g2, g3, g4, g5, g6, g7, g8, g9⟩ := ih t h2 h3 h4 hw'
      have len : s.shared.heap.length ≤ t.shared.heap.length := by
        by_contra hlt
        have hlt := not_le.1 hlt
        have := h6 _ hlt
        rw [List.getElem?_eq_none le_rfl, List.getElem?_eq_getElem hlt] at this
        cases this
      refine ⟨n + m, t', v, vs, ?_, g2, g3, g4, g5, g6, fun l hl => (g7 l hl).trans (h5 l hl),
        fun p hp => (g8 p (hp.trans_le len)).trans (h6 p hp), g9.trans (h7 i ?_)⟩
      · rw [List.replicate_add, OpSystem.run_append, h1]
        exact g1
      · intro e
        by_contra ht
        exact hc ⟨e, by simpa using ht⟩

/-- Two threads get to the first calls that need the transposed matrix of operator `i`. -/
theorem reach_both (k l : ι) (hkl : k ≠ l) (i : ℕ) (s : OpSystem ι K) (hb : Beginning s)
    (hk : WillTranspose (s.threads k) i) (hl : WillTranspose (s.threads l) i) :
    ∃ sched t u us v vs, s.run debug sched = .ok t ∧ t.shared.Valid ∧
      (t.threads k).uses = u :: us ∧ u.op = i ∧ u.tr = true ∧ (t.threads k).pc = .check ∧
      (t.threads l).uses = v :: vs ∧ v.op = i ∧ v.tr = true ∧ (t.threads l).pc = .check ∧
      (∀ p, p < s.shared.heap.length → t.shared.heap[p]? = s.shared.heap[p]?) ∧
      t.shared.ops i = s.shared.ops i := by
  obtain ⟨n, t, u, us, h1, h2, h3, h4, h5, h6, h7, h8, h9⟩ :=
    reach_alone (debug := debug) k i _ s ⟨hb.matrix, hb.transposed⟩ rfl (hb.pc k) hk
  have e := h7 l hkl.symm
  obtain ⟨m, t', v, vs, g1, g2, g3, g4, g5, g6, g7, g8, g9⟩ :=
    reach_alone (debug := debug) l i _ t h2 rfl (by rw [e]; exact hb.pc l) (by rw [e]; exact hl)
  have len : s.shared.heap.length ≤ t.shared.heap.length := by
    by_contra hlt
    have hlt := not_le.1 hlt
    have := h8 _ hlt
    rw [List.getElem?_eq_none le_rfl, List.getElem?_eq_getElem hlt] at this
    cases this
  refine ⟨List.replicate n k ++ List.replicate m l, t', u, us, v, vs, ?_, g2, ?_, h4, h5, ?_, g3, g4, g5, g6,
    fun p hp => (g8 p (hp.trans_le len)).trans (h8 p hp), g9.trans h9⟩
  · rw [OpSystem.run_append, h1]
    exact g1
  · rw [g7 k hkl, h3]
  · rw [g7 k hkl, h6]

end

end Mfmg
