import Verif.Spec.WorkStream
import Mathlib.Data.List.Range
import Mathlib.Tactic.SplitIfs

set_option autoImplicit false

namespace Mfmg

section

variable {S C R : Type}

/-- If the result of a worker does not depend on the objects it is given, every legal schedule
yields the results copied in item order. -/
theorem wsRun_spec (worker : ℕ → S → C → Outcome (S × C)) (copier : C → R → R) (n : ℕ)
    (P : S → Prop) (Q : C → Prop) (res : ℕ → C)
    (hres : ∀ i s c, i < n → P s → Q c → ∃ s', P s' ∧ worker i s c = .ok (s', res i))
    (hQr : ∀ i, i < n → Q (res i))
    (es : List WSEvent) (next : ℕ) (pending : ℕ → Option ℕ) (worked : ℕ → Bool)
    (hleg : Legal n es next pending worked) (hlt : ∀ c i, pending c = some i → i < n)
    (st : WS S C R) (hP : ∀ s, P (st.scratch s)) (hQ : ∀ c, Q (st.copies c))
    (hpend : ∀ c i, pending c = some i → st.copies c = res i) :
    ∃ st', wsRun worker copier es st = .ok st' ∧ next ≤ n ∧
      st'.out = (List.range' next (n - next)).foldl (fun r i => copier (res i) r) st.out := by
  induction es generalizing next pending worked st with
  | nil =>
    simp only [Legal] at hleg
    subst hleg
    exact ⟨st, rfl, le_rfl, by simp⟩
  | cons e es ih =>
    cases e with
    | work i s c =>
      obtain ⟨hi, _, hc, hleg⟩ := hleg
      obtain ⟨s', hPs, hs'⟩ := hres i (st.scratch s) (st.copies c) hi (hP s) (hQ c)
      have h1 : ∀ d j, Function.update pending c (some i) d = some j → j < n := by
        intro d j hd
        by_cases h : d = c
        · subst h; simp at hd; omega
        · rw [Function.update_of_ne h] at hd; exact hlt d j hd
      obtain ⟨st', hst', hle, hout⟩ := ih next _ _ hleg h1
        ⟨Function.update st.scratch s s', Function.update st.copies c (res i), st.out⟩ (by
          intro t
          by_cases h : t = s
          · subst h; simpa using hPs
          · simpa only [Function.update_of_ne h] using hP t) (by
          intro t
          by_cases h : t = c
          · subst h; simpa using hQr i hi
          · simpa only [Function.update_of_ne h] using hQ t) (by
          intro d j hd
          by_cases h : d = c
          · subst h; simp at hd; simp [hd]
          · rw [Function.update_of_ne h] at hd
            simp only [Function.update_of_ne h]
            exact hpend d j hd)
      refine ⟨st', ?_, hle, hout⟩
      simp only [wsRun, wsStep, hs', Outcome.ok_bind, Outcome.pure_eq]
      exact hst'
    | copy i c =>
      obtain ⟨rfl, hc, hleg⟩ := hleg
      have hin := hlt c i hc
      obtain ⟨st', hst', hle, hout⟩ := ih (i + 1) _ _ hleg
        (by
          intro d j hd
          by_cases h : d = c
          · subst h; simp at hd
          · rw [Function.update_of_ne h] at hd; exact hlt d j hd)
        ⟨st.scratch, st.copies, copier (st.copies c) st.out⟩ hP hQ (by
          intro d j hd
          by_cases h : d = c
          · subst h; simp at hd
          · rw [Function.update_of_ne h] at hd; exact hpend d j hd)
      refine ⟨st', by simpa [wsRun, wsStep] using hst', by omega, ?_⟩
      rw [hout, hpend c i hc, show n - i = (n - (i + 1)) + 1 by omega, List.range'_succ]
      simp

theorem wsRun_schedule (worker : ℕ → S → C → Outcome (S × C)) (copier : C → R → R) (n : ℕ)
    (P : S → Prop) (Q : C → Prop) (res : ℕ → C)
    (hres : ∀ i s c, i < n → P s → Q c → ∃ s', P s' ∧ worker i s c = .ok (s', res i))
    (hQr : ∀ i, i < n → Q (res i))
    (es : List WSEvent) (hleg : LegalSchedule n es) (st : WS S C R) (hP : ∀ s, P (st.scratch s))
    (hQ : ∀ c, Q (st.copies c)) :
    ∃ st', wsRun worker copier es st = .ok st' ∧
      st'.out = (List.range n).foldl (fun r i => copier (res i) r) st.out := by
  obtain ⟨st', h, _, hout⟩ := wsRun_spec worker copier n P Q res hres hQr es 0 _ _ hleg (by simp) st hP hQ
    (by simp)
  exact ⟨st', h, by rw [hout, List.range_eq_range']; simp⟩

/-- In a run that succeeds, every item has been worked on successfully, with a scratch object
satisfying the invariant. -/
theorem wsRun_ok_work (worker : ℕ → S → C → Outcome (S × C)) (copier : C → R → R) (n : ℕ)
    (P : S → Prop) (hPw : ∀ i s c s' c', P s → worker i s c = .ok (s', c') → P s')
    (es : List WSEvent) (next : ℕ) (pending : ℕ → Option ℕ) (worked : ℕ → Bool)
    (hleg : Legal n es next pending worked) (st st' : WS S C R) (hP : ∀ s, P (st.scratch s))
    (hrun : wsRun worker copier es st = .ok st') (i : ℕ) (hi : next ≤ i) (hin : i < n) :
    (∃ c, pending c = some i) ∨ ∃ s c s' c', P s ∧ worker i s c = .ok (s', c') := by
  induction es generalizing next pending worked st with
  | nil => simp only [Legal] at hleg; omega
  | cons e es ih =>
    cases e with
    | work j s c =>
      obtain ⟨hj, _, hc, hleg⟩ := hleg
      simp only [wsRun, wsStep] at hrun
      rw [Outcome.bind_eq_ok] at hrun
      obtain ⟨st1, h1, h2⟩ := hrun
      rw [Outcome.bind_eq_ok] at h1
      obtain ⟨⟨s', c'⟩, h3, h4⟩ := h1
      simp only [Outcome.pure_eq, Outcome.ok.injEq] at h4
      subst h4
      rcases ih next _ _ hleg _ (by
        intro t
        by_cases h : t = s
        · subst h; simpa using hPw _ _ _ _ _ (hP t) h3
        · simpa only [Function.update_of_ne h] using hP t) h2 hi with ⟨d, hd⟩ | h
      · by_cases hdc : d = c
        · subst hdc
          simp at hd
          subst hd
          exact Or.inr ⟨_, _, _, _, hP s, h3⟩
        · rw [Function.update_of_ne hdc] at hd
          exact Or.inl ⟨d, hd⟩
      · exact Or.inr h
    | copy j c =>
      obtain ⟨rfl, hc, hleg⟩ := hleg
      simp only [wsRun, wsStep, Outcome.pure_eq, Outcome.ok_bind] at hrun
      by_cases hij : i = j
      · exact Or.inl ⟨c, by rw [hij]; exact hc⟩
      · rcases ih (j + 1) _ _ hleg ⟨st.scratch, st.copies, copier (st.copies c) st.out⟩ hP hrun
          (by omega) with ⟨d, hd⟩ | h
        · by_cases hdc : d = c
          · subst hdc; simp at hd
          · rw [Function.update_of_ne hdc] at hd
            exact Or.inl ⟨d, hd⟩
        · exact Or.inr h

theorem wsRun_append (worker : ℕ → S → C → Outcome (S × C)) (copier : C → R → R)
    (es es' : List WSEvent) (st : WS S C R) :
    wsRun worker copier (es ++ es') st = (wsRun worker copier es st >>= wsRun worker copier es') := by
  induction es generalizing st with
  | nil => simp [wsRun]
  | cons e es ih =>
    simp only [List.cons_append, wsRun]
    cases h : wsStep worker copier st e <;> simp [ih]

theorem Legal_sequential (n k : ℕ) (hk : k ≤ n) (pending : ℕ → Option ℕ) (worked : ℕ → Bool)
    (hp : pending 0 = none) (hw : ∀ i, k ≤ i → worked i = false) :
    Legal n ((List.range' k (n - k)).flatMap (fun i => [.work i 0 0, .copy i 0])) k pending
      worked := by
  obtain ⟨m, rfl⟩ : ∃ m, n = k + m := ⟨n - k, by omega⟩
  rw [Nat.add_sub_cancel_left]
  clear hk
  induction m generalizing k pending worked with
  | zero => simp [Legal]
  | succ m ih =>
    rw [List.range'_succ, List.flatMap_cons]
    simp only [List.cons_append, List.nil_append, Legal]
    refine ⟨by omega, hw k le_rfl, hp, trivial, by simp, ?_⟩
    have := ih (k + 1) (Function.update (Function.update pending 0 (some k)) 0 none)
      (Function.update worked k true) (by simp)
      (fun i hi => by rw [Function.update_of_ne (by omega)]; exact hw i (by omega))
    rw [show k + (m + 1) = k + 1 + m by omega]
    exact this

/-- The sequential schedule is legal. -/
theorem wsSequential_legal (n : ℕ) : LegalSchedule n (wsSequential n) := by
  have := Legal_sequential n 0 (Nat.zero_le _) (fun _ => none) (fun _ => false) rfl (fun _ _ => rfl)
  rwa [Nat.sub_zero, ← List.range_eq_range'] at this

end

end Mfmg
