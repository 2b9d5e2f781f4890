import Verif.Spec.LocalEig
import Mathlib.Data.List.Basic
import Mathlib.Data.List.Forall2
import Mathlib.Algebra.Order.Ring.Defs
import Mathlib.Algebra.Order.Ring.Rat
import Mathlib.Algebra.BigOperators.Ring.List
import Mathlib.Data.Rat.Defs
import Mathlib.Tactic.Ring
import Mathlib.Tactic.NormNum
import Mathlib.Tactic.Linarith
import Mathlib.Tactic.FieldSimp
import Mathlib.Tactic.LinearCombination
import Mathlib.Tactic.Tauto

/-!
# Local eigenvalue computations (C39, C40, C42, C57, C58, C59)
-/

set_option autoImplicit false

namespace Mfmg

/-! ## C39 -/

section

variable {K : Type} [Field K]

theorem setInitialGuess_spec (constrained : ℕ → Bool) (draw : ℕ → K) : ∀ (left i used : ℕ),
    (setInitialGuess constrained draw left i used).length = left ∧
    ∀ k, k < left → (constrained (i + k) = true →
        (setInitialGuess constrained draw left i used)[k]? = some 0) ∧
      (constrained (i + k) = false →
        ∃ m, (setInitialGuess constrained draw left i used)[k]? = some (draw m)) := by
  intro left
  induction left with
  | zero => intro i used; exact ⟨rfl, fun k hk => absurd hk (by omega)⟩
  | succ left ih =>
    intro i used
    rw [setInitialGuess]
    split_ifs with hc
    · refine ⟨by simp [(ih (i + 1) used).1], ?_⟩
      intro k hk
      cases k with
      | zero => exact ⟨fun _ => rfl, fun h => by rw [Nat.add_zero, hc] at h; cases h⟩
      | succ k =>
        have := (ih (i + 1) used).2 k (by omega)
        rw [show i + 1 + k = i + (k + 1) by omega] at this
        simpa using this
    · refine ⟨by simp [(ih (i + 1) (used + 1)).1], ?_⟩
      intro k hk
      cases k with
      | zero => exact ⟨fun h => absurd h hc, fun _ => ⟨used, rfl⟩⟩
      | succ k =>
        have := (ih (i + 1) (used + 1)).2 k (by omega)
        rw [show i + 1 + k = i + (k + 1) by omega] at this
        simpa using this

/-- **C39**, the random guess: for every constraint pattern and every stream of random numbers
different from zero, the guess has the right length and vanishes exactly on the constrained dofs. -/
theorem C39_guess (constrained : ℕ → Bool) (draw : ℕ → K) (hd : ∀ m, draw m ≠ 0) (n : ℕ) :
    (setInitialGuess constrained draw n 0 0).length = n ∧
    ∀ i, i < n → ∃ x, (setInitialGuess constrained draw n 0 0)[i]? = some x ∧
      (x = 0 ↔ constrained i = true) := by
  obtain ⟨h1, h2⟩ := setInitialGuess_spec constrained draw n 0 0
  refine ⟨h1, ?_⟩
  intro i hi
  obtain ⟨a, b⟩ := h2 i hi
  rw [Nat.zero_add] at a b
  cases hc : constrained i with
  | true => exact ⟨0, a hc, by simp⟩
  | false =>
    obtain ⟨m, hm⟩ := b hc
    exact ⟨draw m, hm, by simp [hd m]⟩

/-- **C39**: on constrained dofs the guess is zero whatever the random numbers are. -/
theorem C39_guess_constrained (constrained : ℕ → Bool) (draw : ℕ → K) (n i : ℕ) (hi : i < n)
    (hc : constrained i = true) : (setInitialGuess constrained draw n 0 0)[i]? = some 0 := by
  have := ((setInitialGuess_spec constrained draw n 0 0).2 i hi).1
  rw [Nat.zero_add] at this
  exact this hc

/-- **C39**, Lanczos: the perturbation by random numbers that are not negative keeps zeros, and only
those, zero. -/
theorem C39_noise [LinearOrder K] [IsStrictOrderedRing K] (draw : ℕ → K) (hd : ∀ m, 0 ≤ draw m)
    (v : List K) :
    (lanczosNoise draw v).length = v.length ∧
    ∀ (i : ℕ) (x : K), v[i]? = some x → ∃ y, (lanczosNoise draw v)[i]? = some y ∧ (y = 0 ↔ x = 0) := by
  unfold lanczosNoise
  refine ⟨by simp, ?_⟩
  intro i x hx
  refine ⟨(1 + draw i) * x, by simp [hx], ?_⟩
  have : (1 + draw i) ≠ 0 := by
    have := hd i
    have h1 : (0 : K) < 1 := zero_lt_one
    exact ne_of_gt (by linarith)
  rw [mul_eq_zero]
  exact ⟨fun h => h.resolve_left this, Or.inr⟩

theorem mapOutcome_ok {α β : Type} (f : α → Outcome β) (P : α → β → Prop) :
    ∀ l : List α, (∀ a ∈ l, ∃ b, f a = .ok b ∧ P a b) →
      ∃ r, mapOutcome f l = .ok r ∧ List.Forall₂ P l r := by
  intro l
  induction l with
  | nil => intro _; exact ⟨[], rfl, .nil⟩
  | cons a l ih =>
    intro h
    obtain ⟨b, hb, hP⟩ := h a (by simp)
    obtain ⟨r, hr, hF⟩ := ih (fun a' ha' => h a' (by simp [ha']))
    exact ⟨b :: r, by simp [mapOutcome, hb, hr], .cons hP hF⟩

variable [DecidableEq K]

/-- The rule for one entry: zero where the guess is zero, otherwise the stored value unless that is
zero, otherwise the guess. -/
def mergedValue (g x : K) : K := if g = 0 then 0 else if x = 0 then g else x

theorem mergeEntry_ok (g : K) (i : ℕ) (v : List K) (hi : i < v.length) :
    ∃ v', mergeEntry g i v = .ok v' ∧ v'.length = v.length ∧
      ∀ (k : ℕ) (x : K), v[k]? = some x →
        v'[k]? = some (if k = i then mergedValue g x else x) := by
  unfold mergeEntry
  simp only [Outcome.get, List.getElem?_eq_getElem hi, Outcome.ok_bind]
  unfold mergedValue
  by_cases hg : g = 0
  · refine ⟨v.set i 0, by rw [if_pos hg], by simp, ?_⟩
    intro k x hk
    rw [List.getElem?_set]
    by_cases hki : i = k
    · rw [if_pos hki, if_pos hi, if_pos hki.symm, if_pos hg]
    · rw [if_neg hki, if_neg (fun h => hki h.symm), hk]
  · by_cases hx : v[i] = 0
    · refine ⟨v.set i g, by rw [if_neg hg, if_pos hx], by simp, ?_⟩
      intro k x hk
      rw [List.getElem?_set]
      by_cases hki : i = k
      · subst hki
        rw [List.getElem?_eq_getElem hi] at hk
        have hxx : x = 0 := by rw [← Option.some.inj hk]; exact hx
        rw [if_pos rfl, if_pos hi, if_pos rfl, if_neg hg, if_pos hxx]
      · rw [if_neg hki, if_neg (fun h => hki h.symm), hk]
    · refine ⟨v, by rw [if_neg hg, if_neg hx], rfl, ?_⟩
      intro k x hk
      by_cases hki : k = i
      · subst hki
        rw [List.getElem?_eq_getElem hi] at hk
        have hxx : x ≠ 0 := by rw [← Option.some.inj hk]; exact hx
        rw [if_pos rfl, if_neg hg, if_neg hxx, List.getElem?_eq_getElem hi, hk]
      · rw [if_neg hki, hk]

theorem mergeLoop_ok : ∀ (guess : List K) (i : ℕ) (vs : List (List K)),
    (∀ v ∈ vs, v.length = i + guess.length) →
    ∃ vs', mergeLoop guess i vs = .ok vs' ∧ List.Forall₂ (fun v v' => v'.length = v.length ∧
      ∀ (k : ℕ) (x : K), v[k]? = some x → (k < i → v'[k]? = some x) ∧
        ∀ g, i ≤ k → guess[k - i]? = some g → v'[k]? = some (mergedValue g x)) vs vs' := by
  intro guess
  induction guess with
  | nil =>
    intro i vs hvs
    refine ⟨vs, rfl, ?_⟩
    rw [List.forall₂_same]
    intro v hv
    exact ⟨rfl, fun k x hk => ⟨fun _ => hk, fun g _ h => by simp at h⟩⟩
  | cons g guess ih =>
    intro i vs hvs
    obtain ⟨ws, hws, hF⟩ := mapOutcome_ok (mergeEntry g i) (fun v v' => v'.length = v.length ∧
        ∀ (k : ℕ) (x : K), v[k]? = some x → v'[k]? = some (if k = i then mergedValue g x else x)) vs
      (fun v hv => mergeEntry_ok g i v (by rw [hvs v hv, List.length_cons]; omega))
    have hlen : ∀ w ∈ ws, w.length = (i + 1) + guess.length := by
      intro w hw
      obtain ⟨v, hv, hvw⟩ : ∃ v ∈ vs, w.length = v.length := by
        clear hws ih
        induction hF with
        | nil => simp at hw
        | cons h1 _ ih =>
          rcases List.mem_cons.1 hw with rfl | hw
          · exact ⟨_, by simp, h1.1⟩
          · obtain ⟨v, hv, h⟩ := ih (fun v hv => hvs v (by simp [hv])) hw
            exact ⟨v, by simp [hv], h⟩
      rw [hvw, hvs v hv, List.length_cons]
      omega
    obtain ⟨vs', hvs', hF'⟩ := ih (i + 1) ws hlen
    refine ⟨vs', ?_, ?_⟩
    · rw [mergeLoop, hws, Outcome.ok_bind, hvs']
    · clear hws hvs' hlen ih hvs
      induction hF generalizing vs' with
      | nil => cases hF'; exact .nil
      | cons h1 _ ih =>
        cases hF' with
        | cons h2 hF'' =>
          refine .cons ⟨h2.1.trans h1.1, ?_⟩ (ih _ hF'')
          intro k x hk
          have hw := h1.2 k x hk
          refine ⟨?_, ?_⟩
          · intro hki
            rw [if_neg (by omega)] at hw
            exact (h2.2 k x hw).1 (by omega)
          · intro g' hik hg'
            by_cases hki : k = i
            · subst hki
              rw [Nat.sub_self, List.getElem?_cons_zero, Option.some.injEq] at hg'
              subst hg'
              rw [if_pos rfl] at hw
              exact (h2.2 k _ hw).1 (by omega)
            · rw [if_neg hki] at hw
              rw [show k - i = (k - (i + 1)) + 1 by omega, List.getElem?_cons_succ] at hg'
              exact (h2.2 k _ hw).2 g' (by omega) hg'

/-- **C39**, LOBPCG: if vectors of the right size are stored, at least as many as eigenvectors are
wanted, every start vector is zero exactly where the user's guess is, and keeps the stored value
wherever both are different from zero. -/
theorem C39_lobpcg (n : ℕ) (guess : List K) (stored : List (List K)) (hne : stored ≠ [])
    (hsize : ∀ v ∈ stored, v.length = guess.length) (hn : n ≤ stored.length) :
    ∃ starts, lobpcgGuess n guess stored = .ok starts ∧ starts.length = n ∧
      ∀ (j : ℕ) (v : List K), j < n → stored[j]? = some v →
        ∃ s, starts[j]? = some s ∧ s.length = guess.length ∧
          ∀ (i : ℕ) (g x : K), guess[i]? = some g → v[i]? = some x →
            ∃ y, s[i]? = some y ∧ (y = 0 ↔ g = 0) ∧ (g ≠ 0 → x ≠ 0 → y = x) := by
  obtain ⟨v₀, rest, rfl⟩ := List.exists_cons_of_ne_nil hne
  unfold lobpcgGuess
  simp only
  rw [if_neg (by rw [not_not]; exact hsize v₀ (by simp))]
  generalize hst : v₀ :: rest = stored at *
  obtain ⟨copies, hc, hF⟩ := mapOutcome_ok
    (fun i => Outcome.get stored i "lobpcg_vectors[i]") (fun i v => stored[i]? = some v)
    (List.range n) (by
      intro i hi
      have hi := List.mem_range.1 hi
      refine ⟨stored[i], ?_, List.getElem?_eq_getElem (by omega)⟩
      simp only [Outcome.get, List.getElem?_eq_getElem (show i < stored.length by omega)])
  have hcl : copies.length = n := by rw [← hF.length_eq, List.length_range]
  have hcj : ∀ j, j < n → copies[j]? = stored[j]? := by
    intro j hj
    have h1 : j < (List.range n).length := by simpa using hj
    have := hF.get h1 (by omega)
    rw [List.getElem?_eq_getElem (by omega)]
    simp only [List.get_eq_getElem, List.getElem_range] at this
    exact this.symm
  obtain ⟨starts, hs, hF'⟩ := mergeLoop_ok guess 0 copies (by
    intro v hv
    obtain ⟨j, hj, rfl⟩ := List.getElem_of_mem hv
    have := hcj j (by omega)
    rw [List.getElem?_eq_getElem hj] at this
    rw [Nat.zero_add]
    exact hsize _ (List.mem_of_getElem? this.symm))
  refine ⟨starts, by rw [hc, Outcome.ok_bind, hs], by rw [← hF'.length_eq, hcl], ?_⟩
  intro j v hj hv
  have hj1 : j < copies.length := by omega
  have hj2 : j < starts.length := by rw [← hF'.length_eq]; omega
  obtain ⟨hl, hk⟩ := hF'.get hj1 hj2
  simp only [List.get_eq_getElem] at hl hk
  have hcv : copies[j] = v := by
    have := hcj j hj
    rw [List.getElem?_eq_getElem hj1, hv] at this
    exact Option.some.inj this
  rw [hcv] at hl hk
  refine ⟨starts[j], List.getElem?_eq_getElem hj2, ?_, ?_⟩
  · rw [hl]; exact hsize v (List.mem_of_getElem? hv)
  · intro i g x hg hx
    refine ⟨mergedValue g x, (hk i x hx).2 g (Nat.zero_le _) (by rwa [Nat.sub_zero]), ?_, ?_⟩
    · unfold mergedValue
      split_ifs with h1 h2
      · simp [h1]
      · simp
      · simp [h1, h2]
    · intro h1 h2
      unfold mergedValue
      rw [if_neg h1, if_neg h2]

/-- **C39**: without stored vectors, or with stored vectors of another size, LOBPCG starts from the
user's guess. -/
theorem C39_lobpcg_fallback (n : ℕ) (guess : List K) (stored : List (List K))
    (h : stored = [] ∨ ∃ v rest, stored = v :: rest ∧ v.length ≠ guess.length) :
    lobpcgGuess n guess stored = .ok [guess] := by
  rcases h with rfl | ⟨v, rest, rfl, h⟩
  · rfl
  · unfold lobpcgGuess
    simp only
    rw [if_pos h]

/-- **C39**: with fewer stored vectors than wanted the code reads past the end. -/
theorem C39_lobpcg_too_few (n : ℕ) (guess v : List K) (rest : List (List K))
    (hv : v.length = guess.length) (hn : rest.length + 1 < n) :
    ∃ w, lobpcgGuess n guess (v :: rest) = .ub w := by
  unfold lobpcgGuess
  simp only
  rw [if_neg (by simp [hv])]
  have : ∀ (l : List ℕ) (m : ℕ), (v :: rest).length ≤ m → m ∈ l →
      mapOutcome (fun i => Outcome.get (v :: rest) i "lobpcg_vectors[i]") l
        = .ub "lobpcg_vectors[i]" := by
    intro l m hm
    induction l with
    | nil => intro h; simp at h
    | cons a l ih =>
      intro h
      rw [mapOutcome]
      by_cases ha : a < (v :: rest).length
      · have hma : m ∈ l := by
          rcases List.mem_cons.1 h with rfl | h
          · omega
          · exact h
        simp only [Outcome.get, List.getElem?_eq_getElem ha, Outcome.ok_bind] at ih ⊢
        rw [ih hma]
        rfl
      · simp only [Outcome.get, List.getElem?_eq_none (show (v :: rest).length ≤ a by omega)]
        rfl
  refine ⟨"lobpcg_vectors[i]", ?_⟩
  rw [this (List.range n) (rest.length + 1) (by simp) (List.mem_range.2 hn), Outcome.ub_bind]

end

example : lobpcgGuess 2 [0, 3, 5] [[7, 8, 0], [1, 0, (2 : ℚ)], [1, 1, 1]]
    = .ok [[0, 8, 5], [0, 3, 2]] := by decide +kernel

example : setInitialGuess (fun i => i == 1) (fun m => (m + 1 : ℚ) / 10) 3 0 0 = [1 / 10, 0, 2 / 10] := by
  decide +kernel

/-! ## C42 -/

section

variable {K : Type} [Field K]

theorem extractLoop_ok (evals : List K) (evecs : List (List K)) (hlen : evals.length = evecs.length) :
    ∀ (left i : ℕ), i + left = evals.length →
      extractLoop evecs (evals.drop i) i (evals.take i ++ List.replicate left 0,
        evecs.take i ++ List.replicate left []) = .ok (evals, evecs) := by
  intro left
  induction left with
  | zero =>
    intro i hi
    rw [List.drop_eq_nil_of_le (by omega), extractLoop, List.take_of_length_le (by omega),
      List.take_of_length_le (by omega)]
    simp
  | succ left ih =>
    intro i hi
    have h1 : i < evals.length := by omega
    have h2 : i < evecs.length := by omega
    rw [List.drop_eq_getElem_cons h1, extractLoop]
    rw [if_neg (by simp; omega)]
    simp only [Outcome.get, List.getElem?_eq_getElem h2, Outcome.ok_bind]
    have e1 : (evals.take i ++ List.replicate (left + 1) 0).set i evals[i] =
        evals.take (i + 1) ++ List.replicate left 0 := by
      rw [List.set_append_right _ _ (by simp), List.length_take, Nat.min_eq_left (by omega),
        Nat.sub_self, List.replicate_succ, List.set_cons_zero, List.take_succ_eq_append_getElem h1, List.append_assoc]
      rfl
    have e2 : (evecs.take i ++ List.replicate (left + 1) []).set i evecs[i] =
        evecs.take (i + 1) ++ List.replicate left [] := by
      rw [List.set_append_right _ _ (by simp), List.length_take, Nat.min_eq_left (by omega),
        Nat.sub_self, List.replicate_succ, List.set_cons_zero, List.take_succ_eq_append_getElem h2, List.append_assoc]
      rfl
    rw [e1, e2]
    exact ih (i + 1) (by omega)

/-- **C42**, what holds: if Anasazi reports at most as many pairs as requested, as many values as
vectors, the result is exactly the reported pairs.  Missing: more pairs than requested, see
`C42_extraction_violated`. -/
theorem C42_extraction_partial (requested : ℕ) (evals : List K) (evecs : List (List K))
    (hlen : evals.length = evecs.length) (hreq : evals.length ≤ requested) :
    anasaziExtract requested evals.length evals evecs = .ok (evals, evecs) := by
  unfold anasaziExtract
  simp only
  rw [Nat.min_eq_left hreq]
  have := extractLoop_ok evals evecs hlen evals.length 0 (by omega)
  simpa using this

omit [Field K] in
theorem extractLoop_ub (evecs : List (List K)) : ∀ (rest : List K) (i : ℕ)
    (r : List K × List (List K)), r.1.length < i + rest.length → i + rest.length ≤ evecs.length →
    i ≤ r.1.length → extractLoop evecs rest i r = .ub "evals[i]" := by
  intro rest
  induction rest with
  | nil => intro i r h _ h2; simp at h; omega
  | cons l rest ih =>
    intro i r h h1 h2
    obtain ⟨es, vs⟩ := r
    simp only [List.length_cons] at h h1 h2
    rw [extractLoop]
    by_cases hi : es.length ≤ i
    · rw [if_pos hi]
    · rw [if_neg hi]
      simp only [Outcome.get, List.getElem?_eq_getElem (show i < evecs.length by omega),
        Outcome.ok_bind]
      exact ih (i + 1) _ (by simp; omega) (by omega) (by simp; omega)

/-- **C42 is violated**: whenever Anasazi reports more pairs than requested, the code writes past the
end of its result vectors. -/
theorem C42_extraction_violated (requested : ℕ) (evals : List K) (evecs : List (List K))
    (hlen : evals.length = evecs.length) (hreq : requested < evals.length) :
    anasaziExtract requested evals.length evals evecs = .ub "evals[i]" := by
  unfold anasaziExtract
  exact extractLoop_ub evecs evals 0 _ (by simp; omega) (by omega) (by simp)

end

example : anasaziExtract 3 2 [1, (2 : ℚ)] [[1, 0], [0, 1]] = .ok ([1, 2], [[1, 0], [0, 1]]) :=
  C42_extraction_partial 3 _ _ rfl (by decide)

example : anasaziExtract 1 2 [1, (2 : ℚ)] [[1, 0], [0, 1]] = .ub "evals[i]" :=
  C42_extraction_violated 1 _ _ rfl (by decide)

/-! ## C40 -/

section

variable {K : Type} [Field K]

theorem foldl_setDiag_shift (avg : K) (A : ℕ → ℕ → K) : ∀ (m : ℕ) (r c : ℕ),
    ((List.range m).foldl (fun M i => setDiag M i (M i i + avg)) A) r c
      = if r = c ∧ r < m then A r c + avg else A r c := by
  intro m
  induction m with
  | zero => intro r c; simp
  | succ m ih =>
    intro r c
    rw [List.range_succ, List.foldl_append, List.foldl_cons, List.foldl_nil, setDiag]
    by_cases h : r = m ∧ c = m
    · obtain ⟨rfl, rfl⟩ := h
      rw [if_pos ⟨rfl, rfl⟩, ih, if_neg (by omega), if_pos ⟨rfl, by omega⟩]
    · rw [if_neg h, ih]
      by_cases h2 : r = c ∧ r < m
      · rw [if_pos h2, if_pos ⟨h2.1, by omega⟩]
      · rw [if_neg h2, if_neg (by omega)]

omit [Field K] in
theorem foldl_setDiag_const (x : K) : ∀ (l : List ℕ) (M : ℕ → ℕ → K) (r c : ℕ),
    (l.foldl (fun M i => setDiag M i x) M) r c = if r = c ∧ r ∈ l then x else M r c := by
  intro l
  induction l with
  | nil => intro M r c; simp
  | cons a l ih =>
    intro M r c
    rw [List.foldl_cons, ih]
    by_cases h : r = c ∧ r ∈ l
    · rw [if_pos h, if_pos ⟨h.1, by simp [h.2]⟩]
    · rw [if_neg h, setDiag]
      by_cases h2 : r = a ∧ c = a
      · rw [if_pos h2, if_pos ⟨h2.1.trans h2.2.symm, by simp [h2.1]⟩]
      · rw [if_neg h2, if_neg]
        rintro ⟨rfl, h3⟩
        rcases List.mem_cons.1 h3 with rfl | h3
        · exact h2 ⟨rfl, rfl⟩
        · exact h ⟨rfl, h3⟩

/-- **C40**, the matrix handed to the eigensolver: the diagonal is raised by its average, and is 200
on the constrained dofs; nothing else is touched. -/
theorem C40_shifted (size : ℕ) (A : ℕ → ℕ → K) (constrained : List ℕ) (i j : ℕ) (hi : i < size) :
    shiftedMatrix size A constrained i j
      = if i = j then
          if i ∈ constrained then 200
          else A i i + ((List.range size).map (fun k => A k k)).sum / (size : K)
        else A i j := by
  unfold shiftedMatrix
  rw [foldl_setDiag_const, foldl_setDiag_shift]
  by_cases h : i = j
  · subst h
    rw [if_pos rfl]
    by_cases hc : i ∈ constrained
    · rw [if_pos ⟨rfl, hc⟩, if_pos hc]
    · rw [if_neg (fun h => hc h.2), if_neg hc, if_pos ⟨rfl, hi⟩]
      rfl
  · rw [if_neg (fun h' => h h'.1), if_neg (fun h' => h h'.1), if_neg h]

theorem sum_map_add_single (f g : ℕ → K) (i : ℕ) (d : K) : ∀ (m : ℕ),
    (∀ j, f j = g j + if j = i then d else 0) →
    ((List.range m).map f).sum = ((List.range m).map g).sum + if i < m then d else 0 := by
  intro m h
  induction m with
  | zero => simp
  | succ m ih =>
    rw [List.range_succ, List.map_append, List.map_append, List.sum_append, List.sum_append, ih]
    simp only [List.map_cons, List.map_nil, List.sum_cons, List.sum_nil, add_zero]
    rw [h m]
    by_cases h1 : i < m
    · rw [if_pos h1, if_neg (by omega), if_pos (by omega)]; ring
    · by_cases h2 : m = i
      · rw [if_neg h1, if_pos h2, if_pos (by omega)]; ring
      · rw [if_neg h1, if_neg h2, if_neg (by omega)]; ring

/-- Row `i` of the shifted matrix. -/
theorem matVec_shifted (size : ℕ) (A : ℕ → ℕ → K) (constrained : List ℕ) (v : List K) (i : ℕ)
    (hi : i < size) :
    matVec size (shiftedMatrix size A constrained) v i
      = matVec size A v i + (if i ∈ constrained then 200 - A i i else averageDiagonal size A)
          * v.getD i 0 := by
  unfold matVec
  rw [sum_map_add_single _ (fun j => A i j * v.getD j 0) i
    ((if i ∈ constrained then 200 - A i i else averageDiagonal size A) * v.getD i 0), if_pos hi]
  intro j
  rw [C40_shifted _ _ _ _ _ hi]
  by_cases h : i = j
  · subst h
    rw [if_pos rfl, if_pos rfl]
    by_cases hc : i ∈ constrained
    · rw [if_pos hc, if_pos hc]; ring
    · rw [if_neg hc, if_neg hc]
      show _ = A i i * _ + (((List.range size).map (fun k => A k k)).sum / (size : K)) * _
      ring
  · rw [if_neg h, if_neg (fun h' => h h'.symm)]; ring

/-- The names of the available eigensolvers. -/
def eigensolverNames : List (List Char) :=
  [chars! "arpack", chars! "lanczos", chars! "anasazi", chars! "lapack"]

theorem takeIterative_pair (debug : Bool) (n size : ℕ) (M : ℕ → ℕ → K)
    (solve : (ℕ → ℕ → K) → List K × List (List K)) (hS : EigenContract size solve)
    (es : List K) (vs : List (List K)) (init : List K)
    (h : takeIterative debug n (solve M) init = .ok (es, vs)) (k : ℕ) (l : K) (v : List K)
    (hl : es[k]? = some l) (hv : vs[k]? = some v) : IsEigenpair size M l v := by
  unfold takeIterative at h
  rw [Outcome.bind_eq_ok] at h
  obtain ⟨_, _, h⟩ := h
  rw [Outcome.bind_eq_ok] at h
  obtain ⟨es', hc, h⟩ := h
  simp only [Outcome.ok.injEq, Prod.mk.injEq] at h
  obtain ⟨rfl, rfl⟩ := h
  unfold copyInto at hc
  split_ifs at hc
  simp only [Outcome.ok.injEq] at hc
  subst hc
  obtain ⟨hlen, hp⟩ := hS M
  have hk : k < (solve M).2.length := (List.getElem?_eq_some_iff.1 hv).1
  rw [List.getElem?_append_left (by omega)] at hl
  exact hp k l v hl hv

/-- Every pair returned belongs to the shifted matrix. -/
theorem localMatrixBased_pair (debug : Bool) (type : Option (List Char))
    (htype : type.getD (chars! "arpack") ∈ eigensolverNames) (n size : ℕ) (A : ℕ → ℕ → K)
    (constrained : List ℕ) (S : EigenSolvers K) (h1 : EigenContract size S.arpack)
    (h2 : EigenContract size S.lanczos) (h3 : EigenContract size S.anasazi)
    (h4 : EigenContract size S.lapack) (es : List K) (vs : List (List K)) (diag : List K)
    (h : localMatrixBased debug type n size A constrained S = .ok (es, vs, diag))
    (k : ℕ) (m : K) (v : List K) (hm : es[k]? = some m) (hv : vs[k]? = some v) :
    IsEigenpair size (shiftedMatrix size A constrained) (m + averageDiagonal size A) v := by
  unfold localMatrixBased at h
  rw [Outcome.bind_eq_ok] at h
  obtain ⟨⟨es', vs'⟩, h, h'⟩ := h
  simp only [Outcome.ok.injEq, Prod.mk.injEq] at h'
  obtain ⟨rfl, rfl, rfl⟩ := h'
  rw [List.getElem?_map] at hm
  obtain ⟨l, hl, rfl⟩ := Option.map_eq_some_iff.1 hm
  rw [sub_add_cancel]
  unfold solveMatrixBased at h
  simp only at h
  by_cases a1 : type.getD (chars! "arpack") = chars! "arpack"
  · rw [if_pos a1, Outcome.ok.injEq] at h
    refine (h1 _).2 k l v ?_ ?_
    · rw [h]; exact hl
    · rw [h]; exact hv
  · rw [if_neg a1] at h
    by_cases a2 : type.getD (chars! "arpack") = chars! "lanczos"
    · rw [if_pos a2] at h
      exact takeIterative_pair debug n size _ S.lanczos h2 _ _ _ h k l v hl hv
    · rw [if_neg a2] at h
      by_cases a3 : type.getD (chars! "arpack") = chars! "anasazi"
      · rw [if_pos a3] at h
        exact takeIterative_pair debug n size _ S.anasazi h3 _ _ _ h k l v hl hv
      · rw [if_neg a3] at h
        by_cases a4 : type.getD (chars! "arpack") = chars! "lapack"
        · rw [if_pos a4] at h
          unfold takeLapack at h
          split_ifs at h
          simp only [Outcome.ok.injEq, Prod.mk.injEq] at h
          obtain ⟨rfl, rfl⟩ := h
          rw [List.getElem?_take] at hl hv
          split_ifs at hl hv
          exact (h4 _).2 k l v hl hv
        · exfalso
          simp only [eigensolverNames, List.mem_cons, List.not_mem_nil, or_false] at htype
          tauto

/-- **C40**: for every eigensolver, matrix and set of constraints, every returned pair satisfies the
eigenvalue equation of the agglomerate matrix itself, unshifted, on every dof without constraint. -/
theorem C40_unconstrained_rows (debug : Bool) (type : Option (List Char))
    (htype : type.getD (chars! "arpack") ∈ eigensolverNames) (n size : ℕ) (A : ℕ → ℕ → K)
    (constrained : List ℕ) (S : EigenSolvers K) (h1 : EigenContract size S.arpack)
    (h2 : EigenContract size S.lanczos) (h3 : EigenContract size S.anasazi)
    (h4 : EigenContract size S.lapack) (es : List K) (vs : List (List K)) (diag : List K)
    (h : localMatrixBased debug type n size A constrained S = .ok (es, vs, diag))
    (k : ℕ) (m : K) (v : List K) (hm : es[k]? = some m) (hv : vs[k]? = some v)
    (i : ℕ) (hi : i < size) (hc : i ∉ constrained) :
    matVec size A v i = m * v.getD i 0 := by
  have := (localMatrixBased_pair debug type htype n size A constrained S h1 h2 h3 h4 es vs diag h
    k m v hm hv).2 i hi
  rw [matVec_shifted _ _ _ _ _ hi, if_neg hc] at this
  linear_combination this

/-- **C40**: if a constrained dof is decoupled from the others in its row, every returned vector
vanishes there, unless its eigenvalue is the one of the shift itself. -/
theorem C40_constrained_rows (debug : Bool) (type : Option (List Char))
    (htype : type.getD (chars! "arpack") ∈ eigensolverNames) (n size : ℕ) (A : ℕ → ℕ → K)
    (constrained : List ℕ) (S : EigenSolvers K) (h1 : EigenContract size S.arpack)
    (h2 : EigenContract size S.lanczos) (h3 : EigenContract size S.anasazi)
    (h4 : EigenContract size S.lapack) (es : List K) (vs : List (List K)) (diag : List K)
    (h : localMatrixBased debug type n size A constrained S = .ok (es, vs, diag))
    (k : ℕ) (m : K) (v : List K) (hm : es[k]? = some m) (hv : vs[k]? = some v)
    (c : ℕ) (hc : c < size) (hcc : c ∈ constrained) (hrow : ∀ j, j ≠ c → A c j = 0) :
    v.getD c 0 = 0 ∨ m = 200 - averageDiagonal size A := by
  have := (localMatrixBased_pair debug type htype n size A constrained S h1 h2 h3 h4 es vs diag h
    k m v hm hv).2 c hc
  rw [matVec_shifted _ _ _ _ _ hc, if_pos hcc] at this
  have hs : matVec size A v c = A c c * v.getD c 0 := by
    unfold matVec
    rw [sum_map_add_single _ (fun _ => 0) c (A c c * v.getD c 0), if_pos hc]
    · simp
    · intro j
      by_cases hj : j = c
      · rw [hj, if_pos rfl, zero_add]
      · rw [if_neg hj, hrow j hj, zero_mul, add_zero]
  rw [hs] at this
  have h0 : (200 - (m + averageDiagonal size A)) * v.getD c 0 = 0 := by linear_combination this
  rcases mul_eq_zero.1 h0 with h0 | h0
  · right; linear_combination -h0
  · left; exact h0

/-- **C40**: a returned vector that vanishes on the constrained dofs is an eigenvector of the block of
the dofs without constraint, for the returned value. -/
theorem C40_free_block (debug : Bool) (type : Option (List Char))
    (htype : type.getD (chars! "arpack") ∈ eigensolverNames) (n size : ℕ) (A : ℕ → ℕ → K)
    (constrained : List ℕ) (S : EigenSolvers K) (h1 : EigenContract size S.arpack)
    (h2 : EigenContract size S.lanczos) (h3 : EigenContract size S.anasazi)
    (h4 : EigenContract size S.lapack) (es : List K) (vs : List (List K)) (diag : List K)
    (h : localMatrixBased debug type n size A constrained S = .ok (es, vs, diag))
    (k : ℕ) (m : K) (v : List K) (hm : es[k]? = some m) (hv : vs[k]? = some v)
    (hzero : ∀ c ∈ constrained, v.getD c 0 = 0) :
    IsEigenpair size (freeBlock constrained A) m v := by
  refine ⟨(localMatrixBased_pair debug type htype n size A constrained S h1 h2 h3 h4 es vs diag h
    k m v hm hv).1, ?_⟩
  intro i hi
  by_cases hc : i ∈ constrained
  · rw [hzero i hc, mul_zero]
    unfold matVec freeBlock
    simp [hc]
  · rw [← C40_unconstrained_rows debug type htype n size A constrained S h1 h2 h3 h4 es vs diag h
      k m v hm hv i hi hc]
    unfold matVec
    congr 1
    apply List.map_congr_left
    intro j _
    unfold freeBlock
    by_cases hj : j ∈ constrained
    · rw [if_pos (Or.inr hj), hzero j hj, mul_zero, mul_zero]
    · rw [if_neg (by tauto)]

/-- **C40**: the diagonal returned is the one of the agglomerate matrix, without the shift. -/
theorem C40_diagonal (debug : Bool) (type : Option (List Char)) (n size : ℕ) (A : ℕ → ℕ → K)
    (constrained : List ℕ) (S : EigenSolvers K) (es : List K) (vs : List (List K)) (diag : List K)
    (h : localMatrixBased debug type n size A constrained S = .ok (es, vs, diag)) :
    diag = (List.range size).map (fun i => A i i) := by
  unfold localMatrixBased at h
  rw [Outcome.bind_eq_ok] at h
  obtain ⟨⟨es', vs'⟩, h, h'⟩ := h
  simp only [Outcome.ok.injEq, Prod.mk.injEq] at h'
  exact h'.2.2.symm

/-! ## C57 -/

/-- **C57**, what holds: a debug build aborts on an unknown name.  Missing: release builds, see
`C57_unknown_name_violated`. -/
theorem C57_unknown_name_partial (name : List Char) (hname : name ∉ eigensolverNames) (n size : ℕ)
    (A : ℕ → ℕ → K) (constrained : List ℕ) (diag : List K) (S : EigenSolvers K) :
    localMatrixBased true (some name) n size A constrained S = .aborted ∧
    localMatrixFree true (some name) n size A diag S = .aborted := by
  simp only [eigensolverNames, List.mem_cons, List.not_mem_nil, or_false, not_or] at hname
  obtain ⟨a1, a2, a3, a4⟩ := hname
  unfold localMatrixBased localMatrixFree solveMatrixBased solveMatrixFree
  simp only [Option.getD_some, if_neg a1, if_neg a2, if_neg a3, if_neg a4]
  exact ⟨rfl, rfl⟩

/-- **C57 is violated**: a release build takes any unknown name and returns `n` vectors of zeros as
eigenvectors. -/
theorem C57_unknown_name_violated (name : List Char) (hname : name ∉ eigensolverNames) (n size : ℕ)
    (A : ℕ → ℕ → K) (constrained : List ℕ) (diag : List K) (S : EigenSolvers K) :
    localMatrixBased false (some name) n size A constrained S
      = .ok (List.replicate n (- averageDiagonal size A), List.replicate n (List.replicate size 0),
          (List.range size).map (fun i => A i i)) ∧
    localMatrixFree false (some name) n size A diag S
      = .ok (List.replicate n 0, List.replicate n (List.replicate size 0), diag) := by
  simp only [eigensolverNames, List.mem_cons, List.not_mem_nil, or_false, not_or] at hname
  obtain ⟨a1, a2, a3, a4⟩ := hname
  unfold localMatrixBased localMatrixFree solveMatrixBased solveMatrixFree
  simp only [Option.getD_some, if_neg a1, if_neg a2, if_neg a3, if_neg a4]
  refine ⟨?_, rfl⟩
  simp [Outcome.assert, diagElements]

/-- **C57**: matrix-free, the two eigensolvers that need a matrix are refused in every build. -/
theorem C57_matrix_free_throws (debug : Bool) (n size : ℕ) (A : ℕ → ℕ → K) (diag : List K)
    (S : EigenSolvers K) :
    (∃ w, localMatrixFree debug (some (chars! "arpack")) n size A diag S = .throws w) ∧
    (∃ w, localMatrixFree debug (some (chars! "lapack")) n size A diag S = .throws w) :=
  ⟨⟨_, rfl⟩, ⟨_, rfl⟩⟩

/-! ## C58 -/

/-- **C58**, what holds: if LAPACK finds at least `n` pairs between its bounds, the result has exactly
`n` of each.  Missing: fewer pairs, see `C58_lapack_violated`. -/
theorem C58_lapack_partial (debug : Bool) (n size : ℕ) (A : ℕ → ℕ → K) (constrained : List ℕ)
    (S : EigenSolvers K)
    (h1 : n ≤ (S.lapack (shiftedMatrix size A constrained)).1.length)
    (h2 : n ≤ (S.lapack (shiftedMatrix size A constrained)).2.length) :
    ∃ es vs diag, localMatrixBased debug (some (chars! "lapack")) n size A constrained S
      = .ok (es, vs, diag) ∧ es.length = n ∧ vs.length = n := by
  refine ⟨((S.lapack (shiftedMatrix size A constrained)).1.take n).map (fun l => l - averageDiagonal size A),
    (S.lapack (shiftedMatrix size A constrained)).2.take n, diagElements size A, ?_, ?_, ?_⟩
  · unfold localMatrixBased solveMatrixBased takeLapack
    simp only [Option.getD_some]
    rw [if_neg (by decide), if_neg (by decide), if_neg (by decide), if_pos trivial,
      if_neg (by omega), Outcome.ok_bind]
  · simp [h1]
  · simp [h2]

end

/-- **C58 is violated**: for the matrix `c I` with `c > 50` the shifted matrix has no eigenvalue at or
below LAPACK's upper bound 100, so nothing is found and the code reads past the end, for every size,
every positive number of eigenvectors and every set of constraints. -/
theorem C58_lapack_violated {K : Type} [Field K] [LinearOrder K] [IsStrictOrderedRing K]
    (debug : Bool) (n size : ℕ) (hn : 0 < n) (hsize : 0 < size) (c : K) (hc : 50 < c)
    (constrained : List ℕ) (S : EigenSolvers K) (hS : EigenContract size S.lapack)
    (hbound : ∀ (M : ℕ → ℕ → K) (l : K), l ∈ (S.lapack M).1 → -(1 / 2) < l ∧ l ≤ 100)
    (hnonzero : ∀ (M : ℕ → ℕ → K) (v : List K), v ∈ (S.lapack M).2 →
      ∃ i, i < size ∧ v.getD i 0 ≠ 0) :
    ∃ w, localMatrixBased debug (some (chars! "lapack")) n size
      (fun i j => if i = j then c else 0) constrained S = .ub w := by
  set A : ℕ → ℕ → K := fun i j => if i = j then c else 0 with hA
  have havg : averageDiagonal size A = c := by
    unfold averageDiagonal diagElements
    have : ((List.range size).map (fun i => A i i)).sum = (size : K) * c := by
      simp [hA, List.sum_replicate]
    rw [this]
    have : (size : K) ≠ 0 := by exact_mod_cast hsize.ne'
    field_simp
  have hempty : (S.lapack (shiftedMatrix size A constrained)).1.length = 0 := by
    rw [List.length_eq_zero_iff, List.eq_nil_iff_forall_not_mem]
    intro l hl
    obtain ⟨k, hk, rfl⟩ := List.getElem_of_mem hl
    obtain ⟨hlen, hp⟩ := hS (shiftedMatrix size A constrained)
    have hk2 : k < (S.lapack (shiftedMatrix size A constrained)).2.length := by omega
    obtain ⟨_, hrow⟩ := hp k _ _ (List.getElem?_eq_getElem hk) (List.getElem?_eq_getElem hk2)
    obtain ⟨i, hi, hvi⟩ := hnonzero _ _ (List.getElem_mem hk2)
    have hb := (hbound _ _ hl).2
    have h := hrow i hi
    generalize (S.lapack (shiftedMatrix size A constrained)).1[k] = l at *
    generalize (S.lapack (shiftedMatrix size A constrained)).2[k] = v at *
    rw [matVec_shifted _ _ _ _ _ hi] at h
    have hs : matVec size A v i = c * v.getD i 0 := by
      unfold matVec
      rw [sum_map_add_single _ (fun _ => 0) i (c * v.getD i 0), if_pos hi]
      · simp
      · intro j
        by_cases hj : j = i
        · simp [hA, hj]
        · simp [hA, hj, Ne.symm hj]
    rw [hs] at h
    have hAi : A i i = c := by simp [hA]
    by_cases hci : i ∈ constrained
    · rw [if_pos hci, hAi] at h
      have : (200 - l) * v.getD i 0 = 0 := by linear_combination h
      rcases mul_eq_zero.1 this with h0 | h0
      · linarith
      · exact hvi h0
    · rw [if_neg hci, havg] at h
      have : (2 * c - l) * v.getD i 0 = 0 := by linear_combination h
      rcases mul_eq_zero.1 this with h0 | h0
      · linarith
      · exact hvi h0
  refine ⟨"lapack_eigenvalues[i]", ?_⟩
  unfold localMatrixBased solveMatrixBased takeLapack
  simp only [Option.getD_some]
  rw [if_neg (by decide), if_neg (by decide), if_neg (by decide), if_pos trivial,
    if_pos (Or.inl (by omega)), Outcome.ub_bind]

/-! ## C59 -/

section

variable {K : Type} [Field K]

/-- The outcome for an iterative solver, by the number of pairs it returns. -/
theorem takeIterative_cases (debug : Bool) (n m : ℕ) (r : List K × List (List K))
    (h1 : r.1.length = m) (h2 : r.2.length = m) :
    takeIterative debug n r (List.replicate n 0) =
      if m = n then .ok r
      else if debug then .aborted
      else if n < m then .ub "std::copy past the end"
      else .ok (r.1 ++ List.replicate (n - m) 0, r.2) := by
  unfold takeIterative copyInto
  by_cases hm : m = n
  · subst hm
    cases debug <;> simp [Outcome.assert, h1, h2, List.drop_eq_nil_of_le]
  · rw [if_neg hm]
    cases debug with
    | true => simp [Outcome.assert, h2, Ne.symm hm]
    | false =>
      by_cases hlt : n < m
      · simp [Outcome.assert, h1, hlt]
      · simp [Outcome.assert, h1, hlt]

/-- `solve` is the iterative eigensolver called `name`. -/
def IterativeSolver (S : EigenSolvers K) (name : List Char)
    (solve : (ℕ → ℕ → K) → List K × List (List K)) : Prop :=
  name = chars! "lanczos" ∧ solve = S.lanczos ∨ name = chars! "anasazi" ∧ solve = S.anasazi

theorem solveMatrixBased_iterative (debug : Bool) (n size : ℕ) (M : ℕ → ℕ → K) (S : EigenSolvers K)
    (name : List Char) (solve : (ℕ → ℕ → K) → List K × List (List K))
    (hname : IterativeSolver S name solve) :
    solveMatrixBased debug name n size M S
      = takeIterative debug n (solve M) (List.replicate n 0) := by
  rcases hname with ⟨rfl, rfl⟩ | ⟨rfl, rfl⟩
  · unfold solveMatrixBased
    simp only
    rw [if_neg (by decide), if_pos trivial]
  · unfold solveMatrixBased
    simp only
    rw [if_neg (by decide), if_neg (by decide), if_pos trivial]

theorem solveMatrixFree_iterative (debug : Bool) (n size : ℕ) (M : ℕ → ℕ → K) (S : EigenSolvers K)
    (name : List Char) (solve : (ℕ → ℕ → K) → List K × List (List K))
    (hname : IterativeSolver S name solve) :
    solveMatrixFree debug name n size M S
      = takeIterative debug n (solve M) (List.replicate n 0) := by
  rcases hname with ⟨rfl, rfl⟩ | ⟨rfl, rfl⟩
  · unfold solveMatrixFree
    simp only
    rw [if_pos trivial]
  · unfold solveMatrixFree
    simp only
    rw [if_neg (by decide), if_pos trivial]

/-- **C59**, what holds: if the solver returns as many pairs as requested, these are what is returned,
in every build, matrix-based (shifted back) and matrix-free.  Missing: fewer pairs, see
`C59_aligned_violated`. -/
theorem C59_aligned_partial (debug : Bool) (n size : ℕ) (A : ℕ → ℕ → K) (constrained : List ℕ)
    (diag : List K) (S : EigenSolvers K) (name : List Char)
    (solve : (ℕ → ℕ → K) → List K × List (List K)) (hname : IterativeSolver S name solve)
    (h : ∀ M, (solve M).1.length = n ∧ (solve M).2.length = n) :
    (∃ es vs diag, localMatrixBased debug (some name) n size A constrained S = .ok (es, vs, diag) ∧
      es.length = n ∧ vs.length = n ∧ vs = (solve (shiftedMatrix size A constrained)).2) ∧
    localMatrixFree debug (some name) n size A diag S = .ok ((solve A).1, (solve A).2, diag) := by
  constructor
  · have hM := h (shiftedMatrix size A constrained)
    refine ⟨(solve (shiftedMatrix size A constrained)).1.map (fun l => l - averageDiagonal size A),
      (solve (shiftedMatrix size A constrained)).2, diagElements size A, ?_, ?_, ?_, rfl⟩
    · unfold localMatrixBased
      rw [Option.getD_some, solveMatrixBased_iterative _ _ _ _ _ _ _ hname,
        takeIterative_cases _ _ _ _ hM.1 hM.2, if_pos rfl, Outcome.ok_bind]
    · simp [hM.1]
    · exact hM.2
  · unfold localMatrixFree
    rw [Option.getD_some, solveMatrixFree_iterative _ _ _ _ _ _ _ hname,
      takeIterative_cases _ _ _ _ (h A).1 (h A).2, if_pos rfl, Outcome.ok_bind]

/-- **C57**: without a name the pairs are those of ARPACK (matrix-based, shifted back) or those of Lanczos
(matrix-free), whatever the other eigensolvers would return. -/
theorem C57_no_name (debug : Bool) (n size : ℕ) (A : ℕ → ℕ → K) (constrained : List ℕ) (diag : List K)
    (S : EigenSolvers K) (h : (S.lanczos A).1.length = n ∧ (S.lanczos A).2.length = n) :
    (∃ es diag, localMatrixBased debug none n size A constrained S
      = .ok (es, (S.arpack (shiftedMatrix size A constrained)).2, diag) ∧
      es = (S.arpack (shiftedMatrix size A constrained)).1.map (fun l => l - averageDiagonal size A)) ∧
    localMatrixFree debug none n size A diag S = .ok ((S.lanczos A).1, (S.lanczos A).2, diag) := by
  refine ⟨⟨_, _, rfl, rfl⟩, ?_⟩
  change (takeIterative debug n (S.lanczos A) (List.replicate n 0) >>= _) = _
  rw [takeIterative_cases _ _ _ _ h.1 h.2, if_pos rfl, Outcome.ok_bind]

/-- Four eigensolvers that return different pairs, two of which are requested. -/
example := C57_no_name true 2 3 (fun i j => if i = j then (2 : ℚ) else 0) [] [2, 2, 2]
  ⟨fun _ => ([1, 2], [[1, 0, 0], [0, 1, 0]]), fun _ => ([3, 4], [[0, 1, 0], [0, 0, 1]]), fun _ => ([5], [[0, 0, 1]]),
    fun _ => ([], [])⟩ ⟨rfl, rfl⟩

/-- **C59 is violated**: whenever the iterative solver returns fewer pairs than requested, a release
build reports `n` eigenvalues, the last of which are invented, but fewer eigenvectors. -/
theorem C59_aligned_violated (n size m : ℕ) (hm : m < n) (A : ℕ → ℕ → K) (constrained : List ℕ)
    (diag : List K) (S : EigenSolvers K) (name : List Char)
    (solve : (ℕ → ℕ → K) → List K × List (List K)) (hname : IterativeSolver S name solve)
    (h : ∀ M, (solve M).1.length = m ∧ (solve M).2.length = m) :
    (∃ es vs diag, localMatrixBased false (some name) n size A constrained S = .ok (es, vs, diag) ∧
      es.length = n ∧ vs.length = m ∧
      ∀ k, m ≤ k → k < n → es[k]? = some (- averageDiagonal size A)) ∧
    (∃ es vs, localMatrixFree false (some name) n size A diag S = .ok (es, vs, diag) ∧
      es.length = n ∧ vs.length = m ∧ ∀ k, m ≤ k → k < n → es[k]? = some 0) := by
  constructor
  · have hM := h (shiftedMatrix size A constrained)
    refine ⟨((solve (shiftedMatrix size A constrained)).1 ++ List.replicate (n - m) 0).map
      (fun l => l - averageDiagonal size A), (solve (shiftedMatrix size A constrained)).2,
      diagElements size A, ?_, ?_, ?_, ?_⟩
    · unfold localMatrixBased
      rw [Option.getD_some, solveMatrixBased_iterative _ _ _ _ _ _ _ hname,
        takeIterative_cases _ _ _ _ hM.1 hM.2,
        if_neg (by omega), if_neg (by decide), if_neg (by omega), Outcome.ok_bind]
    · simp [hM.1]; omega
    · exact hM.2
    · intro k hk hkn
      rw [List.getElem?_map, List.getElem?_append_right (by omega), List.getElem?_replicate,
        if_pos (by omega)]
      simp
  · have hM := h A
    refine ⟨(solve A).1 ++ List.replicate (n - m) 0, (solve A).2, ?_, ?_, ?_, ?_⟩
    · unfold localMatrixFree
      rw [Option.getD_some, solveMatrixFree_iterative _ _ _ _ _ _ _ hname,
        takeIterative_cases _ _ _ _ hM.1 hM.2,
        if_neg (by omega), if_neg (by decide), if_neg (by omega), Outcome.ok_bind]
    · simp [hM.1]; omega
    · exact hM.2
    · intro k hk hkn
      rw [List.getElem?_append_right (by omega), List.getElem?_replicate, if_pos (by omega)]

/-- **C59**: a debug build aborts instead. -/
theorem C59_debug (n size m : ℕ) (hm : m ≠ n) (A : ℕ → ℕ → K) (constrained : List ℕ)
    (diag : List K) (S : EigenSolvers K) (name : List Char)
    (solve : (ℕ → ℕ → K) → List K × List (List K)) (hname : IterativeSolver S name solve)
    (h : ∀ M, (solve M).1.length = m ∧ (solve M).2.length = m) :
    localMatrixBased true (some name) n size A constrained S = .aborted ∧
    localMatrixFree true (some name) n size A diag S = .aborted := by
  constructor
  · unfold localMatrixBased
    rw [Option.getD_some, solveMatrixBased_iterative _ _ _ _ _ _ _ hname,
      takeIterative_cases _ _ _ _ (h _).1 (h _).2, if_neg hm, if_pos rfl, Outcome.aborted_bind]
  · unfold localMatrixFree
    rw [Option.getD_some, solveMatrixFree_iterative _ _ _ _ _ _ _ hname,
      takeIterative_cases _ _ _ _ (h _).1 (h _).2, if_neg hm, if_pos rfl, Outcome.aborted_bind]

end

/-! ### A concrete agglomerate -/

/-- Three dofs, the last one constrained. -/
def exAgg : ℕ → ℕ → ℚ := fun i j => ((([[1, -1, 0], [-1, 1, 0], [0, 0, 1]] : List (List ℚ)).getD i []).getD j 0)

/-- A solver that knows two eigenpairs of the shifted matrix of `exAgg`, and nothing of others. -/
def exSolve (M : ℕ → ℕ → ℚ) : List ℚ × List (List ℚ) :=
  if ∀ i ∈ List.range 3, ∀ j ∈ List.range 3,
      M i j = ((([[2, -1, 0], [-1, 2, 0], [0, 0, 200]] : List (List ℚ)).getD i []).getD j 0) then
    ([1, 3], [[1, 1, 0], [1, -1, 0]])
  else ([], [])

theorem exSolve_contract : EigenContract 3 exSolve := by
  intro M
  unfold exSolve
  split_ifs with h
  · refine ⟨rfl, ?_⟩
    intro k l v hl hv
    have hM : ∀ w : List ℚ, ∀ i, i < 3 → matVec 3 M w i
        = matVec 3 (fun i j => ((([[2, -1, 0], [-1, 2, 0], [0, 0, 200]] : List (List ℚ)).getD i []).getD j 0)) w i := by
      intro w i hi
      unfold matVec
      congr 1
      apply List.map_congr_left
      intro j hj
      rw [h i (List.mem_range.2 hi) j hj]
    match k with
    | 0 =>
      simp only [List.getElem?_cons_zero, Option.some.injEq] at hl hv
      subst hl hv
      refine ⟨rfl, fun i hi => ?_⟩
      rw [hM _ _ hi]
      revert i
      decide +kernel
    | 1 =>
      simp only [List.getElem?_cons_zero, List.getElem?_cons_succ, Option.some.injEq] at hl hv
      subst hl hv
      refine ⟨rfl, fun i hi => ?_⟩
      rw [hM _ _ hi]
      revert i
      decide +kernel
    | k + 2 => simp at hl
  · exact ⟨rfl, fun k l v hl => by simp at hl⟩

/-- The solvers of the example. -/
def exSolvers : EigenSolvers ℚ := ⟨exSolve, exSolve, exSolve, exSolve⟩

theorem exAgg_run : localMatrixBased true (some (chars! "lanczos")) 2 3 exAgg [2] exSolvers
    = .ok ([0, 2], [[1, 1, 0], [1, -1, 0]], [1, 1, 1]) := by decide +kernel

example : IsEigenpair 3 (freeBlock [2] exAgg) 2 [1, -1, 0] :=
  C40_free_block true (some (chars! "lanczos")) (by decide) 2 3 exAgg [2] exSolvers exSolve_contract
    exSolve_contract exSolve_contract exSolve_contract _ _ _ exAgg_run 1 2 _ rfl rfl (by decide)

example : localMatrixBased false (some (chars! "lanczos")) 3 3 exAgg [2] exSolvers
    = .ok ([0, 2, -1], [[1, 1, 0], [1, -1, 0]], [1, 1, 1]) := by decide +kernel

example : ∃ es vs, localMatrixFree false (some (chars! "anasazi")) 3 3 exAgg [1, 1, 1]
    ⟨exSolve, exSolve, fun _ => ([1], [[1, 1, 0]]), exSolve⟩ = .ok (es, vs, [1, 1, 1]) ∧
    es.length = 3 ∧ vs.length = 1 ∧ ∀ k, 1 ≤ k → k < 3 → es[k]? = some 0 :=
  (C59_aligned_violated 3 3 1 (by decide) exAgg [2] [1, 1, 1] _ (chars! "anasazi") _
    (Or.inr ⟨rfl, rfl⟩) (fun _ => ⟨rfl, rfl⟩)).2

example : localMatrixBased false (some (chars! "Lanczos")) 1 3 exAgg [2] exSolvers
    = .ok ([-1], [[0, 0, 0]], [1, 1, 1]) := by decide +kernel

/-- A solver for which the hypotheses of `C58_lapack_violated` hold. -/
example : ∃ w, localMatrixBased false (some (chars! "lapack")) 1 3
    (fun i j => if i = j then (60 : ℚ) else 0) [2]
    ⟨exSolve, exSolve, exSolve, exSolve⟩ = .ub w :=
  C58_lapack_violated false 1 3 (by decide) (by decide) 60 (by norm_num) [2] _ exSolve_contract
    (by
      intro M l hl
      simp only [exSolve] at hl
      split_ifs at hl
      · simp only [List.mem_cons, List.not_mem_nil, or_false] at hl
        rcases hl with rfl | rfl <;> norm_num
      · simp at hl)
    (by
      intro M v hv
      simp only [exSolve] at hv
      split_ifs at hv
      · simp only [List.mem_cons, List.not_mem_nil, or_false] at hv
        rcases hv with rfl | rfl <;> exact ⟨0, by decide, by decide +kernel⟩
      · simp at hv)

end Mfmg
