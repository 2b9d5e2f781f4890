import Verif.Spec.Lanczos
import Mathlib.Algebra.BigOperators.Group.Finset.Piecewise
import Mathlib.Algebra.BigOperators.Ring.Finset
import Mathlib.Tactic.Ring
import Mathlib.Tactic.Abel
import Mathlib.Tactic.Module
import Mathlib.Tactic.FieldSimp

/-!
# Lemmas on the Lanczos iteration
-/

set_option autoImplicit false

namespace Mfmg

open Finset
open scoped InnerProductSpace

section

variable {E : Type} [NormedAddCommGroup E] [InnerProductSpace ℝ E]

theorem getD_push {α : Type} (l : List α) (a d : α) (i : ℕ) :
    (l ++ [a]).getD i d = if i < l.length then l.getD i d else if i = l.length then a else d := by
  simp only [List.getD, List.getElem?_append]
  split_ifs with h1 h2
  · rfl
  · simp [h2]
  · have : 1 ≤ i - l.length := by omega
    rw [List.getElem?_eq_none (by simpa using this)]; rfl

/-- The loop invariant of the iteration, on a subspace `S` that the operator maps to itself. -/
structure LanczosInv (A : E → E) (S : Submodule ℝ E) (s : LanczosState E) : Prop where
  lenDiag : s.diag.length = s.vs.length
  lenSub : s.sub.length = s.vs.length - 1
  beta : s.beta = ‖s.w‖
  mem : ∀ v ∈ s.vs, v ∈ S
  memW : s.w ∈ S
  rel : LanczosRelation A s.vs.length (fun i => s.vs.getD i 0) (tridiagEntry s.diag s.sub) s.w

theorem lanczosInit_inv (A : E → E) (S : Submodule ℝ E) (g : E) (hg : g ∈ S) :
    LanczosInv A S (lanczosInit g) where
  lenDiag := rfl
  lenSub := rfl
  beta := rfl
  mem := by simp [lanczosInit]
  memW := hg
  rel := ⟨by simp [lanczosInit], by simp [lanczosInit], by simp [lanczosInit]⟩

theorem tridiag_push_old (diag sub : List ℝ) (a b : ℝ) (m j k : ℕ) (hd : diag.length = m)
    (hs : sub.length = m - 1) (hj : j < m) (hk : k < m) :
    tridiagEntry (diag ++ [a]) (sub ++ [b]) j k = tridiagEntry diag sub j k := by
  simp only [tridiagEntry, getD_push, hd, hs]
  split_ifs <;> first | rfl | omega

theorem tridiag_push_col (diag sub : List ℝ) (a b : ℝ) (m j : ℕ) (hd : diag.length = m)
    (hs : sub.length = m - 1) (hj : j ≤ m) :
    tridiagEntry (diag ++ [a]) (sub ++ [b]) j m =
      if j = m then a else if j + 1 = m then b else 0 := by
  simp only [tridiagEntry, getD_push, hd, hs]
  split_ifs <;> first | rfl | omega

theorem tridiag_push_row (diag sub : List ℝ) (a b : ℝ) (m k : ℕ) (hd : diag.length = m)
    (hs : sub.length = m - 1) (hk : k < m) :
    tridiagEntry (diag ++ [a]) (sub ++ [b]) m k = if k + 1 = m then b else 0 := by
  simp only [tridiagEntry, getD_push, hd, hs]
  split_ifs <;> first | rfl | omega

theorem getD_of_lt {α : Type} (l : List α) (d : α) (i : ℕ) (h : i < l.length) :
    l.getD i d = l[i] := by
  simp [List.getD, List.getElem?_eq_getElem h]

theorem getD_mem {α : Type} (l : List α) (d : α) (i : ℕ) (h : i < l.length) : l.getD i d ∈ l := by
  rw [getD_of_lt _ _ _ h]; exact List.getElem_mem h

theorem lanczosStep_inv (debug : Bool) (A : E → E) (S : Submodule ℝ E)
    (hA : ∀ x ∈ S, A x ∈ S) (hsym : ∀ x ∈ S, ∀ y ∈ S, ⟪A x, y⟫_ℝ = ⟪x, A y⟫_ℝ)
    (s : LanczosState E) (hs : LanczosInv A S s) (s' : LanczosState E)
    (h : lanczosStep debug A s = .ok s') :
    LanczosInv A S s' ∧ s'.vs.length = s.vs.length + 1 := by
  unfold lanczosStep at h
  by_cases hb : s.beta = 0
  · simp only [hb, if_true] at h
    split at h <;> cases h
  rw [if_neg hb] at h
  set m := s.vs.length with hm
  set v := s.beta⁻¹ • s.w with hv
  have hvS : v ∈ S := S.smul_mem _ hs.memW
  have hwv : s.w = s.beta • v := by rw [hv, smul_smul, mul_inv_cancel₀ hb, one_smul]
  have hvv : ⟪v, v⟫_ℝ = 1 := by
    rw [hv, inner_smul_left, inner_smul_right, real_inner_self_eq_norm_sq, ← hs.beta]
    simp only [conj_trivial]
    field_simp
  have hov : ∀ i, i < m → ⟪s.vs.getD i 0, v⟫_ℝ = 0 := by
    intro i hi
    rw [hv, inner_smul_right, hs.rel.rest i hi, mul_zero]
  have hwvb : ⟪s.w, v⟫_ℝ = s.beta := by rw [hwv, inner_smul_left, hvv]; simp
  -- inner products with `A v`
  have hAv : ∀ i, i < m → ⟪s.vs.getD i 0, A v⟫_ℝ = if i + 1 = m then s.beta else 0 := by
    intro i hi
    rw [← hsym _ (hs.mem _ (getD_mem _ _ _ hi)) _ hvS, hs.rel.relation i hi, inner_add_left, sum_inner]
    have : ∑ j ∈ range m, ⟪tridiagEntry s.diag s.sub j i • s.vs.getD j 0, v⟫_ℝ = 0 := by
      refine Finset.sum_eq_zero ?_
      intro j hj
      rw [inner_smul_left, hov j (Finset.mem_range.1 hj), mul_zero]
    rw [this, zero_add]
    split_ifs
    · exact hwvb
    · exact inner_zero_left _
  rcases Nat.eq_zero_or_pos m with h0 | hpos
  · -- first iteration
    have hnil : s.vs = [] := List.length_eq_zero_iff.1 (hm ▸ h0)
    have hdnil : s.diag = [] := List.length_eq_zero_iff.1 (by rw [hs.lenDiag, ← hm, h0])
    have hsnil : s.sub = [] := List.length_eq_zero_iff.1 (by rw [hs.lenSub, ← hm, h0])
    rw [hnil] at h
    simp only [List.getLast?_nil, List.nil_append, hdnil, hsnil] at h
    injection h with h
    subst h
    refine ⟨⟨rfl, rfl, rfl, ?_, ?_, ?_⟩, by simp [h0]⟩
    · intro x hx; simp only [List.mem_singleton] at hx; rw [hx]; exact hvS
    · exact S.add_mem (hA v hvS) (S.smul_mem _ hvS)
    · refine ⟨?_, ?_, ?_⟩
      · intro i j hi hj
        simp only [List.length_singleton] at hi hj
        obtain rfl : i = 0 := by omega
        obtain rfl : j = 0 := by omega
        simpa using hvv
      · intro k hk
        simp only [List.length_singleton] at hk
        obtain rfl : k = 0 := by omega
        simp [tridiagEntry]
      · intro i hi
        simp only [List.length_singleton] at hi
        obtain rfl : i = 0 := by omega
        simp only [List.getD_cons_zero]
        rw [inner_add_right, inner_smul_right, hvv]
        ring
  · -- later iterations
    have hlast : s.vs.getLast? = some (s.vs.getD (m - 1) 0) := by
      rw [List.getLast?_eq_getElem?, ← hm, List.getElem?_eq_getElem (by omega),
        getD_of_lt _ _ _ (by omega)]
    set p := s.vs.getD (m - 1) 0 with hp
    have hpS : p ∈ S := hs.mem _ (getD_mem _ _ _ (by omega))
    rw [hlast] at h
    injection h with h
    have hpv : ⟪v, p⟫_ℝ = 0 := by rw [real_inner_comm]; exact hov (m - 1) (by omega)
    subst h
    refine ⟨⟨by simp [hs.lenDiag], by simp [hs.lenSub, ← hm]; omega, rfl, ?_, ?_, ?_⟩, by simp [← hm]⟩
    · intro x hx
      rcases List.mem_append.1 hx with hx | hx
      · exact hs.mem x hx
      · simp only [List.mem_singleton] at hx; rw [hx]; exact hvS
    · exact S.add_mem (S.add_mem (hA v hvS) (S.smul_mem _ hpS)) (S.smul_mem _ hvS)
    · simp only [List.length_append, List.length_singleton, ← hm]
      refine ⟨?_, ?_, ?_⟩
      · intro i j hi hj
        simp only [getD_push, ← hm]
        by_cases hi' : i < m <;> by_cases hj' : j < m
        · simp only [hi', hj', if_true]; exact hs.rel.orthonormal i j hi' hj'
        · obtain rfl : j = m := by omega
          rw [if_pos hi', if_neg (by omega), if_pos rfl, if_neg (by omega)]
          exact hov i hi'
        · obtain rfl : i = m := by omega
          rw [if_neg (by omega), if_pos rfl, if_pos hj', if_neg (by omega), real_inner_comm]
          exact hov j hj'
        · obtain rfl : i = m := by omega
          obtain rfl : j = m := by omega
          simpa using hvv
      · intro k hk
        rw [Finset.sum_range_succ]
        simp only [getD_push, ← hm, lt_irrefl, if_false, if_true]
        by_cases hk' : k < m
        · rw [if_pos hk', tridiag_push_row _ _ _ _ m k (hs.lenDiag.trans hm.symm) (hs.lenSub) hk',
            hs.rel.relation k hk', if_neg (show ¬ (k + 1 = m + 1) by omega), add_zero]
          congr 1
          · refine Finset.sum_congr rfl ?_
            intro j hj
            have hj := Finset.mem_range.1 hj
            rw [if_pos hj, tridiag_push_old _ _ _ _ m j k (hs.lenDiag.trans hm.symm) hs.lenSub hj hk']
          · split_ifs
            · exact hwv
            · simp
        · obtain rfl : k = m := by omega
          rw [if_neg (by omega), if_pos rfl, if_pos rfl, tridiag_push_col _ _ _ _ m m
            (hs.lenDiag.trans hm.symm) hs.lenSub le_rfl, if_pos rfl]
          have : ∑ j ∈ range m, tridiagEntry (s.diag ++ [⟪v, A v + -s.beta • p⟫_ℝ])
              (s.sub ++ [s.beta]) j m • (if j < m then s.vs.getD j 0 else if j = m then v else 0)
              = s.beta • p := by
            rw [Finset.sum_eq_single (m - 1)]
            · rw [tridiag_push_col _ _ _ _ m (m - 1) (hs.lenDiag.trans hm.symm) hs.lenSub
                (by omega), if_neg (by omega), if_pos (by omega), if_pos (by omega)]
            · intro j hj hne
              have hj := Finset.mem_range.1 hj
              rw [tridiag_push_col _ _ _ _ m j (hs.lenDiag.trans hm.symm) hs.lenSub
                (by omega), if_neg (by omega), if_neg (by omega), zero_smul]
            · intro hn; exact absurd (Finset.mem_range.2 (by omega)) hn
          rw [this]
          module
      · intro i hi
        simp only [getD_push, ← hm]
        by_cases hi' : i < m
        · rw [if_pos hi', inner_add_right, inner_add_right, inner_smul_right, inner_smul_right,
            hAv i hi', hov i hi']
          have := hs.rel.orthonormal i (m - 1) hi' (by omega)
          rw [← hp] at this
          rw [this]
          by_cases hl : i + 1 = m
          · rw [if_pos hl, if_pos (by omega)]; ring
          · rw [if_neg hl, if_neg (by omega)]; ring
        · obtain rfl : i = m := by omega
          rw [if_neg (by omega), if_pos rfl, inner_add_right, inner_smul_right, hvv]
          ring

/-! ## Residual -/

theorem lanczos_residual (A : E →ₗ[ℝ] E) (m : ℕ) (v : ℕ → E) (T : ℕ → ℕ → ℝ) (w : E)
    (h : LanczosRelation A m v T w) (θ : ℝ) (c : ℕ → ℝ) (hc : IsEigen m T θ c) (hm : 0 < m) :
    A (∑ j ∈ range m, c j • v j) - θ • ∑ j ∈ range m, c j • v j = c (m - 1) • w := by
  rw [map_sum]
  have h1 : ∑ k ∈ range m, A (c k • v k)
      = ∑ k ∈ range m, c k • (∑ j ∈ range m, T j k • v j) + c (m - 1) • w := by
    have : ∀ k ∈ range m, A (c k • v k)
        = c k • (∑ j ∈ range m, T j k • v j) + (if k = m - 1 then c k • w else 0) := by
      intro k hk
      have hk := Finset.mem_range.1 hk
      rw [map_smul, h.relation k hk, smul_add]
      congr 1
      by_cases hl : k + 1 = m
      · rw [if_pos hl, if_pos (by omega)]
      · rw [if_neg hl, if_neg (by omega), smul_zero]
    rw [Finset.sum_congr rfl this, Finset.sum_add_distrib]
    congr 1
    rw [Finset.sum_ite_eq' (range m) (m - 1) (fun k => c k • w)]
    rw [if_pos (Finset.mem_range.2 (by omega))]
  rw [h1]
  have h2 : ∑ k ∈ range m, c k • (∑ j ∈ range m, T j k • v j)
      = θ • ∑ j ∈ range m, c j • v j := by
    simp only [Finset.smul_sum, smul_smul]
    rw [Finset.sum_comm]
    refine Finset.sum_congr rfl ?_
    intro j hj
    rw [← Finset.sum_smul, ← hc j (Finset.mem_range.1 hj)]
    congr 1
    exact Finset.sum_congr rfl (fun k _ => mul_comm _ _)
  rw [h2]
  abel

/-! ## The arrays -/

theorem Outcome.get_getD {α : Type} (l : List α) (d : α) (i : ℕ) (why : String)
    (h : i < l.length) : Outcome.get l i why = .ok (l.getD i d) := by
  simp [Outcome.get, List.getD, List.getElem?_eq_getElem h]

theorem Outcome.get_ub {α : Type} (l : List α) (i : ℕ) (why : String)
    (h : l.length ≤ i) : Outcome.get l i why = .ub why := by
  simp [Outcome.get, List.getElem?_eq_none h]

theorem calcEvecLoop_eq (n i : ℕ) (evecs : List ℝ) (vs : List E) (j : ℕ) (y : E)
    (hj : j + vs.length = n) (hl : n * i + n ≤ evecs.length) :
    calcEvecLoop n i evecs vs j y = .ok (y + ∑ k ∈ range vs.length,
      evecs.getD (n * i + (j + k)) 0 • vs.getD k 0) := by
  induction vs generalizing j y with
  | nil => simp [calcEvecLoop]
  | cons v vs ih =>
    simp only [List.length_cons] at hj
    rw [calcEvecLoop, Outcome.get_getD _ 0 _ _ (by omega), Outcome.ok_bind, ih (j + 1) _ (by omega)]
    rw [List.length_cons, Finset.sum_range_succ']
    simp only [List.getD_cons_zero, List.getD_cons_succ, Nat.add_zero]
    rw [show j + n * i = n * i + j by omega]
    have : ∀ k, n * i + (j + 1 + k) = n * i + (j + (k + 1)) := by intro k; omega
    simp only [this]
    congr 1
    abel

/-- The vectors computed from the columns of the flat array. -/
theorem calcEvecs_eq (vs : List E) (evecs : List ℝ) (left i : ℕ)
    (hl : vs.length * (i + left) ≤ evecs.length) :
    calcEvecs vs.length vs evecs left i = .ok ((List.range left).map (fun t =>
      ∑ k ∈ range vs.length, evecs.getD (vs.length * (i + t) + k) 0 • vs.getD k 0)) := by
  induction left generalizing i with
  | zero => rfl
  | succ left ih =>
    have e1 : vs.length * (i + (left + 1)) = vs.length * (i + 1 + left) := by
      congr 1; omega
    have e2 : vs.length * i + vs.length ≤ vs.length * (i + (left + 1)) := by
      rw [← Nat.mul_succ]; exact Nat.mul_le_mul_left _ (by omega)
    rw [calcEvecs, calcEvecLoop_eq _ _ _ _ 0 0 (by omega) (by omega), Outcome.ok_bind,
      ih (i + 1) (by omega), Outcome.ok_bind, List.range_succ_eq_map]
    simp only [List.map_cons, List.map_map, Outcome.pure_eq, Nat.add_zero, zero_add]
    have : ∀ t k, vs.length * (i + 1 + t) + k = vs.length * (i + (t + 1)) + k := by
      intro t k; congr 2; omega
    congr 2
    refine List.map_congr_left ?_
    intro t _
    simp only [Function.comp, this, Nat.succ_eq_add_one]

theorem checkLoop_eq (beta tol : ℝ) (n : ℕ) (hn : 0 < n) (evecs : List ℝ) (left i : ℕ) (c : Bool)
    (hl : n * (i + left) ≤ evecs.length) :
    checkLoop beta tol n evecs left i c = .ok (c && decide (∀ t, t < left →
      beta * |evecs.getD (n * (i + t) + (n - 1)) 0| ≤ tol)) := by
  induction left generalizing i c with
  | zero => simp [checkLoop]
  | succ left ih =>
    have e1 : n * (i + (left + 1)) = n * (i + 1 + left) := by congr 1; omega
    have e2 : n * i + n ≤ n * (i + (left + 1)) := by
      rw [← Nat.mul_succ]; exact Nat.mul_le_mul_left _ (by omega)
    rw [checkLoop, Outcome.get_getD _ 0 _ _ (by omega), Outcome.ok_bind, ih (i + 1) _ (by omega)]
    congr 1
    rw [Bool.and_assoc]
    congr 1
    rw [← Bool.decide_and]
    congr 1
    rw [show n - 1 + n * i = n * (i + 0) + (n - 1) by rw [Nat.add_zero, Nat.add_comm]]
    apply propext
    constructor
    · rintro ⟨h0, h1⟩ t ht
      cases t with
      | zero => exact h0
      | succ t =>
        have := h1 t (by omega)
        rwa [show i + 1 + t = i + (t + 1) by omega] at this
    · intro h
      refine ⟨h 0 (by omega), ?_⟩
      intro t ht
      rw [show i + 1 + t = i + (t + 1) by omega]
      exact h (t + 1) (by omega)

/-- With an empty array the convergence test reads out of range. -/
theorem checkConvergence_nil (beta tol : ℝ) (n req : ℕ) (hreq : 0 < req) (hn : req ≤ n) :
    checkConvergence beta n req tol [] = .ub "evecs out of range" := by
  rw [checkConvergence, if_neg (by omega)]
  cases req with
  | zero => omega
  | succ req => rw [checkLoop, Outcome.get_ub _ _ _ (by simp)]; rfl

/-! ## The loop -/

/-- Bookkeeping of the convergence tests. -/
structure TestInv (pct : ℤ) (maxit : ℕ) (tests : List ℕ) (prev it : ℕ) : Prop where
  start : (tests = [] ∧ prev = 0 ∧ it = 1) ∨
    (tests.head? = some 1 ∧ tests.getLast? = some prev ∧ prev < it)
  chain : ∀ (i a b : ℕ), tests[i]? = some a → tests[i + 1]? = some b →
    a < b ∧ (b = maxit ∨ 100 * ((b : ℤ) - a) > pct * a) ∧
      ∀ c : ℕ, a < c → c < b → 100 * ((c : ℤ) - a) ≤ pct * a
  gap : ∀ c : ℕ, prev < c → c < it → 100 * ((c : ℤ) - prev) ≤ pct * prev

theorem TestInv.push {pct : ℤ} {maxit : ℕ} {tests : List ℕ} {prev it : ℕ}
    (h : TestInv pct maxit tests prev it)
    (hit : it = 1 ∨ it = maxit ∨ 100 * ((it : ℤ) - prev) > pct * prev) :
    TestInv pct maxit (tests ++ [it]) it (it + 1) ∧ (tests ++ [it]).head? = some 1 := by
  have hhead : (tests ++ [it]).head? = some 1 := by
    rcases h.start with ⟨rfl, -, rfl⟩ | ⟨hh, -, -⟩
    · rfl
    · rw [List.head?_append, hh]; rfl
  refine ⟨⟨Or.inr ⟨hhead, by simp, by omega⟩, ?_, ?_⟩, hhead⟩
  · intro i a b ha hb
    rcases lt_trichotomy (i + 1) tests.length with hi | hi | hi
    · rw [List.getElem?_append_left (by omega)] at ha hb
      exact h.chain i a b ha hb
    · rw [List.getElem?_append_left (by omega)] at ha
      rw [List.getElem?_append_right (by omega), hi, Nat.sub_self] at hb
      simp only [List.getElem?_cons_zero, Option.some.injEq] at hb
      subst hb
      rcases h.start with ⟨rfl, -, -⟩ | ⟨-, hl, hlt⟩
      · simp at ha
      · rw [List.getLast?_eq_getElem?, ← hi, Nat.add_sub_cancel, ha] at hl
        obtain rfl := Option.some.inj hl
        refine ⟨hlt, ?_, h.gap⟩
        rcases hit with h1 | h1 | h1
        · have ha1 : tests[0]? = some 1 := by
            rcases h.start with ⟨rfl, -, -⟩ | ⟨hh, -, -⟩
            · simp at ha
            · rwa [List.head?_eq_getElem?] at hh
          exfalso
          -- the first test is at iteration 1 and `a ≥ 1`
          rw [h1] at hlt
          have : a = 0 := by omega
          have hpos : ∀ (k : ℕ) (x : ℕ), tests[k]? = some x → 1 ≤ x := by
            intro k
            induction k with
            | zero => intro x hx; rw [ha1] at hx; cases hx; exact le_rfl
            | succ k ih =>
              intro x hx
              obtain ⟨y, hy⟩ : ∃ y, tests[k]? = some y := by
                have hlen : k + 1 < tests.length := by
                  by_contra hc
                  rw [List.getElem?_eq_none (by omega)] at hx
                  cases hx
                exact ⟨_, List.getElem?_eq_getElem (by omega)⟩
              have := (h.chain k y x hy hx).1
              omega
          have := hpos i a ha
          omega
        · exact Or.inl h1
        · exact Or.inr h1
    · rw [List.getElem?_eq_none (by simp; omega)] at hb
      cases hb
  · intro c h1 h2; omega

theorem TestInv.skip {pct : ℤ} {maxit : ℕ} {tests : List ℕ} {prev it : ℕ}
    (h : TestInv pct maxit tests prev it)
    (hit : ¬ (it = 1 ∨ it = maxit ∨ 100 * ((it : ℤ) - prev) > pct * prev)) :
    TestInv pct maxit tests prev (it + 1) := by
  push Not at hit
  refine ⟨?_, h.chain, ?_⟩
  · rcases h.start with ⟨-, -, h1⟩ | ⟨h1, h2, h3⟩
    · exact absurd h1 hit.1
    · exact Or.inr ⟨h1, h2, by omega⟩
  · intro c h1 h2
    rcases Nat.lt_or_ge c it with h3 | h3
    · exact h.gap c h1 h3
    · obtain rfl : c = it := by omega
      exact hit.2.2

theorem lanczosStep_length (debug : Bool) (A : E → E) (s s' : LanczosState E)
    (h : lanczosStep debug A s = .ok s') : s'.vs.length = s.vs.length + 1 := by
  unfold lanczosStep at h
  by_cases hb : s.beta = 0
  · simp only [hb, if_true] at h
    split at h <;> cases h
  · rw [if_neg hb] at h
    injection h with h
    subst h
    simp

/-- The loop, with any invariant `P` of the single iteration. -/
theorem lanczosLoop_spec (debug : Bool) (A : E → E) (P : LanczosState E → Prop)
    (hP : ∀ s s', P s → lanczosStep debug A s = .ok s' → P s')
    (tridiag : List ℝ → List ℝ → List ℝ × List ℝ) (req : ℕ) (tol : ℝ) (pct : ℤ) (maxit : ℕ)
    (left it prev : ℕ) (r : LanczosResult E) (hleft : left + it = maxit + 1)
    (hlen : r.state.vs.length + 1 = it) (hinv : P r.state)
    (ht : TestInv pct maxit r.tests prev it) (r' : LanczosResult E)
    (h : lanczosLoop debug A tridiag req tol pct maxit left it prev r = .ok r') :
    P r'.state ∧ r'.state.vs.length ≤ maxit ∧ it ≤ r'.state.vs.length + 1 ∧
      (left = 0 → r' = r) ∧
      (0 < left →
        TestInv pct maxit r'.tests r'.state.vs.length (r'.state.vs.length + 1) ∧
        r'.tests.head? = some 1 ∧
        r'.tests.getLast? = some r'.state.vs.length ∧
        (r'.evals, r'.evecs) = tridiag r'.state.diag r'.state.sub ∧
        checkConvergence r'.state.beta r'.state.vs.length req tol r'.evecs = .ok r'.converged ∧
        (r'.converged = false → r'.state.vs.length = maxit)) := by
  induction left generalizing it prev r with
  | zero =>
    simp only [lanczosLoop, Outcome.ok.injEq] at h
    subst h
    exact ⟨hinv, by omega, by omega, fun _ => rfl, fun h => by omega⟩
  | succ left ih =>
    rw [lanczosLoop, Outcome.bind_eq_ok] at h
    obtain ⟨s, hs, h⟩ := h
    have hinv' := hP _ _ hinv hs
    have hlen' := lanczosStep_length debug A r.state s hs
    split at h
    · rename_i hcond
      obtain ⟨ht', hhead⟩ := ht.push hcond
      rw [Outcome.bind_eq_ok] at h
      obtain ⟨conv, hconv, h⟩ := h
      cases conv with
      | true =>
        simp only [if_true, Outcome.ok.injEq] at h
        subst h
        simp only
        refine ⟨hinv', by omega, by omega, fun h => by omega, fun _ => ?_⟩
        rw [show s.vs.length = it by omega]
        exact ⟨ht', hhead, by simp, trivial, hconv, fun h => by cases h⟩
      | false =>
        simp only [Bool.false_eq_true, if_false] at h
        obtain ⟨a, b, c, d, e⟩ := ih (it + 1) it _ (by omega) (by simp only; omega) hinv' ht' h
        refine ⟨a, b, by omega, fun h => by omega, fun _ => ?_⟩
        rcases Nat.eq_zero_or_pos left with hl | hl
        · have hr := d hl
          subst hr
          simp only
          rw [show s.vs.length = it by omega]
          exact ⟨ht', hhead, by simp, trivial, hconv, fun _ => by omega⟩
        · exact e hl
    · rename_i hcond
      have hlt : 0 < left := by
        push Not at hcond; omega
      obtain ⟨a, b, c, d, e⟩ := ih (it + 1) prev { r with state := s } (by omega)
        (by simp only; omega) hinv' (ht.skip hcond) h
      exact ⟨a, b, by omega, fun h => by omega, fun _ => e hlt⟩

end

end Mfmg
