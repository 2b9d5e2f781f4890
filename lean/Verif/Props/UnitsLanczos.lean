import Verif.Lemmas.UnitsLanczos
import Verif.Props.Lanczos

/-!
# Change of units (C89): the Lanczos eigensolver
-/

set_option autoImplicit false

namespace Mfmg

open Finset
open scoped InnerProductSpace

section

variable {E : Type} [NormedAddCommGroup E] [InnerProductSpace ℝ E]

theorem lanczosInit_units (c : ℝ) (guess : E) : (lanczosInit guess).scale c = lanczosInit guess := by
  simp [lanczosInit, LanczosState.scale]

/-- **C89**, Lanczos, what holds: if both tolerances are multiplied by `c` as well, the run for `c A` makes the
same tests in the same iterations, fails if and as the run for `A` fails, and otherwise returns the same vectors
and the eigenvalues multiplied by `c`.  Missing: the code's tolerances are absolute, see
`C89_lanczos_guess_violated` and `C89_lanczos_pairs_violated`. -/
theorem C89_lanczos_partial (debug : Bool) (A : E → E) (c : ℝ) (hc : 0 < c) (tol2 : ℝ)
    (dstev : List ℝ → List ℝ → List ℝ × List ℝ) (hd : DstevScales dstev c) (req : ℕ) (p : LanczosParams)
    (guess : E) :
    (∀ r ys, solveLanczos debug A (calcTridiagEpairs Real.sqrt tol2 dstev) req p guess = .ok (r, ys) →
      ∃ r', solveLanczos debug (fun x => c • A x) (calcTridiagEpairs Real.sqrt (c * tol2) dstev) req
          { p with tol := c * p.tol } guess = .ok (r', ys) ∧
        r'.evals = r.evals.map (c * ·) ∧ r'.tests = r.tests ∧ r'.converged = r.converged) ∧
    ((∀ r ys, solveLanczos debug A (calcTridiagEpairs Real.sqrt tol2 dstev) req p guess ≠ .ok (r, ys)) →
      ∀ r ys, solveLanczos debug (fun x => c • A x) (calcTridiagEpairs Real.sqrt (c * tol2) dstev) req
          { p with tol := c * p.tol } guess ≠ .ok (r, ys)) := by
  have key : solveLanczos debug (fun x => c • A x) (calcTridiagEpairs Real.sqrt (c * tol2) dstev) req
          { p with tol := c * p.tol } guess
      = (do let x ← solveLanczos debug A (calcTridiagEpairs Real.sqrt tol2 dstev) req p guess
            .ok (x.1.scale c, x.2)) := by
    unfold solveLanczos
    have htol : (0 ≤ c * p.tol) ↔ 0 ≤ p.tol := by
      constructor
      · intro h
        by_contra hn
        rw [not_le] at hn
        nlinarith
      · intro h
        positivity
    simp only [htol]
    have hloop := lanczosLoop_units debug A hc
      (fun d s => calcTridiagEpairs Real.sqrt tol2 dstev d s req)
      (fun d s => calcTridiagEpairs Real.sqrt (c * tol2) dstev d s req)
      (fun d s => calcTridiagEpairs_units hc Real.sqrt tol2 dstev hd d s req)
      req p.tol p.pct p.maxit p.maxit 1 0 ⟨lanczosInit guess, [], [], [], false⟩
    have hr0 : (⟨lanczosInit guess, [], [], [], false⟩ : LanczosResult E).scale c
        = ⟨lanczosInit guess, [], [], [], false⟩ := by
      simp [LanczosResult.scale, lanczosInit_units]
    rw [hr0] at hloop
    rw [hloop]
    cases Outcome.assert debug (decide (0 ≤ p.pct ∧ p.pct < 100)) with
    | ok _ =>
      cases Outcome.assert debug (decide (0 ≤ p.tol)) with
      | ok _ =>
        cases Outcome.assert debug (decide (req ≤ p.maxit)) with
        | ok _ =>
          simp only [Outcome.ok_bind]
          cases lanczosLoop debug A (fun d s => calcTridiagEpairs Real.sqrt tol2 dstev d s req) req p.tol p.pct
            p.maxit p.maxit 1 0 ⟨lanczosInit guess, [], [], [], false⟩ with
          | ok r =>
            simp only [Outcome.ok_bind]
            change (do
              Outcome.assert debug (decide (req ≤ r.state.vs.length))
              let ys ← calcEvecs r.state.vs.length r.state.vs r.evecs req 0
              pure (r.scale c, ys)) = _
            cases Outcome.assert debug (decide (req ≤ r.state.vs.length)) with
            | ok _ =>
              simp only [Outcome.ok_bind]
              cases calcEvecs r.state.vs.length r.state.vs r.evecs req 0 <;> rfl
            | _ => rfl
          | _ => rfl
        | _ => rfl
      | _ => rfl
    | _ => rfl
  constructor
  · intro r ys h
    rw [key, h]
    exact ⟨r.scale c, rfl, rfl, rfl, rfl⟩
  · intro h r ys h'
    rw [key, Outcome.bind_eq_ok] at h'
    obtain ⟨⟨r₁, ys₁⟩, h1, -⟩ := h'
    exact h _ _ h1

/-- **C89 is violated** by Lanczos with one requested pair (the usual number): for every operator, every nonzero
start vector and every positive tolerance, in small enough units the run returns, after one iteration and without
any error, the (random) start vector divided by its length as the eigenvector. -/
theorem C89_lanczos_guess_violated (debug : Bool) (A : E → E)
    (dstev : List ℝ → List ℝ → List ℝ × List ℝ) (hd : DstevContract dstev) (tol2 : ℝ) (p : LanczosParams)
    (hmax : 1 ≤ p.maxit) (htol : 0 < p.tol) (hpct : 0 ≤ p.pct) (hpct' : p.pct < 100) (guess : E)
    (hg : guess ≠ 0) :
    ∃ c₀ : ℝ, 0 < c₀ ∧ ∀ c : ℝ, 0 < c → c ≤ c₀ → ∃ r s, |s| = 1 ∧ r.tests = [1] ∧ r.converged = true ∧
      solveLanczos debug (fun x => c • A x) (calcTridiagEpairs Real.sqrt tol2 dstev) 1 p guess
        = .ok (r, [(s * ‖guess‖⁻¹) • guess]) := by
  set v := ‖guess‖⁻¹ • guess with hv
  set α := ⟪v, A v⟫_ℝ with hα
  set β := ‖A v + (-α) • v‖ with hβ
  have hβ0 : 0 ≤ β := norm_nonneg _
  refine ⟨p.tol / (1 + β), by positivity, ?_⟩
  intro c hc hle
  have hcb : c * β ≤ p.tol := by
    have h1 : c * β ≤ p.tol / (1 + β) * β := mul_le_mul_of_nonneg_right hle hβ0
    have h2 : p.tol / (1 + β) * β ≤ p.tol := by
      rw [div_mul_eq_mul_div, div_le_iff₀ (by linarith)]
      nlinarith
    exact h1.trans h2
  obtain ⟨s, hs, hs1⟩ := tridiag_one dstev hd tol2 (c * α)
  have hstep : lanczosStep debug A (lanczosInit guess) = .ok ⟨[v], A v + (-α) • v, β, [α], []⟩ := by
    unfold lanczosStep lanczosInit
    rw [if_neg (by simpa using hg)]
    simp [hβ, hα, hv]
  have hstep' := lanczosStep_units debug A hc (lanczosInit guess)
  rw [lanczosInit_units, hstep, Outcome.ok_bind] at hstep'
  have hsc : (⟨[v], A v + (-α) • v, β, [α], []⟩ : LanczosState E).scale c
      = ⟨[v], c • (A v + (-α) • v), c * β, [c * α], []⟩ := by
    simp [LanczosState.scale]
  rw [hsc] at hstep'
  obtain ⟨n, hn⟩ : ∃ n, p.maxit = n + 1 := ⟨p.maxit - 1, by omega⟩
  refine ⟨⟨⟨[v], c • (A v + (-α) • v), c * β, [c * α], []⟩, [c * α], [s], [1], true⟩, s, hs1, rfl, rfl, ?_⟩
  unfold solveLanczos
  have a1 : Outcome.assert debug (decide (0 ≤ p.pct ∧ p.pct < 100)) = .ok () := by
    simp [Outcome.assert, hpct, hpct']
  have a2 : Outcome.assert debug (decide (0 ≤ p.tol)) = .ok () := by
    simp [Outcome.assert, htol.le]
  have a3 : Outcome.assert debug (decide (1 ≤ p.maxit)) = .ok () := by
    simp [Outcome.assert, hmax]
  rw [a1, a2, a3]
  simp only [Outcome.ok_bind]
  rw [hn, lanczosLoop]
  simp only [hstep', Outcome.ok_bind, true_or, if_true, hs]
  have hchk : checkConvergence (c * β) 1 1 p.tol [s] = .ok true := by
    rw [checkConvergence, if_neg (by omega), checkLoop_eq _ _ _ (by omega) _ _ _ _ (by simp)]
    simp only [Bool.true_and, Outcome.ok.injEq, decide_eq_true_eq]
    intro k hk
    obtain rfl : k = 0 := by omega
    simpa [hs1] using hcb
  simp only [hchk, Outcome.ok_bind, if_true, List.nil_append]
  have a4 : Outcome.assert debug (decide (1 ≤ ([v] : List E).length)) = .ok () := by
    simp [Outcome.assert]
  simp only [a4, Outcome.ok_bind]
  simp [calcEvecs, calcEvecLoop, Outcome.get, hv, smul_smul]

/-! ### Two or more pairs -/

/-- The eigenvalues of a tridiagonal matrix are bounded by the sum of the moduli of its entries. -/
theorem dstev_bound (dstev : List ℝ → List ℝ → List ℝ × List ℝ) (hd : DstevContract dstev) (d s : List ℝ)
    (hlen : s.length + 1 = d.length) (k : ℕ) (hk : k < d.length) :
    |(dstev d s).1.getD k 0| ≤ ∑ i ∈ range d.length, ∑ j ∈ range d.length, |tridiagEntry d s i j| := by
  have he := hd.eigen d s hlen k hk
  have ho := hd.orthonormal d s hlen k k hk hk
  rw [if_pos rfl] at ho
  set θ := (dstev d s).1.getD k 0
  set u : ℕ → ℝ := fun j => (column d.length (dstev d s).2 k).getD j 0
  have hu : ∀ j ∈ range d.length, |u j| ≤ 1 := by
    intro j hj
    have h1 : u j * u j ≤ 1 := by
      rw [← ho]
      exact single_le_sum (f := fun j => u j * u j) (fun j _ => mul_self_nonneg (u j)) hj
    rw [abs_le_one_iff_mul_self_le_one]
    exact h1
  have hθ : θ = ∑ i ∈ range d.length, ∑ j ∈ range d.length, tridiagEntry d s i j * u j * u i := by
    have : ∑ i ∈ range d.length, (θ * u i) * u i = θ := by
      simp only [mul_assoc, ← mul_sum]
      rw [show (∑ i ∈ range d.length, u i * u i) = 1 from ho, mul_one]
    rw [← this]
    apply sum_congr rfl
    intro i hi
    rw [← he i (mem_range.1 hi), sum_mul]
  rw [hθ]
  refine (abs_sum_le_sum_abs _ _).trans (sum_le_sum fun i hi => ?_)
  refine (abs_sum_le_sum_abs _ _).trans (sum_le_sum fun j hj => ?_)
  rw [abs_mul, abs_mul]
  have h1 := hu i hi
  have h2 := hu j hj
  have h0 := abs_nonneg (tridiagEntry d s i j)
  calc |tridiagEntry d s i j| * |u j| * |u i| ≤ |tridiagEntry d s i j| * 1 * 1 := by gcongr
    _ = _ := by ring

/-- If all eigenvalues are within the tolerance of each other, all but one are dropped. -/
theorem tridiag_purged (dstev : List ℝ → List ℝ → List ℝ × List ℝ) (hd : DstevContract dstev) (tol2 : ℝ)
    (d s : List ℝ) (hlen : s.length + 1 = d.length) (req : ℕ) (hreq : 2 ≤ req) (hn : req ≤ d.length)
    (hb : 2 * (∑ i ∈ range d.length, ∑ j ∈ range d.length, |tridiagEntry d s i j|) ≤ tol2) :
    calcTridiagEpairs Real.sqrt tol2 dstev d s req = ([], []) := by
  set B := ∑ i ∈ range d.length, ∑ j ∈ range d.length, |tridiagEntry d s i j| with hB
  have hB0 : 0 ≤ B := sum_nonneg fun i _ => sum_nonneg fun j _ => abs_nonneg _
  obtain ⟨kept, hpw, hmem, hfew, -⟩ := C30_all_or_nothing Real.sqrt tol2 (by linarith) dstev d s req
    (hd.len d s hlen) (hd.flat d s hlen) (hd.sorted d s hlen)
    (hd.sorted d.tail s.tail (by rw [List.length_tail, List.length_tail]; omega))
  apply hfew
  have hzero : ∀ i ∈ kept, i = 0 := by
    intro i hi
    by_contra h0
    obtain ⟨hi', hfirst, -⟩ := (hmem i).1 hi
    have h1 := hfirst 0 (by omega)
    have h2 := dstev_bound dstev hd d s hlen 0 (by omega)
    have h3 := dstev_bound dstev hd d s hlen i hi'
    have h4 := abs_sub ((dstev d s).1.getD 0 0) ((dstev d s).1.getD i 0)
    linarith
  by_contra hlong
  rw [not_lt] at hlong
  match kept, hpw, hzero, hlong with
  | [], _, _, h => simp at h; omega
  | [a], _, _, h => simp at h; omega
  | a :: b :: l, hpw, hz, _ =>
    have ha := hz a (by simp)
    have hb' := hz b (by simp)
    have := (List.pairwise_cons.1 hpw).1 b (by simp)
    omega

theorem lanczosStep_lengths (debug : Bool) (A : E → E) (s t : LanczosState E)
    (h : lanczosStep debug A s = .ok t) (h1 : s.diag.length = s.vs.length)
    (h2 : s.sub.length = s.vs.length - 1) : t.vs.length = s.vs.length + 1 ∧
      t.diag.length = t.vs.length ∧ t.sub.length = t.vs.length - 1 := by
  unfold lanczosStep at h
  by_cases hb : s.beta = 0
  · rw [if_pos hb] at h
    split at h <;> cases h
  · rw [if_neg hb] at h
    injection h with h
    subst h
    refine ⟨by simp, by simp [h1], ?_⟩
    cases hl : s.vs.getLast? with
    | none =>
      have hnil : s.vs = [] := List.getLast?_eq_none_iff.1 hl
      simp [h2, hnil]
    | some q =>
      have hne : s.vs ≠ [] := by rintro h; rw [h] at hl; cases hl
      have := List.length_pos_iff.2 hne
      simp [h2]
      omega

theorem tridiagEntry_units (c : ℝ) (d s : List ℝ) (i j : ℕ) :
    tridiagEntry (d.map (c * ·)) (s.map (c * ·)) i j = c * tridiagEntry d s i j := by
  unfold tridiagEntry
  simp only [getD_map_mul]
  split_ifs <;> simp

/-- **C89 is violated** by Lanczos with two or more requested pairs: for every operator and start vector for which
the first `2 (req - 1)` iterations do not break down, in small enough units all approximate eigenvalues are taken
for copies of one, and the run reads an empty array, in debug and in release builds. -/
theorem C89_lanczos_pairs_violated (debug : Bool) (A : E → E)
    (dstev : List ℝ → List ℝ → List ℝ × List ℝ) (hd : DstevContract dstev) (tol2 : ℝ) (htol2 : 0 < tol2)
    (p : LanczosParams) (req : ℕ) (hreq : 2 ≤ req) (hmax : req ≤ p.maxit) (htol : 0 ≤ p.tol)
    (hpct : 0 ≤ p.pct) (hpct' : p.pct < 100) (guess : E) (t : ℕ → LanczosState E)
    (ht0 : t 0 = lanczosInit guess)
    (ht : ∀ n, n < 2 * (req - 1) → lanczosStep debug A (t n) = .ok (t (n + 1))) :
    ∃ c₀ : ℝ, 0 < c₀ ∧ ∀ c : ℝ, 0 < c → c ≤ c₀ →
      solveLanczos debug (fun x => c • A x) (calcTridiagEpairs Real.sqrt tol2 dstev) req p guess
        = .ub "evecs out of range" := by
  have hlen : ∀ n, n ≤ 2 * (req - 1) → (t n).vs.length = n ∧ (t n).diag.length = (t n).vs.length ∧
      (t n).sub.length = (t n).vs.length - 1 := by
    intro n
    induction n with
    | zero => intro _; rw [ht0]; simp [lanczosInit]
    | succ n ih =>
      intro hn
      obtain ⟨h1, h2, h3⟩ := ih (by omega)
      have := lanczosStep_lengths debug A _ _ (ht n (by omega)) h2 h3
      exact ⟨by omega, this.2⟩
  set S := ∑ n ∈ range (2 * (req - 1) + 1), ∑ i ∈ range n, ∑ j ∈ range n,
    |tridiagEntry (t n).diag (t n).sub i j| with hS
  have hS0 : 0 ≤ S := sum_nonneg fun n _ => sum_nonneg fun i _ => sum_nonneg fun j _ => abs_nonneg _
  refine ⟨tol2 / (2 * (1 + S)), by positivity, ?_⟩
  intro c hc hle
  have hcS : 2 * (c * S) ≤ tol2 := by
    rw [le_div_iff₀ (by positivity)] at hle
    nlinarith
  have hpurge : ∀ n, n ≤ 2 * (req - 1) → req ≤ n →
      calcTridiagEpairs Real.sqrt tol2 dstev ((t n).scale c).diag ((t n).scale c).sub req = ([], []) := by
    intro n hn hrn
    obtain ⟨h1, h2, h3⟩ := hlen n hn
    refine tridiag_purged dstev hd tol2 _ _ ?_ req hreq ?_ ?_
    · simp only [LanczosState.scale, List.length_map]; omega
    · simp only [LanczosState.scale, List.length_map]; omega
    · have hdl : ((t n).scale c).diag.length = n := by
        simp only [LanczosState.scale, List.length_map]; omega
      rw [hdl]
      have e : ∑ i ∈ range n, ∑ j ∈ range n, |tridiagEntry ((t n).scale c).diag ((t n).scale c).sub i j|
          = c * ∑ i ∈ range n, ∑ j ∈ range n, |tridiagEntry (t n).diag (t n).sub i j| := by
        simp only [mul_sum]
        refine sum_congr rfl fun i _ => sum_congr rfl fun j _ => ?_
        simp only [LanczosState.scale]
        rw [tridiagEntry_units, abs_mul, abs_of_pos hc]
      rw [e]
      have h4 : ∑ i ∈ range n, ∑ j ∈ range n, |tridiagEntry (t n).diag (t n).sub i j| ≤ S :=
        single_le_sum (f := fun n => ∑ i ∈ range n, ∑ j ∈ range n, |tridiagEntry (t n).diag (t n).sub i j|)
          (fun n _ => sum_nonneg fun i _ => sum_nonneg fun j _ => abs_nonneg _) (mem_range.2 (by omega))
      have := mul_le_mul_of_nonneg_left h4 hc.le
      linarith
  have hloop : ∀ (left it prev : ℕ) (r : LanczosResult E), it + left = p.maxit + 1 → 1 ≤ it →
      it ≤ 2 * (req - 1) → it ≤ p.maxit → prev < it → prev < req → (1 < it → 1 ≤ prev) →
      r.state = (t (it - 1)).scale c →
      lanczosLoop debug (fun x => c • A x) (fun d s => calcTridiagEpairs Real.sqrt tol2 dstev d s req) req p.tol
        p.pct p.maxit left it prev r = .ub "evecs out of range" := by
    intro left
    induction left with
    | zero => intro it prev r h1 _ _ h2; omega
    | succ left ih =>
      intro it prev r h1 h2 h3 h4 h5 h6 h7 h8
      obtain ⟨n, rfl⟩ : ∃ n, it = n + 1 := ⟨it - 1, by omega⟩
      rw [lanczosLoop, h8, Nat.add_sub_cancel, lanczosStep_units debug A hc, ht n (by omega)]
      simp only [Outcome.ok_bind]
      split_ifs with htest
      · by_cases hrn : req ≤ n + 1
        · rw [hpurge (n + 1) h3 hrn]
          simp only
          rw [checkConvergence_nil _ _ _ _ (by omega) hrn]
          rfl
        · have hchk : ∀ evecs, checkConvergence ((t (n + 1)).scale c).beta (n + 1) req p.tol evecs = .ok false := by
            intro evecs
            rw [checkConvergence, if_pos (by omega)]
          simp only [hchk, Outcome.ok_bind, Bool.false_eq_true, if_false]
          exact ih (n + 1 + 1) (n + 1) _ (by omega) (by omega) (by omega) (by omega) (by omega) (by omega)
            (by omega) rfl
      · push Not at htest
        obtain ⟨g1, g2, g3⟩ := htest
        have hp1 := h7 (by omega)
        have h9 : n + 1 + 1 ≤ 2 * prev := by
          have : p.pct * (prev : ℤ) ≤ 99 * prev := mul_le_mul_of_nonneg_right (by omega) (by omega)
          push_cast at g3
          omega
        exact ih (n + 1 + 1) prev _ (by omega) (by omega) (by omega) (by omega) (by omega) (by omega)
          (by omega) rfl
  unfold solveLanczos
  have a1 : Outcome.assert debug (decide (0 ≤ p.pct ∧ p.pct < 100)) = .ok () := by
    simp [Outcome.assert, hpct, hpct']
  have a2 : Outcome.assert debug (decide (0 ≤ p.tol)) = .ok () := by
    simp [Outcome.assert, htol]
  have a3 : Outcome.assert debug (decide (req ≤ p.maxit)) = .ok () := by
    simp [Outcome.assert, hmax]
  rw [a1, a2, a3]
  simp only [Outcome.ok_bind]
  rw [hloop p.maxit 1 0 _ (by omega) (by omega) (by omega) (by omega) (by omega) (by omega) (by omega)
    (by rw [Nat.sub_self, ht0, lanczosInit_units])]
  rfl

end

/-! ## Examples -/

/-- Multiplication by 2 on the line, in units 1000 times smaller; a `dstev` for diagonal matrices. -/
example : DstevScales (fun d _ => (d, List.replicate (d.length * d.length) (1 : ℝ))) 1000 ∧
    ∃ r ys, solveLanczos true (fun x : ℝ => 2 * x) (calcTridiagEpairs Real.sqrt 5e-12
      (fun d _ => (d, List.replicate (d.length * d.length) (1 : ℝ)))) 1 ⟨10, 1e-4, 5⟩ 1 = .ok (r, ys) ∧
    ∃ r', solveLanczos true (fun x : ℝ => (1000 : ℝ) • (2 * x)) (calcTridiagEpairs Real.sqrt (1000 * 5e-12)
      (fun d _ => (d, List.replicate (d.length * d.length) (1 : ℝ)))) 1 ⟨10, 1000 * 1e-4, 5⟩ 1 = .ok (r', ys) ∧
    r'.evals = r.evals.map (1000 * ·) := by
  have hd : DstevScales (fun d _ => (d, List.replicate (d.length * d.length) (1 : ℝ))) 1000 := by
    intro d s
    simp
  have hrun : ∃ r ys, solveLanczos true (fun x : ℝ => 2 * x) (calcTridiagEpairs Real.sqrt 5e-12
      (fun d _ => (d, List.replicate (d.length * d.length) (1 : ℝ)))) 1 ⟨10, 1e-4, 5⟩ 1 = .ok (r, ys) := by
    refine ⟨⟨⟨[1], 0, 0, [2], []⟩, [2], [1], [1], true⟩, [1], ?_⟩
    have htol : (0 : ℝ) ≤ 1e-4 := by norm_num
    simp [solveLanczos, Outcome.assert, lanczosLoop, lanczosStep, lanczosInit, calcTridiagEpairs, spuriousFlags,
      isMarked, purgeLoop, normaliseColumn, checkConvergence, checkLoop, Outcome.get, calcEvecs, calcEvecLoop,
      htol]
  obtain ⟨r, ys, h⟩ := hrun
  obtain ⟨r', h1, h2, -, -⟩ := (C89_lanczos_partial true (fun x : ℝ => 2 * x) 1000 (by norm_num) 5e-12 _ hd 1
    ⟨10, 1e-4, 5⟩ 1).1 r ys h
  exact ⟨hd, r, ys, h, r', h1, h2⟩

/-- `[[2, 1], [1, 2]]` in small units with the tolerances of the code: one pair, the result is the start vector,
which is not an eigenvector. -/
example (debug : Bool) : ∃ c₀ : ℝ, 0 < c₀ ∧ ∀ c : ℝ, 0 < c → c ≤ c₀ → ∃ r s, |s| = 1 ∧ r.tests = [1] ∧
    r.converged = true ∧
    solveLanczos debug (fun x => c • exOp 2 1 x) (calcTridiagEpairs Real.sqrt 5e-12 exactDstev) 1 ⟨200, 1e-4, 5⟩
      (EuclideanSpace.single 0 1)
        = .ok (r, [(s * ‖(EuclideanSpace.single 0 1 : EuclideanSpace ℝ (Fin 2))‖⁻¹) • EuclideanSpace.single 0 1]) :=
  C89_lanczos_guess_violated debug (exOp 2 1) exactDstev exactDstev_contract 5e-12 ⟨200, 1e-4, 5⟩ (by norm_num)
    (by norm_num) (by norm_num) (by norm_num) _ (by simp)

/-- The same with two pairs. -/
example (debug : Bool) : ∃ c₀ : ℝ, 0 < c₀ ∧ ∀ c : ℝ, 0 < c → c ≤ c₀ →
    solveLanczos debug (fun x => c • exOp 2 1 x) (calcTridiagEpairs Real.sqrt 5e-12 exactDstev) 2 ⟨200, 1e-4, 5⟩
      (EuclideanSpace.single 0 1) = .ub "evecs out of range" := by
  have h := exOp_acts 2 1
  refine C89_lanczos_pairs_violated debug (exOp 2 1) exactDstev exactDstev_contract 5e-12 (by norm_num)
    ⟨200, 1e-4, 5⟩ 2 le_rfl (by norm_num) (by norm_num) (by norm_num) (by norm_num) _
    (fun n => if n = 0 then lanczosInit (EuclideanSpace.single 0 1)
      else if n = 1 then ⟨[EuclideanSpace.single 0 1], (1 : ℝ) • EuclideanSpace.single 1 1, 1, [2], []⟩
      else ⟨[EuclideanSpace.single 0 1, EuclideanSpace.single 1 1], 0, 0, [2, 2], [1]⟩) rfl ?_
  intro n hn
  have : n = 0 ∨ n = 1 := by omega
  rcases this with rfl | rfl
  · exact two_step1 debug _ 2 1 (by norm_num) _ _ h
  · exact two_step2 debug _ 2 1 (by norm_num) _ _ h

end Mfmg
