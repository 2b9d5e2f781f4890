import Verif.Lemmas.LanczosRate
import Verif.Props.Deflation

/-!
# How fast the Lanczos solver finds the smallest eigenpair (C100)
-/

set_option autoImplicit false

namespace Mfmg

open Finset
open scoped InnerProductSpace

section

variable {E : Type} [NormedAddCommGroup E] [InnerProductSpace ℝ E]

/-- **C100 (number of iterations).** One pair is requested and the start vector is `u + g`: `u` is an
eigenvector for the smallest eigenvalue `l1`, `g` lies in the rest of the space, where the eigenvalues lie
between `l2 > l1` and `ln`.  Let `m` be a number such that the bound `startLeft`, which falls by the factor
`(1 - √gap) / (1 + √gap)` per iteration and does not depend on the size of the problem, meets the tolerance.
Then every run that returns has met the tolerance, and the number of its iterations exceeds `m + 1` by at most
the percentage between two tests.  If it has made `j + 1` iterations, the eigenvalue is too large by at most
`(ln - l1) startLeft(j)²`, and the unit vector is near the line of `u`.

`startLeft² (ln - l1) + tol2 < (l2 - l1) cosSq` says that the bound has also passed the threshold below which
the filter for spurious eigenvalues does not touch the pair. -/
theorem C100_rate_partial (debug : Bool) (A : E →ₗ[ℝ] E) (S : Submodule ℝ E) [FiniteDimensional ℝ S]
    (u g : E) (l1 l2 ln : ℝ) (h : SmallestSplit A S u l1 l2 ln) (hg : g ∈ S)
    (dstev : List ℝ → List ℝ → List ℝ × List ℝ) (hd : DstevContract dstev) (tol2 : ℝ)
    (p : LanczosParams) (hpct : 0 ≤ p.pct) (m : ℕ) (hm : m + 1 ≤ p.maxit)
    (hacc : (ln - l1) * startLeft l1 l2 ln u g m ≤ p.tol)
    (hfilter : (ln - l1) * startLeft l1 l2 ln u g m ^ 2 + tol2 < (l2 - l1) * cosSq u g)
    (r : LanczosResult E) (ys : List E)
    (hr : solveLanczos debug A (calcTridiagEpairs Real.sqrt tol2 dstev) 1 p (u + g) = .ok (r, ys)) :
    r.converged = true ∧ 100 * ((r.state.vs.length : ℤ) - 1) ≤ (100 + p.pct) * m ∧
      ∀ j : ℕ, j + 1 ≤ r.state.vs.length →
        (ln - l1) * startLeft l1 l2 ln u g j ^ 2 + tol2 < (l2 - l1) * cosSq u g →
        ∃ θ y, r.evals = [θ] ∧ ys = [y] ∧ ‖y‖ = 1 ∧ l1 ≤ θ ∧
          θ - l1 ≤ (ln - l1) * startLeft l1 l2 ln u g j ^ 2 ∧ ‖A y - θ • y‖ ≤ p.tol ∧
          ∃ a : ℝ, ‖y - a • u‖ ^ 2 ≤ (θ - l1) / (l2 - l1) := by
  have hS := h.both_maps
  have hsy := h.both_symm
  have hstep : ∀ s s', LanczosFrom A (Submodule.span ℝ {u} ⊔ S) (u + g) s → lanczosStep debug A s = .ok s' →
      LanczosFrom A (Submodule.span ℝ {u} ⊔ S) (u + g) s' := fun s s' hs hst => lanczosStep_from hS hsy s s' hs hst
  have h0 := lanczosInit_from A _ (u + g) (both_start (u := u) hg)
  obtain ⟨hfrom, -, hys, hrest⟩ := solveLanczos_ok debug A _ hstep _ 1 p (u + g) h0 r ys hr
  obtain ⟨-, -, -, hep, hchk, hmax, hn⟩ := hrest (by omega)
  have hgood : ∀ s, LanczosFrom A (Submodule.span ℝ {u} ⊔ S) (u + g) s → m + 1 ≤ s.vs.length →
      checkConvergence s.beta s.vs.length 1 p.tol (calcTridiagEpairs Real.sqrt tol2 dstev s.diag s.sub 1).2 =
        .ok true := by
    intro s hs hms
    have herr := h.ritz_error hg hs hd hms
    exact h.test hg hs hd hms hacc (by linarith)
  have hconv : r.converged = true := by
    by_contra hc
    have hc : r.converged = false := by simpa using hc
    have := hgood r.state hfrom (by have := hmax hc; omega)
    rw [← hep, hchk, hc] at this
    cases this
  have hsched := (C32_tests debug A _ 1 p (by omega) (u + g) r ys hr).2.2.1
  have htests : ∀ t ∈ r.tests.dropLast, t < m + 1 := by
    unfold solveLanczos at hr
    simp only [Outcome.bind_eq_ok] at hr
    obtain ⟨_, -, _, -, _, -, r', hr', _, -, ys', -, hr⟩ := hr
    simp only [Outcome.pure_eq, Outcome.ok.injEq, Prod.mk.injEq] at hr
    obtain ⟨rfl, rfl⟩ := hr
    exact loop_tests hstep hgood _ _ _ ⟨lanczosInit (u + g), [], [], [], false⟩ _ rfl h0 (fun t ht => by cases ht) hr'
  refine ⟨hconv, last_test hpct hsched htests, fun j hj hfj => ?_⟩
  have herr := h.ritz_error hg hfrom hd hj
  have hk := h.kept hg hfrom hd hn (tol2 := tol2) (by linarith)
  rw [hk] at hep
  obtain ⟨y, e1, e2, e3, e4, e5, -, e7⟩ := h.returned hfrom hd hn hys hep
  refine ⟨_, y, e1, e2, e3, e4, herr, ?_, e7⟩
  have ht := test_kept hfrom.inv hn hd p.tol hep
  simp only at ht
  rw [hchk, hconv, Outcome.ok.injEq] at ht
  rw [e5]
  exact of_decide_eq_true ht.symm

/-- **C100 (a good start vector).** Every step is tested (`percent_overshoot` 0, the default).  If the Rayleigh
quotient `ρ` of the start vector is below the threshold of the filter, the solver always returns and reports
an eigenvalue `θ` with `l1 ≤ θ ≤ ρ`.  If in addition enough iterations are allowed, it meets the tolerance
after at most `m + 1` of them, and then `θ - l1 ≤ tol² / (l2 - ρ)`: it is the smallest eigenvalue, not one
of the others. -/
theorem C100_good_start (debug : Bool) (A : E →ₗ[ℝ] E) (S : Submodule ℝ E) [FiniteDimensional ℝ S]
    (u g : E) (l1 l2 ln : ℝ) (h : SmallestSplit A S u l1 l2 ln) (hg : g ∈ S)
    (dstev : List ℝ → List ℝ → List ℝ × List ℝ) (hd : DstevContract dstev) (tol2 : ℝ) (htol2 : 0 ≤ tol2)
    (p : LanczosParams) (hpct : p.pct = 0) (htol : 0 ≤ p.tol) (hmax : 1 ≤ p.maxit) (ρ : ℝ)
    (hρ : ⟪A (u + g), u + g⟫_ℝ = ρ * ⟪u + g, u + g⟫_ℝ)
    (hfilter : ρ - l1 + tol2 < (l2 - l1) * cosSq u g) :
    ∃ r θ y, solveLanczos debug A (calcTridiagEpairs Real.sqrt tol2 dstev) 1 p (u + g) = .ok (r, [y]) ∧
      r.evals = [θ] ∧ ‖y‖ = 1 ∧ l1 ≤ θ ∧ θ ≤ ρ ∧ ρ < l2 ∧
      (∃ a : ℝ, ‖y - a • u‖ ^ 2 ≤ (θ - l1) / (l2 - l1)) ∧
      (∀ j : ℕ, j + 1 ≤ r.state.vs.length → θ - l1 ≤ (ln - l1) * startLeft l1 l2 ln u g j ^ 2) ∧
      (r.converged = true → ‖A y - θ • y‖ ≤ p.tol ∧ θ - l1 ≤ p.tol ^ 2 / (l2 - ρ)) ∧
      ∀ m : ℕ, m + 1 ≤ p.maxit → (ln - l1) * startLeft l1 l2 ln u g m ≤ p.tol →
        r.converged = true ∧ r.state.vs.length ≤ m + 1 := by
  have hS := h.both_maps
  have hsy := h.both_symm
  have hstep : ∀ s s', LanczosFrom A (Submodule.span ℝ {u} ⊔ S) (u + g) s → lanczosStep debug A s = .ok s' →
      LanczosFrom A (Submodule.span ℝ {u} ⊔ S) (u + g) s' := fun s s' hs hst => lanczosStep_from hS hsy s s' hs hst
  have h0 := lanczosInit_from A _ (u + g) (both_start (u := u) hg)
  have hne := h.start_ne hg
  have hρ' : ⟪A (u + g), u + g⟫_ℝ / ⟪u + g, u + g⟫_ℝ = ρ := by
    rw [hρ, mul_div_cancel_right₀ _ (inner_self_ne_zero.2 hne)]
  have hle : ∀ s, LanczosFrom A (Submodule.span ℝ {u} ⊔ S) (u + g) s → 1 ≤ s.vs.length →
      (dstev s.diag s.sub).1.getD 0 0 ≤ ρ := by
    intro s hs hn
    have := hs.ritz_le hne hd hn
    rwa [hρ'] at this
  have hkept : ∀ s, LanczosFrom A (Submodule.span ℝ {u} ⊔ S) (u + g) s → 1 ≤ s.vs.length → _ := fun s hs hn =>
    h.kept hg hs hd hn (tol2 := tol2) (by have := hle s hs hn; linarith)
  have hgap := h.gap
  have hcos : cosSq u g ≤ 1 := by
    have hu : 0 < ‖u‖ ^ 2 := by have := norm_pos_iff.2 h.ne; positivity
    rw [cosSq, div_le_one (by positivity)]
    have := sq_nonneg ‖g‖
    linarith
  have hρ2 : ρ < l2 := by nlinarith
  obtain ⟨r, hr⟩ := loop_ok (maxit := p.maxit) (A := A) (debug := debug) hstep (req := 1) (tol := p.tol)
    (tridiag := fun d s => calcTridiagEpairs Real.sqrt tol2 dstev d s 1) (by
      intro s hs hn
      refine ⟨_, test_kept hs.inv hn hd p.tol (hkept s hs hn), fun hb => ?_⟩
      rw [hb, zero_mul]
      exact decide_eq_true htol) p.maxit 1 0 ⟨lanczosInit (u + g), [], [], [], false⟩ rfl (by omega) h0
      (norm_ne_zero_iff.2 hne)
  obtain ⟨ys, hys⟩ : ∃ ys, solveLanczos debug A (calcTridiagEpairs Real.sqrt tol2 dstev) 1 p (u + g) =
      .ok (r, ys) := by
    obtain ⟨hfrom, -, -, -, hrest⟩ := lanczosLoop_spec debug A _ hstep
      (fun d s => calcTridiagEpairs Real.sqrt tol2 dstev d s 1) 1 p.tol 0 p.maxit p.maxit 1 0
      ⟨lanczosInit (u + g), [], [], [], false⟩ (by omega) rfl h0
      ⟨Or.inl ⟨rfl, rfl, rfl⟩, by simp, fun c h1 h2 => by omega⟩ r hr
    obtain ⟨ht, hh, hl, hep, -⟩ := hrest (by omega)
    have hn : 1 ≤ r.state.vs.length := by
      have hmem := List.mem_of_getLast? hl
      rcases ht.start with ⟨h1, -, -⟩ | ⟨-, -, -⟩
      · rw [h1] at hh; cases hh
      · by_contra h0'
        obtain ⟨i, hi, e⟩ := List.mem_iff_getElem.1 hmem
        rcases i with _ | i
        · have : r.tests.head? = some r.tests[0] := by
            rw [List.head?_eq_getElem?, List.getElem?_eq_getElem hi]
          rw [hh] at this
          injection this with this
          omega
        · have := (ht.chain i _ _ (List.getElem?_eq_getElem (by omega)) (List.getElem?_eq_getElem hi)).1
          omega
    have hsz : r.state.sub.length + 1 = r.state.diag.length := by
      rw [hfrom.inv.lenSub, hfrom.inv.lenDiag]; omega
    have hcol := firstColumn_length hd hsz
    rw [hkept _ hfrom hn] at hep
    injection hep with e1 e2
    unfold solveLanczos
    have a1 : Outcome.assert debug (decide (0 ≤ p.pct ∧ p.pct < 100)) = .ok () := by
      rw [hpct]; simp [Outcome.assert]
    have a2 : Outcome.assert debug (decide (0 ≤ p.tol)) = .ok () := by simp [Outcome.assert, htol]
    have a3 : Outcome.assert debug (decide (1 ≤ p.maxit)) = .ok () := by simp [Outcome.assert, hmax]
    have a4 : Outcome.assert debug (decide (1 ≤ r.state.vs.length)) = .ok () := by simp [Outcome.assert, hn]
    rw [a1, Outcome.ok_bind, a2, Outcome.ok_bind, a3, Outcome.ok_bind, hpct, hr, Outcome.ok_bind, a4,
      Outcome.ok_bind, calcEvecs_eq _ _ _ _ (by rw [e2, hcol, hfrom.inv.lenDiag]; omega)]
    exact ⟨_, rfl⟩
  obtain ⟨hfrom, -, hev, hrest⟩ := solveLanczos_ok debug A _ hstep _ 1 p (u + g) h0 r ys hys
  obtain ⟨-, -, -, hep, hchk, hmx, hn⟩ := hrest (by omega)
  rw [hkept _ hfrom hn] at hep
  obtain ⟨y, e1, e2, e3, e4, e5, e6, e7⟩ := h.returned hfrom hd hn hev hep
  have hθ := hle _ hfrom hn
  have ht := test_kept hfrom.inv hn hd p.tol hep
  simp only at ht
  rw [hchk, Outcome.ok.injEq] at ht
  subst e2
  refine ⟨r, _, y, hys, e1, e3, e4, hθ, hρ2, e7, fun j hj => h.ritz_error hg hfrom hd hj, fun hc => ?_,
    fun m hm hacc => ?_⟩
  · rw [hc] at ht
    have hres : ‖A y - (dstev r.state.diag r.state.sub).1.getD 0 0 • y‖ ≤ p.tol := by
      rw [e5]; exact of_decide_eq_true ht.symm
    refine ⟨hres, ?_⟩
    rw [le_div_iff₀ (by linarith)]
    have h1 : ‖A y - (dstev r.state.diag r.state.sub).1.getD 0 0 • y‖ ^ 2 ≤ p.tol ^ 2 :=
      pow_le_pow_left₀ (norm_nonneg _) hres 2
    refine le_trans ?_ (e6.trans h1)
    exact mul_le_mul_of_nonneg_left (by linarith) (by linarith)
  · have hgood : ∀ s, LanczosFrom A (Submodule.span ℝ {u} ⊔ S) (u + g) s → m + 1 ≤ s.vs.length →
        checkConvergence s.beta s.vs.length 1 p.tol
          (calcTridiagEpairs Real.sqrt tol2 dstev s.diag s.sub 1).2 = .ok true := by
      intro s hs hms
      exact h.test hg hs hd hms hacc (by have := hle s hs (by omega); linarith)
    have hconv : r.converged = true := by
      by_contra hc
      have hc : r.converged = false := by simpa using hc
      have := hgood r.state hfrom (by have := hmx hc; omega)
      rw [hkept _ hfrom hn, ← hep, hchk, hc] at this
      cases this
    have hsched := (C32_tests debug A _ 1 p (by omega) (u + g) r [y] hys).2.2.1
    have htests := loop_tests hstep hgood _ _ _ ⟨lanczosInit (u + g), [], [], [], false⟩ _ rfl h0 (fun t ht => by cases ht) hr
    have := last_test (by omega) hsched htests
    rw [hpct] at this
    exact ⟨hconv, by omega⟩

/-- **C100 (the solver as called).** `Lanczos::solve` for one pair without deflation, with a good start vector
and enough iterations: it returns one unit vector whose residual meets the tolerance and a value above the
smallest eigenvalue by at most `tol² / (l2 - ρ)`. -/
theorem C100_solve (debug : Bool) (A : E →ₗ[ℝ] E) (S : Submodule ℝ E) [FiniteDimensional ℝ S]
    (u g : E) (l1 l2 ln : ℝ) (h : SmallestSplit A S u l1 l2 ln) (hg : g ∈ S)
    (dstev : List ℝ → List ℝ → List ℝ × List ℝ) (hd : DstevContract dstev) (tol2 : ℝ) (htol2 : 0 ≤ tol2)
    (sortPerm : List ℝ → List ℕ) (perturb : ℕ → E → E) (emptyVec : E)
    (p : LanczosParams) (hpct : p.pct = 0) (htol : 0 ≤ p.tol) (ρ : ℝ)
    (hρ : ⟪A (u + g), u + g⟫_ℝ = ρ * ⟪u + g, u + g⟫_ℝ)
    (hfilter : ρ - l1 + tol2 < (l2 - l1) * cosSq u g) (m : ℕ) (hm : m + 1 ≤ p.maxit)
    (hacc : (ln - l1) * startLeft l1 l2 ln u g m ≤ p.tol) :
    ∃ θ y, lanczosSolve debug A (calcTridiagEpairs Real.sqrt tol2 dstev) sortPerm perturb emptyVec 1 none p
        (u + g) = .ok ([θ], [y]) ∧
      ‖y‖ = 1 ∧ ‖A y - θ • y‖ ≤ p.tol ∧ l1 ≤ θ ∧ θ ≤ l1 + p.tol ^ 2 / (l2 - ρ) ∧
      ∃ a : ℝ, ‖y - a • u‖ ^ 2 ≤ (θ - l1) / (l2 - l1) := by
  obtain ⟨r, θ, y, hr, he, hy, h1, h2, h3, h4, -, h6, h7⟩ := C100_good_start debug A S u g l1 l2 ln h hg dstev
    hd tol2 htol2 p hpct htol (by omega) ρ hρ hfilter
  obtain ⟨h8, h9⟩ := h6 (h7 m hm hacc).1
  refine ⟨θ, y, ?_, hy, h8, h1, by linarith, h4⟩
  have hdef : deflatedVmult (⇑A) [] = ⇑A := rfl
  have hdg : ∀ x : E, deflate [] x = x := fun _ => rfl
  unfold lanczosSolve
  have a2 : Outcome.assert debug (decide (1 ≤ 1)) = .ok () := by simp [Outcome.assert]
  simp only [a2, Outcome.ok_bind]
  rw [cycleLoop]
  simp [hdef, hdg, hr, he, savePairs, cycleLoop, finishPairs]

/-- **C100 is violated by the code: a start vector without a component in the smallest eigenvector.** Whatever
is requested and whatever the tolerances are, a run that returns reports only eigenvalues of at least `l2`, and
nothing tells the caller that the smallest one is missing. -/
theorem C100_missed_violated (debug : Bool) (A : E →ₗ[ℝ] E) (S : Submodule ℝ E)
    (u g : E) (l1 l2 ln : ℝ) (h : SmallestSplit A S u l1 l2 ln) (hg : g ∈ S)
    (dstev : List ℝ → List ℝ → List ℝ × List ℝ) (hd : DstevContract dstev) (tol2 : ℝ) (req : ℕ)
    (p : LanczosParams) (hmax : 0 < p.maxit) (r : LanczosResult E) (ys : List E)
    (hr : solveLanczos debug A (calcTridiagEpairs Real.sqrt tol2 dstev) req p g = .ok (r, ys)) :
    ∀ θ ∈ r.evals, l1 < l2 ∧ l2 ≤ θ := by
  intro θ hθ
  obtain ⟨hinv, -, -, hrest⟩ := solveLanczos_ok debug A (LanczosInv A S)
    (fun s s' hs hst => (lanczosStep_inv debug A S h.maps h.symm s hs s' hst).1) _ req p g
    (lanczosInit_inv A S g hg) r ys hr
  obtain ⟨-, -, -, hep, -, -, hn⟩ := hrest hmax
  have hsz : r.state.sub.length + 1 = r.state.diag.length := by rw [hinv.lenSub, hinv.lenDiag]; omega
  rw [calcTridiagEpairs_eq Real.sqrt tol2 dstev _ _ req (hd.len _ _ hsz) (hd.flat _ _ hsz)] at hep
  split_ifs at hep with hc
  · injection hep with e1 e2
    rw [e1] at hθ
    cases hθ
  · injection hep with e1 e2
    rw [e1] at hθ
    obtain ⟨k, hk, rfl⟩ := List.mem_map.1 hθ
    have hk : k < r.state.diag.length :=
      List.mem_range.1 (List.mem_of_mem_filter (List.mem_of_mem_take hk))
    rw [hinv.lenDiag] at hk
    obtain ⟨y, hyS, -, hyy, hAy, -⟩ := ritz_pairs hinv hn hd hk
    have := h.lower y hyS
    rw [hyy, hAy, mul_one] at this
    exact ⟨h.gap, this⟩

/-- **C100 is violated by the code: a start vector with a small component in the smallest eigenvector.** For
every positive tolerance there are start vectors with a component in the direction of the smallest eigenvector
from which the solver stops after the first iteration, reports that the tolerance is met, and returns a value
that is nearly the other eigenvalue.  `u` and `b` are unit eigenvectors, the start vector is `ε u + b`. -/
theorem C100_early_stop_violated (debug : Bool) (A : E →ₗ[ℝ] E) (u b : E) (l1 l2 : ℝ) (hl : l1 < l2)
    (hu : A u = l1 • u) (hb : A b = l2 • b) (hun : ‖u‖ = 1) (hbn : ‖b‖ = 1) (ho : ⟪u, b⟫_ℝ = 0)
    (dstev : List ℝ → List ℝ → List ℝ × List ℝ) (hd : DstevContract dstev) (tol2 : ℝ)
    (p : LanczosParams) (hpct : 0 ≤ p.pct ∧ p.pct < 100) (hmax : 1 ≤ p.maxit) (ε : ℝ) (hε : 0 < ε)
    (hsmall : ε * (l2 - l1) ≤ p.tol) :
    ∃ r ys, solveLanczos debug A (calcTridiagEpairs Real.sqrt tol2 dstev) 1 p (ε • u + b) = .ok (r, ys) ∧
      r.converged = true ∧ r.state.vs.length = 1 ∧ ⟪u, ε • u + b⟫_ℝ = ε ∧
      ∃ θ, r.evals = [θ] ∧ θ - l1 = (l2 - l1) / (1 + ε ^ 2) ∧ l2 - θ = ε ^ 2 * (l2 - l1) / (1 + ε ^ 2) := by
  have huu : ⟪u, u⟫_ℝ = 1 := by rw [real_inner_self_eq_norm_sq, hun]; norm_num
  have hbb : ⟪b, b⟫_ℝ = 1 := by rw [real_inner_self_eq_norm_sq, hbn]; norm_num
  have hbu : ⟪b, u⟫_ℝ = 0 := by rw [real_inner_comm]; exact ho
  have hin : ∀ a c a' c' : ℝ, ⟪a • u + c • b, a' • u + c' • b⟫_ℝ = a * a' + c * c' := by
    intro a c a' c'
    simp only [inner_add_left, inner_add_right, inner_smul_left, inner_smul_right, huu, hbb, ho, hbu, conj_trivial]
    ring
  have hpos : 0 < 1 + ε ^ 2 := by positivity
  have hq : ‖ε • u + b‖ ^ 2 = 1 + ε ^ 2 := by
    have := hin ε 1 ε 1
    rw [one_smul, real_inner_self_eq_norm_sq] at this
    rw [this]; ring
  have hq0 : ‖ε • u + b‖ ≠ 0 := by
    intro h0
    rw [h0] at hq
    norm_num at hq
    linarith
  set q := ‖ε • u + b‖ with hqdef
  obtain ⟨v, hv⟩ : ∃ v, v = q⁻¹ • (ε • u + b) := ⟨_, rfl⟩
  have hv' : v = (q⁻¹ * ε) • u + q⁻¹ • b := by rw [hv]; module
  have hqq : q⁻¹ ^ 2 = 1 / (1 + ε ^ 2) := by rw [inv_pow, hq, one_div]
  have hAv : A v = (q⁻¹ * ε * l1) • u + (q⁻¹ * l2) • b := by
    rw [hv', map_add, map_smul, map_smul, hu, hb]; module
  obtain ⟨α, hα⟩ : ∃ α, α = ⟪v, A v⟫_ℝ := ⟨_, rfl⟩
  have hα' : α = (ε ^ 2 * l1 + l2) / (1 + ε ^ 2) := by
    rw [hα, hv', map_add, map_smul, map_smul, hu, hb, smul_smul, smul_smul, hin]
    have : q⁻¹ * ε * (q⁻¹ * ε * l1) + q⁻¹ * (q⁻¹ * l2) = q⁻¹ ^ 2 * (ε ^ 2 * l1 + l2) := by ring
    rw [this, hqq]; ring
  have hw : ‖A v + (-α) • v‖ ≤ p.tol := by
    refine le_trans ?_ hsmall
    refine (pow_le_pow_iff_left₀ (norm_nonneg _) (mul_nonneg hε.le (by linarith)) two_ne_zero).1 ?_
    have e : A v + (-α) • v = (q⁻¹ * ε * (l1 - α)) • u + (q⁻¹ * (l2 - α)) • b := by
      rw [hAv, hv']; module
    have h1 : l1 - α = -((l2 - l1) / (1 + ε ^ 2)) := by rw [hα']; field_simp; ring
    have h2 : l2 - α = ε ^ 2 * (l2 - l1) / (1 + ε ^ 2) := by rw [hα']; field_simp; ring
    rw [e, ← real_inner_self_eq_norm_sq, hin, h1, h2]
    have : q⁻¹ * ε * -((l2 - l1) / (1 + ε ^ 2)) * (q⁻¹ * ε * -((l2 - l1) / (1 + ε ^ 2))) +
        q⁻¹ * (ε ^ 2 * (l2 - l1) / (1 + ε ^ 2)) * (q⁻¹ * (ε ^ 2 * (l2 - l1) / (1 + ε ^ 2))) =
        q⁻¹ ^ 2 * ((ε * (l2 - l1)) ^ 2 * ((1 + ε ^ 2) * (1 / (1 + ε ^ 2)) ^ 2)) := by ring
    rw [this, hqq]
    have h3 : (1 + ε ^ 2) * (1 / (1 + ε ^ 2)) ^ 2 = 1 / (1 + ε ^ 2) := by field_simp
    have h4 : 1 / (1 + ε ^ 2) ≤ 1 := by rw [div_le_one hpos]; nlinarith [sq_nonneg ε]
    have h5 : 0 ≤ 1 / (1 + ε ^ 2) := by positivity
    rw [h3]
    have h6 := sq_nonneg (ε * (l2 - l1))
    calc 1 / (1 + ε ^ 2) * ((ε * (l2 - l1)) ^ 2 * (1 / (1 + ε ^ 2)))
        ≤ 1 * ((ε * (l2 - l1)) ^ 2 * 1) :=
          mul_le_mul h4 (mul_le_mul_of_nonneg_left h4 h6) (mul_nonneg h6 h5) zero_le_one
      _ = (ε * (l2 - l1)) ^ 2 := by ring
  have htol : 0 ≤ p.tol := le_trans (norm_nonneg _) hw
  obtain ⟨s, hs, hs1⟩ := tridiag_one dstev hd tol2 α
  obtain ⟨n, hn⟩ : ∃ n, p.maxit = n + 1 := ⟨p.maxit - 1, by omega⟩
  have hstep : lanczosStep debug A (lanczosInit (ε • u + b)) =
      .ok ⟨[v], A v + (-α) • v, ‖A v + (-α) • v‖, [α], []⟩ := by
    unfold lanczosStep lanczosInit
    simp only [← hqdef]
    rw [if_neg hq0]
    simp only [List.getLast?_nil, ← hv, ← hα, List.nil_append]
  have hchk : checkConvergence ‖A v + (-α) • v‖ 1 1 p.tol [s] = .ok true := by
    rw [checkConvergence, if_neg (by omega), checkLoop_eq _ _ _ (by omega) _ _ _ _ (by simp)]
    simp only [Bool.true_and, Outcome.ok.injEq, decide_eq_true_eq]
    intro t ht
    obtain rfl : t = 0 := by omega
    simp only [Nat.add_zero, Nat.mul_zero, Nat.sub_self, List.getD_cons_zero, hs1, mul_one]
    exact hw
  refine ⟨⟨⟨[v], A v + (-α) • v, ‖A v + (-α) • v‖, [α], []⟩, [α], [s], [1], true⟩, [s • v], ?_, rfl, rfl, ?_, α,
    rfl, ?_, ?_⟩
  · unfold solveLanczos
    have a1 : Outcome.assert debug (decide (0 ≤ p.pct ∧ p.pct < 100)) = .ok () := by
      simp [Outcome.assert, hpct]
    have a2 : Outcome.assert debug (decide (0 ≤ p.tol)) = .ok () := by simp [Outcome.assert, htol]
    have a3 : Outcome.assert debug (decide (1 ≤ p.maxit)) = .ok () := by simp [Outcome.assert, hmax]
    rw [a1, Outcome.ok_bind, a2, Outcome.ok_bind, a3, Outcome.ok_bind, hn, lanczosLoop]
    simp only [hstep, Outcome.ok_bind, true_or, if_true, hs, hchk, List.nil_append]
    have a4 : Outcome.assert debug (decide (1 ≤ [v].length)) = .ok () := by simp [Outcome.assert]
    rw [a4, Outcome.ok_bind, calcEvecs_eq _ _ _ _ (by simp)]
    simp [Outcome.ok_bind, Outcome.pure_eq]
  · rw [inner_add_right, inner_smul_right, huu, ho]; ring
  · rw [hα']; field_simp; ring
  · rw [hα']; field_simp; ring

end

/-! ## Examples -/

/-- `diag(0, 9, 16)`: the relative gap is `9/16`, and `(1 - 3/4) / (1 + 3/4) = 1/7`. -/
noncomputable def exDiag3 : EuclideanSpace ℝ (Fin 3) →ₗ[ℝ] EuclideanSpace ℝ (Fin 3) :=
  Matrix.toEuclideanLin !![(0 : ℝ), 0, 0; 0, 9, 0; 0, 0, 16]

theorem exDiag3_apply (x : EuclideanSpace ℝ (Fin 3)) :
    exDiag3 x 0 = 0 ∧ exDiag3 x 1 = 9 * x 1 ∧ exDiag3 x 2 = 16 * x 2 := by
  refine ⟨?_, ?_, ?_⟩ <;> simp [exDiag3, Matrix.toLpLin_apply, dotProduct, Fin.sum_univ_three]

theorem inner3 (x y : EuclideanSpace ℝ (Fin 3)) : ⟪x, y⟫_ℝ = x 0 * y 0 + x 1 * y 1 + x 2 * y 2 := by
  simp [PiLp.inner_apply, Fin.sum_univ_three, mul_comm]

/-- The vectors without a first component. -/
noncomputable def exRest3 : Submodule ℝ (EuclideanSpace ℝ (Fin 3)) where
  carrier := {x | x 0 = 0}
  add_mem' := by intro a b ha hb; simp only [Set.mem_ofPred_eq, PiLp.add_apply] at *; rw [ha, hb, add_zero]
  zero_mem' := by simp
  smul_mem' := by intro c x hx; simp only [Set.mem_ofPred_eq, PiLp.smul_apply, smul_eq_mul] at *; rw [hx, mul_zero]

theorem exRest3_mem (x : EuclideanSpace ℝ (Fin 3)) : x ∈ exRest3 ↔ x 0 = 0 := Iff.rfl

/-- The start vector is `(1, 1/4, 1/4)`. -/
noncomputable def exG3 : EuclideanSpace ℝ (Fin 3) := !₂[0, 1 / 4, 1 / 4]

theorem exSplit3 : SmallestSplit exDiag3 exRest3 (EuclideanSpace.single 0 1) 0 9 16 where
  eig := by
    ext i
    obtain ⟨h0, h1, h2⟩ := exDiag3_apply (EuclideanSpace.single 0 1)
    fin_cases i
    · simpa using h0
    · simpa using h1
    · simpa using h2
  ne := by
    intro h
    have := congrArg (fun v => v 0) h
    simp at this
  maps := fun x _ => (exDiag3_apply x).1
  symm := by
    intro x _ y _
    obtain ⟨h0, h1, h2⟩ := exDiag3_apply x
    obtain ⟨k0, k1, k2⟩ := exDiag3_apply y
    rw [inner3, inner3, h0, h1, h2, k0, k1, k2]; ring
  orth := by
    intro x hx
    rw [exRest3_mem] at hx
    rw [inner3, hx]; simp
  lower := by
    intro x hx
    obtain ⟨h0, h1, h2⟩ := exDiag3_apply x
    rw [exRest3_mem] at hx
    rw [inner3, inner3, h0, h1, h2, hx]
    nlinarith [mul_self_nonneg (x 2)]
  upper := by
    intro x hx
    obtain ⟨h0, h1, h2⟩ := exDiag3_apply x
    rw [exRest3_mem] at hx
    rw [inner3, inner3, h0, h1, h2, hx]
    nlinarith [mul_self_nonneg (x 1)]
  gap := by norm_num
  spread := by norm_num

theorem exG3_mem : exG3 ∈ exRest3 := by rw [exRest3_mem]; simp [exG3]

theorem exG3_norm : ‖exG3‖ ^ 2 = 1 / 8 := by
  rw [← real_inner_self_eq_norm_sq, inner3]
  simp [exG3]; norm_num

theorem exCos3 : cosSq (EuclideanSpace.single (0 : Fin 3) (1 : ℝ)) exG3 = 8 / 9 := by
  rw [cosSq, exG3_norm]
  simp; norm_num

theorem exLeft3 : 16 * startLeft 0 9 16 (EuclideanSpace.single (0 : Fin 3) (1 : ℝ)) exG3 2 ≤ 1 / 4 := by
  have hs : Real.sqrt (relativeGap 0 9 16) = 3 / 4 := by
    rw [relativeGap, show ((9 : ℝ) - 0) / (16 - 0) = (3 / 4) ^ 2 by norm_num, Real.sqrt_sq (by norm_num)]
  have hg : ‖exG3‖ ≤ 3 / 8 := by
    refine (pow_le_pow_iff_left₀ (norm_nonneg _) (by norm_num) two_ne_zero).1 ?_
    rw [exG3_norm]; norm_num
  rw [startLeft, hs]
  simp
  norm_num
  linarith

theorem exRayleigh3 : ⟪exDiag3 (EuclideanSpace.single 0 1 + exG3), EuclideanSpace.single 0 1 + exG3⟫_ℝ =
    (25 / 18) * ⟪EuclideanSpace.single 0 1 + exG3, EuclideanSpace.single 0 1 + exG3⟫_ℝ := by
  obtain ⟨h0, h1, h2⟩ := exDiag3_apply (EuclideanSpace.single 0 1 + exG3)
  rw [inner3, inner3, h0, h1, h2]
  simp [exG3]
  norm_num

/-- `C100_solve` and `C100_good_start`: with the tolerance 1/4 the solver finds the eigenvalue 0 of
`diag(0, 9, 16)` up to 0.009, after at most three iterations. -/
example (debug : Bool) : ∃ θ y,
    lanczosSolve debug exDiag3 (calcTridiagEpairs Real.sqrt 5e-12 exactDstev) exSort (fun _ v => v) 0 1 none
      ⟨3, 1 / 4, 0⟩ (EuclideanSpace.single 0 1 + exG3) = .ok ([θ], [y]) ∧ 0 ≤ θ ∧ θ ≤ 0.009 := by
  obtain ⟨θ, y, h1, -, -, h2, h3, -⟩ := C100_solve debug exDiag3 exRest3 _ exG3 0 9 16 exSplit3 exG3_mem exactDstev
    exactDstev_contract 5e-12 (by norm_num) exSort (fun _ v => v) 0 ⟨3, 1 / 4, 0⟩ rfl (by norm_num) (25 / 18)
    exRayleigh3 (by rw [exCos3]; norm_num) 2 (by simp) (by have := exLeft3; simpa using this)
  refine ⟨θ, y, h1, h2, h3.trans ?_⟩
  norm_num

/-- `C100_rate_partial` on the same problem. -/
example (debug : Bool) : ∃ r ys,
    solveLanczos debug exDiag3 (calcTridiagEpairs Real.sqrt 5e-12 exactDstev) 1 ⟨3, 1 / 4, 0⟩
      (EuclideanSpace.single 0 1 + exG3) = .ok (r, ys) ∧ r.converged = true ∧ r.state.vs.length ≤ 3 := by
  obtain ⟨r, θ, y, h1, -⟩ := C100_good_start debug exDiag3 exRest3 _ exG3 0 9 16 exSplit3 exG3_mem exactDstev
    exactDstev_contract 5e-12 (by norm_num) ⟨3, 1 / 4, 0⟩ rfl (by norm_num) (by simp) (25 / 18)
    exRayleigh3 (by rw [exCos3]; norm_num)
  have hl := exLeft3
  have hl0 := startLeft_nonneg (l1 := 0) (l2 := 9) (ln := 16) (by norm_num) (by norm_num)
    (EuclideanSpace.single (0 : Fin 3) (1 : ℝ)) exG3 2
  obtain ⟨h2, h3, -⟩ := C100_rate_partial debug exDiag3 exRest3 _ exG3 0 9 16 exSplit3 exG3_mem exactDstev
    exactDstev_contract 5e-12 ⟨3, 1 / 4, 0⟩ (by simp) 2 (by simp) (by simpa using hl)
    (by rw [exCos3]; nlinarith) r _ h1
  exact ⟨r, _, h1, h2, by simp only [add_zero] at h3; omega⟩

/-- `C100_missed_violated`: from `(0, 1, 0)` the solver returns the eigenvalue 9. -/
example (debug : Bool) : ∃ r ys θ,
    solveLanczos debug exDiag3 (calcTridiagEpairs Real.sqrt 5e-12 exactDstev) 1 ⟨3, 1 / 4, 0⟩
      (EuclideanSpace.single 1 1) = .ok (r, ys) ∧ r.evals = [θ] ∧ r.converged = true ∧ 9 ≤ θ := by
  have hA : exDiag3 (EuclideanSpace.single 1 1) = (9 : ℝ) • EuclideanSpace.single 1 1 := by
    ext i
    obtain ⟨h0, h1, h2⟩ := exDiag3_apply (EuclideanSpace.single 1 1)
    fin_cases i
    · simpa using h0
    · simpa using h1
    · simpa using h2
  obtain ⟨s, hs, hs1⟩ := tridiag_one exactDstev exactDstev_contract 5e-12 9
  obtain ⟨r, ys, θ, h1, h2, h3⟩ : ∃ r ys θ,
    solveLanczos debug exDiag3 (calcTridiagEpairs Real.sqrt 5e-12 exactDstev) 1 ⟨3, 1 / 4, 0⟩
      (EuclideanSpace.single 1 1) = .ok (r, ys) ∧ r.evals = [θ] ∧ r.converged = true := by
    have hstep : lanczosStep debug exDiag3 (lanczosInit (EuclideanSpace.single 1 1)) =
        .ok ⟨[EuclideanSpace.single 1 1], 0, 0, [9], []⟩ := by
      unfold lanczosStep lanczosInit
      simp [hA, inner_smul_right]
    have hchk : checkConvergence 0 1 1 (1 / 4) [s] = .ok true := by
      rw [checkConvergence, if_neg (by omega), checkLoop_eq _ _ _ (by omega) _ _ _ _ (by simp)]
      simp
    refine ⟨⟨⟨[EuclideanSpace.single 1 1], 0, 0, [9], []⟩, [9], [s], [1], true⟩, [s • EuclideanSpace.single 1 1], 9,
      ?_, rfl, rfl⟩
    unfold solveLanczos
    have a1 : Outcome.assert debug (decide ((0 : ℤ) ≤ 0 ∧ (0 : ℤ) < 100)) = .ok () := by simp [Outcome.assert]
    have a2 : Outcome.assert debug (decide ((0 : ℝ) ≤ 1 / 4)) = .ok () := by simp [Outcome.assert]
    have a3 : Outcome.assert debug (decide (1 ≤ 3)) = .ok () := by simp [Outcome.assert]
    simp only [a1, a2, a3, Outcome.ok_bind]
    rw [lanczosLoop]
    simp only [hstep, Outcome.ok_bind, true_or, if_true, hs, hchk, List.nil_append]
    have a4 : Outcome.assert debug (decide (1 ≤ [EuclideanSpace.single (1 : Fin 3) (1 : ℝ)].length)) = .ok () := by
      simp [Outcome.assert]
    rw [a4, Outcome.ok_bind, calcEvecs_eq _ _ _ _ (by simp)]
    simp [Outcome.ok_bind, Outcome.pure_eq]
  have := C100_missed_violated debug exDiag3 exRest3 _ (EuclideanSpace.single 1 1) 0 9 16 exSplit3
    (by rw [exRest3_mem]; simp) exactDstev exactDstev_contract _ 1 _ (by simp) r ys h1 θ (by rw [h2]; simp)
  exact ⟨r, ys, θ, h1, h2, h3, this.2⟩

/-- `C100_early_stop_violated`: from `(0.01, 1, 0)`, with the tolerance 0.1, the value returned is above 8.99. -/
example (debug : Bool) : ∃ r ys θ,
    solveLanczos debug exDiag3 (calcTridiagEpairs Real.sqrt 5e-12 exactDstev) 1 ⟨100, 0.1, 0⟩
      ((0.01 : ℝ) • EuclideanSpace.single 0 1 + EuclideanSpace.single 1 1) = .ok (r, ys) ∧
      r.converged = true ∧ r.evals = [θ] ∧ 8.99 < θ := by
  have hA : exDiag3 (EuclideanSpace.single 1 1) = (9 : ℝ) • EuclideanSpace.single 1 1 := by
    ext i
    obtain ⟨h0, h1, h2⟩ := exDiag3_apply (EuclideanSpace.single 1 1)
    fin_cases i
    · simpa using h0
    · simpa using h1
    · simpa using h2
  obtain ⟨r, ys, h1, h2, -, -, θ, h3, -, h4⟩ := C100_early_stop_violated debug exDiag3 (EuclideanSpace.single 0 1)
    (EuclideanSpace.single 1 1) 0 9 (by norm_num) exSplit3.eig hA (by simp) (by simp) (by rw [inner3]; simp)
    exactDstev exactDstev_contract 5e-12 ⟨100, 0.1, 0⟩ (by simp) (by simp) 0.01 (by norm_num) (by norm_num)
  refine ⟨r, ys, θ, h1, h2, h3, ?_⟩
  norm_num at h4
  linarith

end Mfmg
