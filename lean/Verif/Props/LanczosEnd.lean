import Verif.Lemmas.LanczosEnd
import Verif.Props.StartVector

/-!
# The end of the Lanczos iteration (C102)
-/

set_option autoImplicit false

namespace Mfmg

open Finset
open scoped InnerProductSpace

section

variable {E : Type} [NormedAddCommGroup E] [InnerProductSpace ℝ E]

/-- **C102 (runs that end).** The iteration started from `g` can make `d` vectors.  If not more pairs are requested,
convergence is tested at step `d`, and the filter leaves enough pairs at every step, the solver returns after at
most `d` iterations: it never divides by the zero norm that step `d` leaves. -/
theorem C102_returns_partial (debug : Bool) (A : E →ₗ[ℝ] E) (hA : A.IsSymmetric) (g : E) (d : ℕ)
    (hd : KrylovDim A g d) (tridiag : List ℝ → List ℝ → ℕ → List ℝ × List ℝ) (req : ℕ) (hreq : 0 < req)
    (p : LanczosParams) (hpct : 0 ≤ p.pct ∧ p.pct < 100) (htol : 0 ≤ p.tol) (hmax : req ≤ p.maxit) (hrd : req ≤ d)
    (htested : Tested p.pct d)
    (hkeep : ∀ t s, req ≤ t → t ≤ d → stateAfter debug A g t = .ok s →
      t * req ≤ (tridiag s.diag s.sub req).2.length) :
    ∃ r ys, solveLanczos debug A tridiag req p g = .ok (r, ys) ∧ r.state.vs.length ≤ d ∧
      (d ≤ p.maxit → r.converged = true) := by
  have hlast := hd.last
  rw [powerSpan_range] at hlast
  have hsy : ∀ x y, ⟪A x, y⟫_ℝ = ⟪x, A y⟫_ℝ := fun x y => hA x y
  have hstep : ∀ s s', ((KrylovInv A g s ∧ s.vs.length ≤ d) ∧ stateAfter debug A g s.vs.length = .ok s) →
      lanczosStep debug A s = .ok s' →
      ((KrylovInv A g s' ∧ s'.vs.length ≤ d) ∧ stateAfter debug A g s'.vs.length = .ok s') := by
    intro s s' hs hst
    refine ⟨step_bound hsy hlast s s' hs.1 hst, ?_⟩
    rw [lanczosStep_length debug A s s' hst]
    exact stateAfter_succ hs.2 hst
  have h0 : (KrylovInv A g (lanczosInit g) ∧ (lanczosInit g).vs.length ≤ d) ∧
      stateAfter debug A g (lanczosInit g).vs.length = .ok (lanczosInit g) :=
    ⟨⟨lanczosInit_powerSpan A g, Nat.zero_le _⟩, rfl⟩
  have hchk : ∀ s, ((KrylovInv A g s ∧ s.vs.length ≤ d) ∧ stateAfter debug A g s.vs.length = .ok s) →
      1 ≤ s.vs.length → ∃ c, checkConvergence s.beta s.vs.length req p.tol (tridiag s.diag s.sub req).2 = .ok c ∧
        (s.beta = 0 → c = true) := by
    intro s hs h1
    by_cases hlt : s.vs.length < req
    · refine ⟨false, by rw [checkConvergence, if_pos hlt], fun hb => ?_⟩
      exact absurd hb (hs.1.1.beta_ne (hd.notMem (by omega)))
    · refine ⟨_, by rw [checkConvergence, if_neg hlt, checkLoop_eq _ _ _ (by omega) _ _ _ _ (by
        rw [Nat.zero_add]; exact hkeep _ s (by omega) hs.1.2 hs.2)], fun hb => ?_⟩
      rw [Bool.true_and, decide_eq_true_eq]
      intro t _
      rw [hb, zero_mul]
      exact htol
  obtain ⟨r, hr⟩ := loop_ends (debug := debug) (A := A) (maxit := p.maxit) hstep (req := req) (tol := p.tol) (pct := p.pct)
    (tridiag := fun d s => tridiag d s req) (fun s hs h1 _ => hchk s hs h1) (by
      intro s hs _ hb
      have : ¬ s.vs.length < d := fun hlt => hs.1.1.beta_ne (hd.notMem hlt) hb
      have e : s.vs.length = d := by have := hs.1.2; omega
      rw [e]
      exact htested) p.maxit 1 0 ⟨lanczosInit g, [], [], [], false⟩ (by omega) rfl h0
    (Or.inr ((lanczosInit_powerSpan A g).beta_ne (hd.notMem (by change 0 < d; omega)))) (Or.inl ⟨rfl, rfl⟩)
  obtain ⟨hP, hle, -, -, hrest⟩ := lanczosLoop_spec debug A _ hstep (fun d s => tridiag d s req) req p.tol p.pct p.maxit
    p.maxit 1 0 ⟨lanczosInit g, [], [], [], false⟩ (by omega) rfl h0
    ⟨Or.inl ⟨rfl, rfl, rfl⟩, by simp, fun c h1 h2 => by omega⟩ r hr
  obtain ⟨-, -, -, hep, hck, hnc⟩ := hrest (by omega)
  have hlen : req ≤ r.state.vs.length := by
    by_contra hlt
    rw [checkConvergence, if_pos (by omega), Outcome.ok.injEq] at hck
    have := hnc hck.symm
    omega
  have hfull : r.state.vs.length * req ≤ r.evecs.length := by
    have := hkeep _ _ hlen hP.1.2 hP.2
    rw [← hep] at this
    exact this
  have hsolve : ∃ ys, solveLanczos debug A tridiag req p g = .ok (r, ys) := by
    unfold solveLanczos
    have a1 : Outcome.assert debug (decide (0 ≤ p.pct ∧ p.pct < 100)) = .ok () := by simp [Outcome.assert, hpct]
    have a2 : Outcome.assert debug (decide (0 ≤ p.tol)) = .ok () := by simp [Outcome.assert, htol]
    have a3 : Outcome.assert debug (decide (req ≤ p.maxit)) = .ok () := by simp [Outcome.assert, hmax]
    have a4 : Outcome.assert debug (decide (req ≤ r.state.vs.length)) = .ok () := by simp [Outcome.assert, hlen]
    rw [a1, Outcome.ok_bind, a2, Outcome.ok_bind, a3, Outcome.ok_bind, hr, Outcome.ok_bind, a4,
      Outcome.ok_bind, calcEvecs_eq _ _ _ _ (by rw [Nat.zero_add]; exact hfull)]
    exact ⟨_, rfl⟩
  obtain ⟨ys, hys⟩ := hsolve
  refine ⟨r, ys, hys, hP.1.2, fun hdm => ?_⟩
  by_contra hc
  have hc : r.converged = false := by simpa using hc
  have hn := hnc hc
  have e : r.state.vs.length = d := by have := hP.1.2; omega
  have hb := hP.1.1.beta_zero (by rw [e]; exact hlast)
  obtain ⟨c, h1, h2⟩ := hchk _ hP (by omega)
  have hep2 : r.evecs = (tridiag r.state.diag r.state.sub req).2 := by rw [← hep]
  rw [← hep2, hck, hc] at h1
  have := h2 hb
  rw [this] at h1
  cases h1

/-- **C102 is violated by the code: more pairs requested than the start vector can give.** If more pairs are
requested than the iteration can make vectors, and more iterations are allowed, the solver never returns: it divides
by zero (in debug mode an assertion stops it). -/
theorem C102_more_pairs_violated (debug : Bool) (A : E →ₗ[ℝ] E) (hA : A.IsSymmetric) (g : E) (d : ℕ)
    (hd : KrylovDim A g d) (tridiag : List ℝ → List ℝ → ℕ → List ℝ × List ℝ) (req : ℕ)
    (p : LanczosParams) (hrd : d < req) (hmax : d < p.maxit) :
    ∀ out, solveLanczos debug A tridiag req p g ≠ .ok out := by
  rintro ⟨r, ys⟩ hr
  have hlast := hd.last
  rw [powerSpan_range] at hlast
  obtain ⟨hP, -, -, hrest⟩ := solveLanczos_ok debug A _
    (step_bound (debug := debug) (fun x y => hA x y) hlast) tridiag req p g
    ⟨lanczosInit_powerSpan A g, Nat.zero_le _⟩ r ys hr
  obtain ⟨-, -, -, -, hck, hnc, -⟩ := hrest (by omega)
  have hle := hP.2
  rw [checkConvergence, if_pos (by omega), Outcome.ok.injEq] at hck
  have := hnc hck.symm
  omega

/-- **C102 is violated by the code: the last step is not tested.** The iteration started from `g` can make `d`
vectors and convergence is not tested at step `d`.  Then there is `ε > 0` such that for every scaling `s` of the
operator and every tolerance below `s ε` the solver never returns when more than `d` iterations are allowed: it
divides by the zero norm that step `d` leaves (or reads past an array that the filter left empty). -/
theorem C102_untested_violated (A : E →ₗ[ℝ] E) (hA : A.IsSymmetric) (g : E) (d : ℕ)
    (hd : KrylovDim A g d) (pct : ℤ) (hun : ¬ Tested pct d) :
    ∃ ε : ℝ, 0 < ε ∧ ∀ (s : ℝ) (debug : Bool) (dstev : List ℝ → List ℝ → List ℝ × List ℝ) (tol2 : ℝ) (req : ℕ)
      (p : LanczosParams), 0 < s → DstevContract dstev → 0 < req → p.pct = pct → d < p.maxit → p.tol < s * ε →
      ∀ out, solveLanczos debug (s • A) (calcTridiagEpairs Real.sqrt tol2 dstev) req p g ≠ .ok out := by
  obtain ⟨ε, hε, hbound⟩ := residual_bound (fun t ht => hd.notMem ht)
  refine ⟨ε, hε, ?_⟩
  rintro s debug dstev tol2 req p hs hdst hreq hpct hmax htol ⟨r, ys⟩ hr
  obtain ⟨-, hlast⟩ := hd.smul hs.ne'
  have hsym : ∀ x y, ⟪(s • A) x, y⟫_ℝ = ⟪x, (s • A) y⟫_ℝ := by
    intro x y
    rw [LinearMap.smul_apply, LinearMap.smul_apply, inner_smul_left, inner_smul_right, hA x y]
    simp
  obtain ⟨hP, -, hev, hrest⟩ := solveLanczos_ok debug (s • A) _
    (step_bound (debug := debug) hsym hlast) _ req p g ⟨lanczosInit_powerSpan (s • A) g, Nat.zero_le _⟩ r ys hr
  obtain ⟨-, -, -, -, hck, hnc, hn1⟩ := hrest (by omega)
  have hconv : r.converged = true := by
    by_contra hc
    have := hnc (by simpa using hc)
    have := hP.2
    omega
  obtain ⟨hel, hyl, hres, -⟩ := C27_residual debug (s • A) hsym dstev hdst tol2 req hreq p (by omega) g r ys hr
  rcases Nat.lt_or_ge r.state.vs.length d with hlt | hge
  · have he0 : r.evals[0]? = some r.evals[0] := List.getElem?_eq_getElem (by omega)
    have hy0 : ys[0]? = some ys[0] := List.getElem?_eq_getElem (by omega)
    obtain ⟨h1, -, h3⟩ := hres 0 _ _ he0 hy0
    have hmem : ys[0] ∈ powerSpan A g r.state.vs.length := by
      rw [← powerSpan_smul A g _ hs.ne', ← hP.1.span]
      exact calcEvecs_mem hev (List.getElem_mem _)
    have hb := hbound _ ys[0] (s⁻¹ * r.evals[0]) hlt hmem h1
    have hle := h3 hconv
    have e : (s • A) ys[0] - r.evals[0] • ys[0] = s • (A ys[0] - (s⁻¹ * r.evals[0]) • ys[0]) := by
      rw [smul_sub, smul_smul, mul_inv_cancel_left₀ hs.ne']
      rfl
    rw [e, norm_smul, Real.norm_of_nonneg hs.le] at hle
    have := mul_le_mul_of_nonneg_left hb hs.le
    linarith
  · have e : r.state.vs.length = d := by have := hP.2; omega
    have hsched := (C32_tests debug (s • A) _ req p (by omega) g r ys hr).2.2.1
    rw [e, hpct] at hsched
    exact hun (schedule_tested hsched hmax)

end

/-- **C102 is violated by the code with the options of the library.** None of the dofs is constrained, their number
is a step that is not tested (21 for the default of 5 per cent), and more iterations are allowed.  For every tolerance
and all positive random numbers there are diagonal matrices with positive entries for which the call for the local
eigenvectors never returns normally: all matrices `diag(s, 2s, …)` with `s` large enough. -/
theorem C102_library_violated (size : ℕ) (draw : ℕ → ℝ) (hdraw : ∀ m, 0 < draw m) (o : LanczosOptions)
    (hdef : o.deflated = none) (hun : ¬ Tested (o.percentOvershoot.getD 5) size)
    (hmax : size < o.maxIterations.getD 200) (tolerance : ℝ) :
    ∃ s0 : ℝ, 0 < s0 ∧ ∀ (s : ℝ) (debug : Bool) (dstev : List ℝ → List ℝ → List ℝ × List ℝ)
      (sortPerm : List ℝ → List ℕ) (noise : ℕ → ℕ → ℝ) (emptyVec : EuclideanSpace ℝ (Fin size)) (n : ℕ), s0 ≤ s →
      DstevContract dstev → 0 < n → ∀ out,
      localLanczos debug dstev sortPerm noise size (fun i j => if i = j then s * ((i : ℝ) + 1) else 0) (fun _ => false)
        draw emptyVec n tolerance o ≠ .ok out := by
  have hg : ∀ i, libraryGuess size (fun _ => false) draw i ≠ 0 := by
    intro i
    obtain ⟨m, hm⟩ := (libraryGuess_apply (size := size) (constrained := fun _ => false) draw i).2 rfl
    rw [hm]
    exact (hdraw m).ne'
  have hdim := krylovDim_diag size (fun i => (i : ℝ) + 1) (fun i j _ _ h => by
    have : (i : ℝ) = j := by linarith
    exact_mod_cast this) _ hg
  obtain ⟨ε, hε, hnot⟩ := C102_untested_violated _ (fun x y => matOp_symm (fun i j _ _ => by
    by_cases h : i = j
    · rw [h]
    · rw [if_neg h, if_neg (Ne.symm h)]) x y) _ size hdim _ hun
  have hpos : 0 < max tolerance 1e-4 := lt_of_lt_of_le (by norm_num) (le_max_right _ _)
  refine ⟨2 * (max tolerance 1e-4 / ε), by positivity, ?_⟩
  intro s debug dstev sortPerm noise emptyVec n hs hdst hn out hrun
  have hs0 : 0 < s := lt_of_lt_of_le (by positivity) hs
  have htol : max tolerance 1e-4 < s * ε := by
    have h1 : max tolerance 1e-4 / ε < s := lt_of_lt_of_le (by
      have : 0 < max tolerance 1e-4 / ε := by positivity
      linarith) hs
    exact (div_lt_iff₀ hε).1 h1
  have hM : matOp size (fun i j => if i = j then s * ((i : ℝ) + 1) else 0) =
      s • matOp size (fun i j => if i = j then (i : ℝ) + 1 else 0) := by
    refine LinearMap.ext fun x => ?_
    ext i
    rw [LinearMap.smul_apply, PiLp.smul_apply, matOp_apply, matOp_apply, smul_eq_mul, Finset.mul_sum]
    refine Finset.sum_congr rfl fun j _ => ?_
    split_ifs <;> ring
  unfold localLanczos at hrun
  rw [hdef, hM] at hrun
  unfold lanczosSolve at hrun
  rw [Outcome.bind_eq_ok] at hrun
  obtain ⟨r, hr, -⟩ := hrun
  simp only [Outcome.bind_eq_ok] at hr
  obtain ⟨-, -, -, -, acc, hacc, -⟩ := hr
  rw [cycleLoop] at hacc
  simp only [Outcome.bind_eq_ok] at hacc
  obtain ⟨ep, ⟨q, hq, -⟩, -⟩ := hacc
  exact hnot s debug dstev 5e-12 n (localLanczosParams tolerance o) hs0 hdst hn rfl hmax htol q hq

/-! ## Examples -/

/-- Step 21 is the first step that is not tested with 5 per cent. -/
theorem exUntested : (∀ t, 1 ≤ t → t ≤ 20 → Tested 5 t) ∧ ¬ Tested 5 21 := by
  have h : ∀ t, 1 ≤ t → t ≤ 20 → Tested 5 t := by
    intro t h1
    induction t, h1 using Nat.le_induction with
    | base => intro _; exact .first
    | succ t h1 ih =>
      intro h2
      refine .next (ih (by omega)) (by omega) ?_ (fun c h3 h4 => by omega)
      push_cast
      omega
  refine ⟨h, fun h21 => ?_⟩
  have := tested_pass h21 (h 20 (by norm_num) le_rfl) (by norm_num) (fun c h1 h2 => by omega)
  norm_num at this

example (draw : ℕ → ℝ) (hdraw : ∀ m, 0 < draw m) (tolerance : ℝ) :=
  C102_library_violated 21 draw hdraw {} rfl exUntested.2 (by norm_num) tolerance

/-- All dofs constrained: the start vector is zero, and no vector can be made. -/
example (debug : Bool) (A : EuclideanSpace ℝ (Fin 3) →ₗ[ℝ] EuclideanSpace ℝ (Fin 3)) (hA : A.IsSymmetric)
    (tridiag : List ℝ → List ℝ → ℕ → List ℝ × List ℝ) :
    ∀ out, solveLanczos debug A tridiag 1 ⟨200, 1 / 10, 5⟩ 0 ≠ .ok out :=
  C102_more_pairs_violated debug A hA 0 0 ⟨linearIndependent_empty_type, by simp⟩ tridiag 1 _ (by norm_num) (by norm_num)

/-- Two pairs of a multiple of the identity. -/
example (debug : Bool) (g : EuclideanSpace ℝ (Fin 3)) (hg : g ≠ 0)
    (tridiag : List ℝ → List ℝ → ℕ → List ℝ × List ℝ) :
    ∀ out, solveLanczos debug ((2 : ℝ) • (LinearMap.id : EuclideanSpace ℝ (Fin 3) →ₗ[ℝ] EuclideanSpace ℝ (Fin 3))) tridiag 2 ⟨200, 1 / 10, 5⟩ g ≠ .ok out :=
  C102_more_pairs_violated debug ((2 : ℝ) • (LinearMap.id : EuclideanSpace ℝ (Fin 3) →ₗ[ℝ] EuclideanSpace ℝ (Fin 3)))
    (fun x y => by simp [inner_smul_left, inner_smul_right]) g 1
    ⟨by
      rw [linearIndependent_unique_iff]
      simpa using hg, by
      refine Submodule.mem_span.2 fun q hq => ?_
      have : g ∈ q := hq ⟨0, by simp⟩
      simpa using q.smul_mem 2 this⟩ tridiag 2 _ (by norm_num) (by norm_num)

/-- `diag(0, 9, 16)` from `(1, 1/4, 1/4)`: three vectors, all steps tested, nothing purged. -/
example (debug : Bool) (dstev : List ℝ → List ℝ → List ℝ × List ℝ) (hd : DstevContract dstev) (tol2 : ℝ)
    (h2 : tol2 < 1) :
    ∃ r ys, solveLanczos debug exDiag3 (calcTridiagEpairs Real.sqrt tol2 dstev) 1 ⟨200, 1 / 1000, 5⟩
      (EuclideanSpace.single 0 1 + exG3) = .ok (r, ys) ∧ r.state.vs.length ≤ 3 ∧ (3 ≤ 200 → r.converged = true) := by
  have hM : exDiag3 = matOp 3 (fun i j => if i = j then ([0, 9, 16] : List ℝ).getD i 0 else 0) := by
    refine LinearMap.ext fun x => ?_
    ext i
    obtain ⟨a0, a1, a2⟩ := exDiag3_apply x
    rw [matOp_apply, Fin.sum_univ_three]
    fin_cases i
    · simpa using a0
    · simpa using a1
    · simpa using a2
  have hsym : exDiag3.IsSymmetric := by
    intro x y
    obtain ⟨a0, a1, a2⟩ := exDiag3_apply x
    obtain ⟨b0, b1, b2⟩ := exDiag3_apply y
    rw [inner3, inner3, a0, a1, a2, b0, b1, b2]
    ring
  have hdim : KrylovDim exDiag3 (EuclideanSpace.single 0 1 + exG3) 3 := by
    rw [hM]
    refine krylovDim_diag 3 (fun i => ([0, 9, 16] : List ℝ).getD i 0) ?_ _ ?_
    · intro i j hi hj
      interval_cases i <;> interval_cases j <;> simp
    · intro i
      fin_cases i <;> simp [exG3]
  refine C102_returns_partial debug exDiag3 hsym _ 3 hdim _ 1 one_pos ⟨200, 1 / 1000, 5⟩ (by simp) (by norm_num)
    (by simp) (by norm_num) (exUntested.1 3 (by norm_num) (by norm_num)) ?_
  intro t s ht _ hs
  have hne := exSplit3.start_ne exG3_mem
  obtain ⟨hfrom, hl⟩ := stateAfter_inv (lanczosInit_from exDiag3 _ _ (both_start (u := EuclideanSpace.single 0 1) exG3_mem))
    (fun s s' hs hst => lanczosStep_from exSplit3.both_maps exSplit3.both_symm s s' hs hst) t s hs
  have hle := hfrom.ritz_le hne hd (by omega)
  rw [exRayleigh3, mul_div_cancel_right₀ _ (inner_self_ne_zero.2 hne)] at hle
  have hkept := exSplit3.kept exG3_mem hfrom hd (by omega) (tol2 := tol2) (by rw [exCos3]; linarith)
  rw [hkept, firstColumn_length hd (by rw [hfrom.inv.lenSub, hfrom.inv.lenDiag]; omega), hfrom.inv.lenDiag]
  omega

end Mfmg
