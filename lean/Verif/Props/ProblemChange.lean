import Verif.Spec.ProblemChange
import Verif.Props.Chebyshev
import Verif.Lemmas.ConjugateGradient

/-!
# Hierarchies held while the problem changes (C109)
-/

set_option autoImplicit false

namespace Mfmg

open Spec

section history

variable {K : Type} [Field K] [LinearOrder K] {dims : ℕ → ℕ}

/-- One step changes of a held hierarchy at most its estimates. -/
theorem step_keeps (s : Surroundings dims K) (w : UserWorld dims K) (a : UserStep dims K) (i : ℕ)
    (h : HeldHierarchy dims K) (hi : w.held[i]? = some h) :
    ∃ h', (w.step s a).held[i]? = some h' ∧ h'.hierarchy = h.hierarchy ∧ h'.matrixFree = h.matrixFree ∧
      ∀ dinv, h.matrixFree = some dinv →
        h'.ritz = h.ritz ∨ h.ritz = none ∧ h'.ritz = some (s.estimate 0 w.problem.matrix.mulVec dinv) := by
  cases a with
  | change q => exact ⟨h, hi, rfl, rfl, fun _ _ => Or.inl rfl⟩
  | build mf p =>
    refine ⟨h, ?_, rfl, rfl, fun _ _ => Or.inl rfl⟩
    simp only [UserWorld.step]
    split
    · rw [List.getElem?_append_left (List.getElem?_eq_some_iff.1 hi).1, hi]
    · exact hi
  | vmult j fresh x b =>
    simp only [UserWorld.step, List.getElem?_modify, hi, Option.map_eq_map, Option.map_some]
    by_cases hj : j = i
    · simp only [hj, if_true]
      refine ⟨_, rfl, ?_⟩
      simp only [HeldHierarchy.applied]
      cases hm : h.matrixFree with
      | none => exact ⟨rfl, hm, fun _ e => absurd e (by simp)⟩
      | some d =>
        simp only
        split_ifs with h0
        · exact ⟨rfl, hm, fun _ _ => Or.inl rfl⟩
        · refine ⟨rfl, rfl, fun dinv e => ?_⟩
          obtain rfl := Option.some.inj e
          simp only [HeldHierarchy.estimates]
          cases hr : h.ritz with
          | none => exact Or.inr ⟨rfl, rfl⟩
          | some r => exact Or.inl rfl
    · simp only [hj, if_false]
      exact ⟨_, rfl, rfl, rfl, fun _ _ => Or.inl rfl⟩

theorem step_problem (s : Surroundings dims K) (w : UserWorld dims K) (a : UserStep dims K) :
    (w.step s a).problem = lastProblem w.problem [a] := by
  cases a with
  | change q => rfl
  | build mf p =>
    simp only [UserWorld.step]
    split <;> rfl
  | vmult j fresh x b => rfl

/-- A history changes of a held hierarchy at most its estimates, once. -/
theorem run_keeps (s : Surroundings dims K) : ∀ (steps : List (UserStep dims K)) (w : UserWorld dims K) (i : ℕ)
    (h : HeldHierarchy dims K), w.held[i]? = some h →
    ∃ h', (w.run s steps).held[i]? = some h' ∧ h'.hierarchy = h.hierarchy ∧ h'.matrixFree = h.matrixFree ∧
      (w.run s steps).problem = lastProblem w.problem steps ∧
      ∀ dinv, h.matrixFree = some dinv → h'.ritz = h.ritz ∨ h.ritz = none ∧
        ∃ q ∈ w.problem :: changedTo steps, h'.ritz = some (s.estimate 0 q.matrix.mulVec dinv) := by
  intro steps
  induction steps with
  | nil => exact fun w i h hi => ⟨h, hi, rfl, rfl, rfl, fun _ _ => Or.inl rfl⟩
  | cons a steps ih =>
    intro w i h hi
    obtain ⟨h1, g1, g2, g3, g4⟩ := step_keeps s w a i h hi
    obtain ⟨h', k1, k2, k3, k4, k5⟩ := ih (w.step s a) i h1 g1
    have hsub : ∀ q ∈ (w.step s a).problem :: changedTo steps, q ∈ w.problem :: changedTo (a :: steps) := by
      rw [step_problem]
      intro q hq
      cases a with
      | change q' => exact List.mem_cons_of_mem _ hq
      | build mf p => exact hq
      | vmult j fresh x b => exact hq
    refine ⟨h', k1, k2.trans g2, k3.trans g3, ?_, fun dinv hd => ?_⟩
    · change ((w.step s a).run s steps).problem = _
      rw [k4, step_problem]
      cases a <;> rfl
    · rcases g4 dinv hd with e | ⟨e1, e2⟩
      · rcases k5 dinv (g3.trans hd) with e' | ⟨e', q, hq, e3⟩
        · exact Or.inl (e'.trans e)
        · exact Or.inr ⟨e ▸ e', q, hsub q hq, e3⟩
      · rcases k5 dinv (g3.trans hd) with e' | ⟨e', -⟩
        · exact Or.inr ⟨e1, w.problem, List.mem_cons_self, e'.trans e2⟩
        · rw [e2] at e'
          exact absurd e' (by simp)

/-- What has just been built is at the end of the list. -/
theorem step_build (s : Surroundings dims K) (w : UserWorld dims K) (mf : Bool) (p : Params)
    (H : Hierarchy fun l => Fin (dims l) → K) (hb : buildFor s w.problem mf p = .ok H) :
    (w.step s (.build mf p)).held[w.held.length]? =
        some ⟨H, if mf then some (w.problem.dinv 0) else none, none⟩ ∧
      (w.step s (.build mf p)).problem = w.problem := by
  simp [UserWorld.step, hb]

/-- **C109, matrix-based hierarchies.** Whatever the program does after it has built a matrix-based hierarchy (change its
problem, build and apply other hierarchies), every application gives what it would have given at once: the hierarchy goes on
solving the problem it was built for. -/
theorem C109_matrix (s : Surroundings dims K) (w : UserWorld dims K) (p : Params)
    (H : Hierarchy fun l => Fin (dims l) → K) (hb : buildFor s w.problem false p = .ok H)
    (steps : List (UserStep dims K)) (fresh : ∀ l, Fin (dims l) → K) (x b : Fin (dims 0) → K) :
    ((w.step s (.build false p)).run s steps).answer s w.held.length fresh x b = (H.vmult fresh x b).result := by
  obtain ⟨h', k1, k2, k3, -, -⟩ := run_keeps s steps _ _ _ (step_build s w false p H hb).1
  simp only [UserWorld.answer, k1, HeldHierarchy.now]
  rw [k3, k2]
  rfl

end history

section matrixFree

variable {dims : ℕ → ℕ}

/-- The linear maps of a held matrix-free hierarchy: level 0 belongs to the present matrix `A'`, the others to the matrix
`A` of the construction. -/
noncomputable def heldData (c : ChebyshevSettings ℝ) (auto : ℕ) (ritz : List ℝ) (dinv : ∀ l, Fin (dims l) → ℝ)
    (A A' : Matrix (Fin (dims 0)) (Fin (dims 0)) ℝ) (R : ∀ l, Matrix (Fin (dims (l + 1))) (Fin (dims l)) ℝ) :
    Data ℝ (fun l => Fin (dims l) → ℝ) where
  A := fun l => match l with
    | 0 => A'.mulVecLin
    | l + 1 => (coarseMatrix dims A R (l + 1)).mulVecLin
  B := fun l => match l with
    | 0 => chebLin c auto ritz A' (dinv 0)
    | _ + 1 => 0
  R := fun l => (R l).mulVecLin
  P := fun l => (R l).transpose.mulVecLin
  C := fun l => (coarseMatrix dims A R l)⁻¹.mulVecLin

/-- The smoothing steps, as a map of errors. -/
theorem richardson_iterate_err {V : ℕ → Type} [∀ l, AddCommGroup (V l)] [∀ l, Module ℝ (V l)] (D : Data ℝ V) (l : ℕ)
    (b xs : V l) (hxs : D.A l xs = b) (n : ℕ) (x : V l) :
    xs - (richardson D l b)^[n] x = (fun e => e - D.B l (D.A l e))^[n] (xs - x) := by
  induction n generalizing x with
  | zero => rfl
  | succ n ih =>
    rw [Function.iterate_succ_apply, Function.iterate_succ_apply, ih]
    congr 1
    rw [richardson, ← hxs, ← map_sub]
    abel

/-- A coarse correction with the matrix of an earlier problem. -/
theorem coarse_correction_le {m n : ℕ} {A' : Matrix (Fin n) (Fin n) ℝ} (hA' : IsSpd A') {A : Matrix (Fin n) (Fin n) ℝ}
    {R : Matrix (Fin m) (Fin n) ℝ} (hG : IsSpd (galerkin R A)) (h2 : AtMostTwice R A' A) (e : Fin n → ℝ) :
    energyOf A' (e - R.transpose.mulVec ((galerkin R A)⁻¹.mulVec (R.mulVec (A'.mulVec e)))) ≤ energyOf A' e := by
  obtain ⟨w, hw⟩ : ∃ w, w = (galerkin R A)⁻¹.mulVec (R.mulVec (A'.mulVec e)) := ⟨_, rfl⟩
  have hGw : (galerkin R A).mulVec w = R.mulVec (A'.mulVec e) := by rw [hw, mulVec_inv (spd_det hG)]
  rw [← hw]
  have h1 : R.transpose.mulVec w ⬝ᵥ A'.mulVec e = energyOf A (R.transpose.mulVec w) := by
    rw [Matrix.mulVec_transpose, ← Matrix.dotProduct_mulVec, ← hGw, energyOf, galerkin, ← Matrix.mulVec_mulVec,
      ← Matrix.mulVec_mulVec, Matrix.dotProduct_mulVec, ← Matrix.mulVec_transpose R w]
  have h3 : e ⬝ᵥ A'.mulVec (R.transpose.mulVec w) = energyOf A (R.transpose.mulVec w) := by
    rw [dot_mulVec_symm hA'.1, dotProduct_comm, h1]
  have h4 := h2 w
  have h5 : energyOf A' (e - R.transpose.mulVec w) = energyOf A' e - 2 * energyOf A (R.transpose.mulVec w)
      + energyOf A' (R.transpose.mulVec w) := by
    rw [energyOf, Matrix.mulVec_sub, sub_dotProduct, dotProduct_sub, dotProduct_sub, h1, h3]
    simp only [energyOf]
    ring
  rw [h5]
  linarith

/-- The error after a cycle of a held matrix-free hierarchy. -/
theorem held_cycle_err (c : ChebyshevSettings ℝ) (auto : ℕ) (ritz : List ℝ) (dinv : ∀ l, Fin (dims l) → ℝ)
    (A A' : Matrix (Fin (dims 0)) (Fin (dims 0)) ℝ) (R : ∀ l, Matrix (Fin (dims (l + 1))) (Fin (dims l)) ℝ) (n : ℕ)
    (b x xs : Fin (dims 0) → ℝ) (hxs : A'.mulVec xs = b) :
    xs - cycle (heldData c auto ritz dinv A A' R) n 1 0 b x =
      (fun e => e - chebLin c auto ritz A' (dinv 0) (A'.mulVec e))^[n]
        ((fun e => e - (R 0).transpose.mulVec ((galerkin (R 0) A)⁻¹.mulVec ((R 0).mulVec (A'.mulVec e))))
          ((fun e => e - chebLin c auto ritz A' (dinv 0) (A'.mulVec e))^[n] (xs - x))) := by
  obtain ⟨D, hD⟩ : ∃ D, D = heldData c auto ritz dinv A A' R := ⟨_, rfl⟩
  have hstep : ∀ y, xs - (richardson D 0 b)^[n] y =
      (fun e => e - chebLin c auto ritz A' (dinv 0) (A'.mulVec e))^[n] (xs - y) := by
    intro y
    rw [richardson_iterate_err D 0 b xs (by rw [hD]; exact hxs) n y, hD]
    rfl
  rw [← hD]
  simp only [cycle]
  rw [hstep]
  congr 1
  rw [← hstep x]
  obtain ⟨x1, h1⟩ : ∃ x1, x1 = (richardson D 0 b)^[n] x := ⟨_, rfl⟩
  rw [← h1]
  have h2 : D.R 0 (b - D.A 0 x1) = (R 0).mulVec (A'.mulVec (xs - x1)) := by
    rw [hD]
    change (R 0).mulVec (b - A'.mulVec x1) = _
    rw [Matrix.mulVec_sub A', hxs]
  rw [h2, hD]
  change xs - (x1 + (R 0).transpose.mulVec ((galerkin (R 0) A)⁻¹.mulVec _)) = _
  abel

/-- A held matrix-free hierarchy consists of the linear maps `heldData`. -/
theorem held_linear (s : Surroundings dims ℝ) (q q' : UserProblem dims ℝ) (p : Params)
    (htype : EqNoCase (s.type.getD (chars! "Chebyshev")) (chars! "chebyshev")) (hA : IsSpd q.matrix)
    (hR : ∀ l, IndependentRows (q.restriction l)) (hsolve : ∀ l, SolvesExactly (s.solve l))
    (hlev : p.maxLevels.getD 2 = 2) (hfast : p.fastAp.getD false = false) :
    ∃ H, buildFor s q true p = .ok H ∧ ∀ h : HeldHierarchy dims ℝ, h.hierarchy = H → h.matrixFree = some (q.dinv 0) →
      IsLinear (h.now s q') (heldData (ChebyshevData.settings ⟨s.degree, s.range, s.maxEigenvalue⟩) s.auto
        (h.estimates s q' (q.dinv 0)) q.dinv q.matrix q'.matrix q.restriction) ∧
      (h.now s q').numLevels = 2 ∧ (h.now s q').isPreconditioner = p.isPreconditioner.getD true ∧
      (h.now s q').nSmoothingSteps = toUnsigned (p.nSmoothingSteps.getD 1) := by
  obtain ⟨H, hH, hlin, hL, hp, hn⟩ := matrixFreeHelpers_build s.debug s.timer p s.type htype s.degree s.range
    s.maxEigenvalue s.auto dims q.dinv s.estimate q.matrix hA q.restriction hR s.solve hsolve hlev hfast
  refine ⟨H, hH, fun h e1 e2 => ?_⟩
  obtain ⟨hm, mf, r⟩ := h
  change hm = H at e1
  change mf = _ at e2
  subst e1 e2
  refine ⟨⟨hlin.pos, ?_, ?_, ?_, ?_⟩, hL, hp, hn⟩
  · intro l hl
    cases l with
    | zero => exact ⟨_, rfl, fun x => rfl⟩
    | succ l => exact hlin.operator (l + 1) hl
  · intro l hl
    change l + 1 < hm.numLevels at hl
    obtain rfl : l = 0 := by omega
    obtain ⟨sm, h1, -⟩ := hlin.smoother 0 hl
    refine ⟨_, ?_, fun b x => rfl⟩
    simp only [HeldHierarchy.now, replaceFinest, h1, Option.map_some]
    rfl
  · intro l hl
    exact hlin.restrictor l hl
  · have hso : ∀ l, ((HeldHierarchy.now s ⟨hm, some (q.dinv 0), r⟩ q').level l).solver = (hm.level l).solver := fun l => by
      cases l <;> rfl
    change ∃ so, ((HeldHierarchy.now s ⟨hm, some (q.dinv 0), r⟩ q').level (hm.numLevels - 1)).solver = some so ∧
      ∀ b, so b 0 = _
    rw [hso]
    exact hlin.solver

theorem lastProblem_mem {K : Type} (q : UserProblem dims K) (steps : List (UserStep dims K)) :
    lastProblem q steps ∈ q :: changedTo steps := by
  induction steps generalizing q with
  | nil => exact List.mem_cons_self
  | cons a steps ih =>
    cases a with
    | change q' => exact List.mem_cons_of_mem _ (ih q')
    | build mf p => exact ih q
    | vmult j fresh x b => exact ih q

/-- An application of a held matrix-free hierarchy, in terms of the linear maps.  The estimates are those of a problem since
the construction. -/
theorem held_answer (s : Surroundings dims ℝ) (w : UserWorld dims ℝ) (p : Params)
    (htype : EqNoCase (s.type.getD (chars! "Chebyshev")) (chars! "chebyshev")) (hA : IsSpd w.problem.matrix)
    (hR : ∀ l, IndependentRows (w.problem.restriction l)) (hsolve : ∀ l, SolvesExactly (s.solve l))
    (hlev : p.maxLevels.getD 2 = 2) (hfast : p.fastAp.getD false = false)
    (hpre : p.isPreconditioner = some false) (steps : List (UserStep dims ℝ)) :
    ∃ H, buildFor s w.problem true p = .ok H ∧ ∃ q ∈ w.problem :: changedTo steps, ∀ fresh x b,
      ((w.step s (.build true p)).run s steps).answer s w.held.length fresh x b =
        .ok (cycle (heldData (ChebyshevData.settings ⟨s.degree, s.range, s.maxEigenvalue⟩) s.auto
          (s.estimate 0 q.matrix.mulVec (w.problem.dinv 0)) w.problem.dinv w.problem.matrix
          (lastProblem w.problem steps).matrix w.problem.restriction) (toUnsigned (p.nSmoothingSteps.getD 1)) 1 0 b x) := by
  obtain ⟨H, hH, hlin⟩ := held_linear s w.problem (lastProblem w.problem steps) p htype hA hR hsolve hlev hfast
  obtain ⟨g1, g2⟩ := step_build s w true p H hH
  obtain ⟨h', k1, k2, k3, k4, k5⟩ := run_keeps s steps _ _ _ g1
  rw [g2] at k4 k5
  refine ⟨H, hH, ?_⟩
  obtain ⟨q, hq, e⟩ : ∃ q ∈ w.problem :: changedTo steps, h'.estimates s (lastProblem w.problem steps) (w.problem.dinv 0) =
      s.estimate 0 q.matrix.mulVec (w.problem.dinv 0) := by
    rcases k5 (w.problem.dinv 0) rfl with e | ⟨-, q, hq, e⟩
    · exact ⟨_, lastProblem_mem _ _, by simp [HeldHierarchy.estimates, e]⟩
    · exact ⟨q, hq, by simp [HeldHierarchy.estimates, e]⟩
  obtain ⟨l1, l2, l3, l4⟩ := hlin h' k2 k3
  rw [e] at l1
  refine ⟨q, hq, fun fresh x b => ?_⟩
  simp only [UserWorld.answer, k1, k4]
  rw [C04_cycle_is_textbook _ _ l1 fresh x b (Or.inr l2.ge), l2, l3, l4, hpre]
  rfl

theorem energy_nonneg_of_spd {n : ℕ} {A : Matrix (Fin n) (Fin n) ℝ} (hA : IsSpd A) (e : Fin n → ℝ) : 0 ≤ energyOf A e := by
  by_cases h : e = 0
  · simp [h, energyOf]
  · exact (hA.2 e h).le

/-- Iterating a step that decreases the energy. -/
theorem iterate_energy {n : ℕ} {A : Matrix (Fin n) (Fin n) ℝ} (S : (Fin n → ℝ) → Fin n → ℝ) (h0 : S 0 = 0)
    (hS : ∀ e, e ≠ 0 → energyOf A (S e) < energyOf A e) (k : ℕ) (e : Fin n → ℝ) :
    energyOf A (S^[k] e) ≤ energyOf A e ∧ (0 < k → e ≠ 0 → energyOf A (S^[k] e) < energyOf A e) := by
  have hle : ∀ k e, energyOf A (S^[k] e) ≤ energyOf A e := by
    intro k
    induction k with
    | zero => exact fun e => le_rfl
    | succ k ih =>
      intro e
      rw [Function.iterate_succ_apply]
      refine (ih _).trans ?_
      by_cases he : e = 0
      · rw [he, h0]
      · exact (hS e he).le
  refine ⟨hle k e, fun hk he => ?_⟩
  obtain ⟨k, rfl⟩ : ∃ j, k = j + 1 := ⟨k - 1, by omega⟩
  rw [Function.iterate_succ_apply]
  exact (hle k _).trans_lt (hS e he)

/-- **C109, matrix-free hierarchies: they follow the current problem.** After any history the standalone cycles of a
matrix-free hierarchy converge to the solution of the current problem, not of the one it was built for: every cycle decreases
the energy of the error, if the current matrix has on the coarse space at most twice the energy of the first one, and its
scaled eigenvalues are within the reach of the eigenvalue estimates for every problem there was since then (the hierarchy
keeps those of its first application). -/
theorem C109_matrix_free_current (s : Surroundings dims ℝ) (w : UserWorld dims ℝ) (p : Params)
    (htype : EqNoCase (s.type.getD (chars! "Chebyshev")) (chars! "chebyshev")) (hA : IsSpd w.problem.matrix)
    (hd : ∀ i, 0 < w.problem.dinv 0 i)
    (hR : ∀ l, IndependentRows (w.problem.restriction l)) (hsolve : ∀ l, SolvesExactly (s.solve l))
    (hlev : p.maxLevels.getD 2 = 2) (hfast : p.fastAp.getD false = false)
    (hpre : p.isPreconditioner = some false) (hsteps : 0 < toUnsigned (p.nSmoothingSteps.getD 1))
    (steps : List (UserStep dims ℝ)) (A' : Matrix (Fin (dims 0)) (Fin (dims 0)) ℝ)
    (hlast : (lastProblem w.problem steps).matrix = A') (hA' : IsSpd A')
    (htwice : AtMostTwice (w.problem.restriction 0) A' w.problem.matrix)
    (hritz : ∀ q ∈ w.problem :: changedTo steps, ∀ m ∈ s.estimate 0 q.matrix.mulVec (w.problem.dinv 0), 0 < m)
    (hlam : ∀ q ∈ w.problem :: changedTo steps, ∀ lam, ScaledEigenvalue A' (w.problem.dinv 0) lam →
      lam < upperEnd (s.estimate 0 q.matrix.mulVec (w.problem.dinv 0))
        + lowerEnd s.range (s.estimate 0 q.matrix.mulVec (w.problem.dinv 0))) :
    ∃ H, buildFor s w.problem true p = .ok H ∧ ∀ fresh x b xs, A'.mulVec xs = b → x ≠ xs →
      ∃ y, ((w.step s (.build true p)).run s steps).answer s w.held.length fresh x b = .ok y ∧
        energyOf A' (xs - y) < energyOf A' (xs - x) := by
  obtain ⟨H, hH, q, hq, hans⟩ := held_answer s w p htype hA hR hsolve hlev hfast hpre steps
  refine ⟨H, hH, fun fresh x b xs hxs hx => ⟨_, hans fresh x b, ?_⟩⟩
  rw [hlast, held_cycle_err _ _ _ _ _ _ _ _ b x xs hxs]
  have hit := iterate_energy (A := A') (fun e => e - chebLin (ChebyshevData.settings ⟨s.degree, s.range, s.maxEigenvalue⟩)
    s.auto (s.estimate 0 q.matrix.mulVec (w.problem.dinv 0)) A' (w.problem.dinv 0) (A'.mulVec e)) (by simp)
    (fun e he => chebLin_energy_lt ⟨s.degree, s.range, s.maxEigenvalue⟩ s.auto (hritz q hq) hA' hd (hlam q hq) e he)
    (toUnsigned (p.nSmoothingSteps.getD 1))
  exact ((hit _).1.trans (coarse_correction_le hA' (coarseMatrix_spd dims _ hA _ hR 1) htwice _)).trans_lt
    ((hit _).2 hsteps (sub_ne_zero.2 (Ne.symm hx)))

/-- **C109, matrix-free hierarchies, what holds.** As long as the matrix of the problem is not changed (the rest may be), a
matrix-free hierarchy gives what it would have given at once.  Missing: changes of the matrix. -/
theorem C109_matrix_free_partial (s : Surroundings dims ℝ) (w : UserWorld dims ℝ) (p : Params)
    (htype : EqNoCase (s.type.getD (chars! "Chebyshev")) (chars! "chebyshev")) (hA : IsSpd w.problem.matrix)
    (hR : ∀ l, IndependentRows (w.problem.restriction l)) (hsolve : ∀ l, SolvesExactly (s.solve l))
    (hlev : p.maxLevels.getD 2 = 2) (hfast : p.fastAp.getD false = false)
    (hpre : p.isPreconditioner = some false) (steps : List (UserStep dims ℝ))
    (hsame : ∀ q ∈ changedTo steps, q.matrix = w.problem.matrix) :
    ∃ H, buildFor s w.problem true p = .ok H ∧ ∀ fresh x b,
      ((w.step s (.build true p)).run s steps).answer s w.held.length fresh x b = (H.vmult fresh x b).result := by
  obtain ⟨H, hH, hlin, hL, hp, hn⟩ := matrixFreeHelpers_build s.debug s.timer p s.type htype s.degree s.range
    s.maxEigenvalue s.auto dims w.problem.dinv s.estimate w.problem.matrix hA w.problem.restriction hR s.solve hsolve hlev
    hfast
  obtain ⟨H', hH', q, hq, hans⟩ := held_answer s w p htype hA hR hsolve hlev hfast hpre steps
  have hm : ∀ q ∈ w.problem :: changedTo steps, q.matrix = w.problem.matrix := by
    intro q hq
    rcases List.mem_cons.1 hq with rfl | hq
    · rfl
    · exact hsame q hq
  refine ⟨H, hH, fun fresh x b => ?_⟩
  have hlin' : IsLinear H (heldData (ChebyshevData.settings ⟨s.degree, s.range, s.maxEigenvalue⟩) s.auto
      (s.estimate 0 w.problem.matrix.mulVec (w.problem.dinv 0)) w.problem.dinv w.problem.matrix w.problem.matrix
      w.problem.restriction) := by
    refine ⟨hlin.pos, ?_, ?_, hlin.restrictor, hlin.solver⟩
    · intro l hl
      cases l with
      | zero => exact hlin.operator 0 hl
      | succ l => exact hlin.operator (l + 1) hl
    · intro l hl
      obtain rfl : l = 0 := by omega
      exact hlin.smoother 0 hl
  rw [hans, C04_cycle_is_textbook H _ hlin' fresh x b (Or.inr hL.ge), hL, hn, hp, hpre, hm q hq,
    hm _ (lastProblem_mem _ _)]
  rfl

/-- **C109 is violated by the code: matrix-free hierarchies.** Under the conditions of `C109_matrix_free_current`, the
solution of the problem the hierarchy was built for is left unchanged by an application made at once, but not by an
application after the history, unless it solves the current problem as well. -/
theorem C109_matrix_free_violated (s : Surroundings dims ℝ) (w : UserWorld dims ℝ) (p : Params)
    (htype : EqNoCase (s.type.getD (chars! "Chebyshev")) (chars! "chebyshev")) (hA : IsSpd w.problem.matrix)
    (hd : ∀ i, 0 < w.problem.dinv 0 i)
    (hR : ∀ l, IndependentRows (w.problem.restriction l)) (hsolve : ∀ l, SolvesExactly (s.solve l))
    (hlev : p.maxLevels.getD 2 = 2) (hfast : p.fastAp.getD false = false)
    (hpre : p.isPreconditioner = some false) (hsteps : 0 < toUnsigned (p.nSmoothingSteps.getD 1))
    (steps : List (UserStep dims ℝ)) (A' : Matrix (Fin (dims 0)) (Fin (dims 0)) ℝ)
    (hlast : (lastProblem w.problem steps).matrix = A') (hA' : IsSpd A')
    (htwice : AtMostTwice (w.problem.restriction 0) A' w.problem.matrix)
    (hritz : ∀ q ∈ w.problem :: changedTo steps, ∀ m ∈ s.estimate 0 q.matrix.mulVec (w.problem.dinv 0), 0 < m)
    (hlam : ∀ q ∈ w.problem :: changedTo steps, ∀ lam, ScaledEigenvalue A' (w.problem.dinv 0) lam →
      lam < upperEnd (s.estimate 0 q.matrix.mulVec (w.problem.dinv 0))
        + lowerEnd s.range (s.estimate 0 q.matrix.mulVec (w.problem.dinv 0)))
    (fresh : ∀ l, Fin (dims l) → ℝ) (x b : Fin (dims 0) → ℝ) (hx : w.problem.matrix.mulVec x = b)
    (hx' : A'.mulVec x ≠ b) :
    (w.step s (.build true p)).answer s w.held.length fresh x b = .ok x ∧
      ∃ y, ((w.step s (.build true p)).run s steps).answer s w.held.length fresh x b = .ok y ∧ y ≠ x := by
  constructor
  · obtain ⟨H, hH, q, hq, hans⟩ := held_answer s w p htype hA hR hsolve hlev hfast hpre []
    refine (hans fresh x b).trans (congrArg Outcome.ok ?_)
    have := held_cycle_err (ChebyshevData.settings ⟨s.degree, s.range, s.maxEigenvalue⟩) s.auto
      (s.estimate 0 q.matrix.mulVec (w.problem.dinv 0)) w.problem.dinv w.problem.matrix w.problem.matrix
      w.problem.restriction (toUnsigned (p.nSmoothingSteps.getD 1)) b x x hx
    have hz : ∀ k : ℕ, (fun e => e - chebLin (ChebyshevData.settings ⟨s.degree, s.range, s.maxEigenvalue⟩) s.auto
        (s.estimate 0 q.matrix.mulVec (w.problem.dinv 0)) w.problem.matrix (w.problem.dinv 0)
        (w.problem.matrix.mulVec e))^[k] 0 = 0 := fun k => Function.iterate_fixed (by simp) k
    rw [sub_self, hz] at this
    simp only [Matrix.mulVec_zero, sub_zero] at this
    rw [hz] at this
    exact (sub_eq_zero.1 this).symm
  · obtain ⟨H, hH, h⟩ := C109_matrix_free_current s w p htype hA hd hR hsolve hlev hfast hpre hsteps steps A' hlast hA'
      htwice hritz hlam
    have hsol := mulVec_inv (spd_det hA') b
    obtain ⟨y, hy, hlt⟩ := h fresh x b (A'⁻¹.mulVec b) hsol (by
      intro e
      rw [← e] at hsol
      exact hx' hsol)
    refine ⟨y, hy, ?_⟩
    rintro rfl
    exact lt_irrefl _ hlt

/-- **C109: neither does a matrix-free hierarchy solve the current problem.** A hierarchy is built and applied once (to
anything), then the matrix is multiplied by a number `c ≥ 2` (a larger coefficient).  If an eigenvector of the scaled matrix is
in the coarse space, as the eigenvectors of agglomerates are meant to be, and `c` times its eigenvalue exceeds the reach of
the eigenvalue estimates, then cycles for the current problem do not decrease an error in its direction, whatever degree the
user sets and however many smoothing steps are made. -/
theorem C109_scaled_violated (s : Surroundings dims ℝ) (w : UserWorld dims ℝ) (p : Params)
    (htype : EqNoCase (s.type.getD (chars! "Chebyshev")) (chars! "chebyshev")) (hA : IsSpd w.problem.matrix)
    (hR : ∀ l, IndependentRows (w.problem.restriction l)) (hsolve : ∀ l, SolvesExactly (s.solve l))
    (hlev : p.maxLevels.getD 2 = 2) (hfast : p.fastAp.getD false = false)
    (hpre : p.isPreconditioner = some false) (hsteps : 0 < toUnsigned (p.nSmoothingSteps.getD 1))
    (hritz : ∀ m ∈ s.estimate 0 w.problem.matrix.mulVec (w.problem.dinv 0), 0 < m)
    (z : Fin (dims 1) → ℝ) (v : Fin (dims 0) → ℝ) (hv : v = (w.problem.restriction 0).transpose.mulVec z) (lam : ℝ)
    (hlam : ∀ i, w.problem.dinv 0 i * w.problem.matrix.mulVec v i = lam * v i) (c : ℝ) (hc : 2 ≤ c)
    (hreach : upperEnd (s.estimate 0 w.problem.matrix.mulVec (w.problem.dinv 0))
        + lowerEnd s.range (s.estimate 0 w.problem.matrix.mulVec (w.problem.dinv 0)) ≤ c * lam)
    (q : UserProblem dims ℝ) (hq : q.matrix = c • w.problem.matrix) (fresh₁ : ∀ l, Fin (dims l) → ℝ)
    (x₁ b₁ : Fin (dims 0) → ℝ) :
    ∃ H, buildFor s w.problem true p = .ok H ∧ ∀ fresh b xs, q.matrix.mulVec xs = b →
      ∃ y, ((w.step s (.build true p)).run s [.vmult w.held.length fresh₁ x₁ b₁, .change q]).answer s w.held.length fresh
          (xs - v) b = .ok y ∧
        energyOf q.matrix v ≤ energyOf q.matrix (xs - y) := by
  obtain ⟨H, hH, hlin⟩ := held_linear s w.problem q p htype hA hR hsolve hlev hfast
  obtain ⟨g1, g2⟩ := step_build s w true p H hH
  refine ⟨H, hH, fun fresh b xs hxs => ?_⟩
  obtain ⟨h', hh'⟩ : ∃ h' : HeldHierarchy dims ℝ, h' = ⟨H, some (w.problem.dinv 0),
      some (s.estimate 0 w.problem.matrix.mulVec (w.problem.dinv 0))⟩ := ⟨_, rfl⟩
  obtain ⟨l1, l2, l3, l4⟩ := hlin h' (by rw [hh']) (by rw [hh'])
  have hest : h'.estimates s q (w.problem.dinv 0) = s.estimate 0 w.problem.matrix.mulVec (w.problem.dinv 0) := by
    rw [hh']; rfl
  have hn : H.nSmoothingSteps = toUnsigned (p.nSmoothingSteps.getD 1) := by
    rw [← l4, hh']; rfl
  rw [hest] at l1
  have hget : ((w.step s (.build true p)).run s [.vmult w.held.length fresh₁ x₁ b₁, .change q]).held[w.held.length]?
      = some h' := by
    have hap : HeldHierarchy.applied s (⟨H, some (w.problem.dinv 0), none⟩ : HeldHierarchy dims ℝ) w.problem = h' := by
      simp only [HeldHierarchy.applied]
      rw [if_neg (by omega), hh']
      rfl
    simp only [UserWorld.run, List.foldl_cons, List.foldl_nil]
    change ((w.step s (.build true p)).held.modify w.held.length fun h => h.applied s _)[w.held.length]? = _
    rw [List.getElem?_modify, g1, g2]
    simp only [if_true, Option.map_eq_map, Option.map_some]
    exact congrArg some hap
  have hprob : ((w.step s (.build true p)).run s [.vmult w.held.length fresh₁ x₁ b₁, .change q]).problem = q := rfl
  refine ⟨cycle (heldData (ChebyshevData.settings ⟨s.degree, s.range, s.maxEigenvalue⟩) s.auto
      (s.estimate 0 w.problem.matrix.mulVec (w.problem.dinv 0)) w.problem.dinv w.problem.matrix q.matrix
      w.problem.restriction) (toUnsigned (p.nSmoothingSteps.getD 1)) 1 0 b (xs - v), ?_, ?_⟩
  · simp only [UserWorld.answer, hget, hprob]
    rw [C04_cycle_is_textbook _ _ l1 fresh _ b (Or.inr l2.ge), l2, l3, l4, hpre]
    rfl
  rw [held_cycle_err _ _ _ _ _ _ _ _ b _ xs hxs, sub_sub_cancel]
  obtain ⟨f, hf⟩ : ∃ f, f = userFactor ⟨s.degree, s.range, s.maxEigenvalue⟩ s.auto
      (s.estimate 0 w.problem.matrix.mulVec (w.problem.dinv 0)) (c * lam) := ⟨_, rfl⟩
  have hf1 : 1 ≤ |f| := hf ▸ userFactor_ge _ s.auto hritz hreach
  have heig : v - chebLin (ChebyshevData.settings ⟨s.degree, s.range, s.maxEigenvalue⟩) s.auto
      (s.estimate 0 w.problem.matrix.mulVec (w.problem.dinv 0)) q.matrix (w.problem.dinv 0) (q.matrix.mulVec v) = f • v := by
    rw [hf]
    refine chebLin_eigen _ s.auto hritz q.matrix (w.problem.dinv 0) fun i => ?_
    rw [hq, Matrix.smul_mulVec, Pi.smul_apply, smul_eq_mul, mul_left_comm, hlam i, mul_assoc]
  have hit : ∀ (k : ℕ) (a : ℝ), (fun e => e - chebLin (ChebyshevData.settings ⟨s.degree, s.range, s.maxEigenvalue⟩) s.auto
      (s.estimate 0 w.problem.matrix.mulVec (w.problem.dinv 0)) q.matrix (w.problem.dinv 0) (q.matrix.mulVec e))^[k] (a • v)
      = (f ^ k * a) • v := by
    intro k
    induction k with
    | zero => intro a; simp
    | succ k ih =>
      intro a
      rw [Function.iterate_succ_apply]
      simp only [Matrix.mulVec_smul, map_smul]
      rw [← smul_sub, heig, smul_smul, ih, pow_succ, mul_comm a f, mul_assoc]
  have hco : ∀ a : ℝ, a • v - (w.problem.restriction 0).transpose.mulVec
      ((galerkin (w.problem.restriction 0) w.problem.matrix)⁻¹.mulVec
        ((w.problem.restriction 0).mulVec (q.matrix.mulVec (a • v)))) = ((1 - c) * a) • v := by
    intro a
    have hG : IsSpd (galerkin (w.problem.restriction 0) w.problem.matrix) := coarseMatrix_spd dims _ hA _ hR 1
    have h1 : (w.problem.restriction 0).mulVec (q.matrix.mulVec (a • v)) =
        (galerkin (w.problem.restriction 0) w.problem.matrix).mulVec ((a * c) • z) := by
      rw [hq, hv, galerkin, Matrix.smul_mulVec, Matrix.mulVec_smul, Matrix.mulVec_smul, Matrix.mulVec_smul,
        Matrix.mulVec_smul, smul_smul, mul_comm c a, ← Matrix.mulVec_mulVec, ← Matrix.mulVec_mulVec]
    have h2 : (galerkin (w.problem.restriction 0) w.problem.matrix)⁻¹.mulVec
        ((galerkin (w.problem.restriction 0) w.problem.matrix).mulVec ((a * c) • z)) = (a * c) • z :=
      mulVec_injective hG (mulVec_inv (spd_det hG) _)
    rw [h1, h2, Matrix.mulVec_smul, ← hv, ← sub_smul]
    congr 1
    ring
  have h1 := hit (toUnsigned (p.nSmoothingSteps.getD 1)) 1
  rw [one_smul] at h1
  rw [h1]
  simp only [hco]
  rw [hit, energyOf_smul]
  obtain ⟨g, hg⟩ : ∃ g, g = f ^ toUnsigned (p.nSmoothingSteps.getD 1) := ⟨_, rfl⟩
  have hg1 : 1 ≤ g * g := by
    have : 1 ≤ |g| := by rw [hg, abs_pow]; exact one_le_pow₀ hf1
    nlinarith [abs_mul_abs_self g]
  rw [← hg]
  have hqs : 0 ≤ energyOf q.matrix v := by
    rw [hq, energyOf, Matrix.smul_mulVec, dotProduct_smul]
    exact mul_nonneg (by linarith) (energy_nonneg_of_spd hA v)
  have hcc : 1 ≤ (1 - c) * (1 - c) := by nlinarith
  have hfac : 1 ≤ g * ((1 - c) * (g * 1)) * (g * ((1 - c) * (g * 1))) := by
    have : g * ((1 - c) * (g * 1)) * (g * ((1 - c) * (g * 1))) = (g * g) * (g * g) * ((1 - c) * (1 - c)) := by ring
    rw [this]
    exact one_le_mul_of_one_le_of_one_le (one_le_mul_of_one_le_of_one_le hg1 hg1) hcc
  nlinarith

end matrixFree

section examples

/-- Two unknowns, coupled by `-a`; the sum of both on the coarse level. -/
noncomputable def exCoupling (a : ℝ) : UserProblem (twoLevels 2 1) ℝ :=
  ⟨signMatrix exPair a, fun _ _ => 1, twoLevelRestriction exSumRow⟩

/-- Chebyshev polynomials of degree 3, exact solvers, the eigenvalue estimates 1/2 and 3/2. -/
noncomputable def exAround : Surroundings (twoLevels 2 1) ℝ :=
  ⟨true, false, none, some 3, none, none, 0, fun _ => [List.finRange _], fun _ _ _ => [1 / 2, 3 / 2],
    fun l => exInvSolve l (twoLevels 2 1)⟩

theorem exCoupling_mulVec (a : ℝ) (v : Fin 2 → ℝ) : (signMatrix exPair a).mulVec v 0 = v 0 - a * v 1 ∧
    (signMatrix exPair a).mulVec v 1 = v 1 - a * v 0 := by
  rw [signMatrix_mulVec exPair_sign, signMatrix_mulVec exPair_sign]
  simp only [dotProduct, Fin.sum_univ_two, exPair, Matrix.cons_val_zero, Matrix.cons_val_one]
  constructor <;> ring

theorem exCoupling_spd : IsSpd (signMatrix exPair (1 / 4)) := signMatrix_spd exPair_sign (by norm_num) (by norm_num)

theorem exSum_transpose (w : Fin 1 → ℝ) : exSumRow.transpose.mulVec w = fun _ => w 0 := by
  funext i
  simp [Matrix.mulVec, dotProduct, exSumRow]

theorem exCoupling_twice : AtMostTwice exSumRow (signMatrix exPair (1 / 4)) (signMatrix exPair (1 / 2)) := by
  intro w
  rw [exSum_transpose, energyOf, energyOf, dotProduct, dotProduct, Fin.sum_univ_two, Fin.sum_univ_two,
    (exCoupling_mulVec _ _).1, (exCoupling_mulVec _ _).2, (exCoupling_mulVec _ _).1, (exCoupling_mulVec _ _).2]
  nlinarith [sq_nonneg (w 0)]

theorem exEnds : upperEnd [1 / 2, 3 / 2] = 9 / 5 ∧ lowerEnd none [1 / 2, 3 / 2] = 1 / 2 := by
  have hu : upperEnd [1 / 2, 3 / 2] = 9 / 5 := by
    simp only [upperEnd, List.getLast?_cons_cons, List.getLast?_singleton]
    norm_num
  refine ⟨hu, ?_⟩
  simp only [lowerEnd, hu, Option.getD_none, List.head?_cons, Option.getD_some]
  norm_num

theorem exCoupling_reach (lam : ℝ) (h : ScaledEigenvalue (signMatrix exPair (1 / 4)) (fun _ => 1) lam) :
    lam < upperEnd [1 / 2, 3 / 2] + lowerEnd none [1 / 2, 3 / 2] := by
  rw [exEnds.1, exEnds.2]
  obtain ⟨v, hv0, hv⟩ := h
  have h0 := hv 0
  have h1 := hv 1
  rw [(exCoupling_mulVec _ v).1, one_mul] at h0
  rw [(exCoupling_mulVec _ v).2, one_mul] at h1
  have e1 : (v 0 + v 1) * (lam - 3 / 4) = 0 := by linarith
  have e2 : (v 0 - v 1) * (lam - 5 / 4) = 0 := by linarith
  rcases mul_eq_zero.1 e1 with h | h
  · rcases mul_eq_zero.1 e2 with h' | h'
    · exfalso
      apply hv0
      funext i
      fin_cases i
      · change v 0 = 0; linarith
      · change v 1 = 0; linarith
    · linarith
  · linarith

/-- The hierarchy is built for the coupling 1/2; the program applies it, changes the coupling to 3/4 and to 1/4, builds another
one, and applies the first again.  Matrix-based: it still answers as it did. -/
example : ∃ H, buildFor exAround (exCoupling (1 / 2)) false { isPreconditioner := some false } = .ok H ∧
    ∀ fresh x b,
      (((⟨exCoupling (1 / 2), []⟩ : UserWorld (twoLevels 2 1) ℝ).step exAround
          (.build false { isPreconditioner := some false })).run exAround
        [.vmult 0 0 0 0, .change (exCoupling (3 / 4)), .change (exCoupling (1 / 4)), .build false {}, .vmult 0 0 0 0]).answer
          exAround 0 fresh x b = (H.vmult fresh x b).result := by
  obtain ⟨H, hH, -⟩ := C75_rate_partial true false { isPreconditioner := some false } none (Or.inl rfl) (twoLevels 2 1)
    (fun _ => List.finRange _) (fun _ => ⟨List.nodup_finRange _, List.mem_finRange⟩) (signMatrix exPair (1 / 2)) exPair_spd
    (twoLevelRestriction exSumRow) (twoLevelRestriction_independent exSumRow_independent)
    (fun l => exInvSolve l (twoLevels 2 1)) (fun l => exInvSolve_exact _ l) (by decide) rfl rfl (by decide)
  exact ⟨H, hH, fun fresh x b => C109_matrix exAround ⟨exCoupling (1 / 2), []⟩ _ H hH _ fresh x b⟩

/-- The same history with matrix-free hierarchies: the first one now converges to the solution for the coupling 1/4. -/
example : ∃ H, buildFor exAround (exCoupling (1 / 2)) true { isPreconditioner := some false } = .ok H ∧
    ∀ fresh (x b xs : Fin (twoLevels 2 1 0) → ℝ), (signMatrix exPair (1 / 4)).mulVec xs = b → x ≠ xs →
      ∃ y, (((⟨exCoupling (1 / 2), []⟩ : UserWorld (twoLevels 2 1) ℝ).step exAround
          (.build true { isPreconditioner := some false })).run exAround
        [.vmult 0 0 0 0, .change (exCoupling (3 / 4)), .change (exCoupling (1 / 4)), .build true {}, .vmult 0 0 0 0]).answer
          exAround 0 fresh x b = .ok y ∧
        energyOf (signMatrix exPair (1 / 4)) (xs - y) < energyOf (signMatrix exPair (1 / 4)) (xs - x) :=
  C109_matrix_free_current exAround ⟨exCoupling (1 / 2), []⟩ { isPreconditioner := some false } exName exPair_spd (fun _ => one_pos)
    (twoLevelRestriction_independent exSumRow_independent) (fun l => exInvSolve_exact _ l) rfl rfl rfl (by decide)
    [.vmult 0 0 0 0, .change (exCoupling (3 / 4)), .change (exCoupling (1 / 4)), .build true {}, .vmult 0 0 0 0]
    (signMatrix exPair (1 / 4)) rfl
    exCoupling_spd exCoupling_twice (fun _ _ m hm => by simp [exAround] at hm; rcases hm with rfl | rfl <;> norm_num)
    (fun _ _ => exCoupling_reach)

/-- The matrix stays, the restriction matrices change (another number of eigenvectors per agglomerate, say). -/
example : ∃ H, buildFor exAround (exCoupling (1 / 2)) true { isPreconditioner := some false } = .ok H ∧ ∀ fresh x b,
    (((⟨exCoupling (1 / 2), []⟩ : UserWorld (twoLevels 2 1) ℝ).step exAround
        (.build true { isPreconditioner := some false })).run exAround
      [.vmult 0 0 0 0, .change { exCoupling (1 / 2) with restriction := fun _ => 0 }]).answer exAround 0 fresh x b
      = (H.vmult fresh x b).result :=
  C109_matrix_free_partial exAround ⟨exCoupling (1 / 2), []⟩ { isPreconditioner := some false } exName exPair_spd
    (twoLevelRestriction_independent exSumRow_independent) (fun l => exInvSolve_exact _ l) rfl rfl rfl _
    (fun q hq => by
      simp only [changedTo, List.mem_singleton] at hq
      rw [hq])

/-- `(2, 2)` solves the problem with the coupling 1/2 and the right-hand side `(1, 1)`.  After the change to 1/4 the hierarchy
does not keep it. -/
example (fresh : ∀ l, Fin (twoLevels 2 1 l) → ℝ) :
    ((⟨exCoupling (1 / 2), []⟩ : UserWorld (twoLevels 2 1) ℝ).step exAround
        (.build true { isPreconditioner := some false })).answer exAround 0 fresh (fun _ => 2) (fun _ => 1)
      = .ok (fun _ => 2) ∧
    ∃ y, (((⟨exCoupling (1 / 2), []⟩ : UserWorld (twoLevels 2 1) ℝ).step exAround
        (.build true { isPreconditioner := some false })).run exAround
      [.vmult 0 0 0 0, .change (exCoupling (1 / 4))]).answer exAround 0 fresh (fun _ => 2) (fun _ => 1) = .ok y ∧
      y ≠ fun _ => 2 :=
  C109_matrix_free_violated exAround ⟨exCoupling (1 / 2), []⟩ { isPreconditioner := some false } exName exPair_spd (fun _ => one_pos)
    (twoLevelRestriction_independent exSumRow_independent) (fun l => exInvSolve_exact _ l) rfl rfl rfl (by decide)
    [.vmult 0 0 0 0, .change (exCoupling (1 / 4))] (signMatrix exPair (1 / 4)) rfl
    exCoupling_spd exCoupling_twice (fun _ _ m hm => by simp [exAround] at hm; rcases hm with rfl | rfl <;> norm_num)
    (fun _ _ => exCoupling_reach) fresh _ _
    (by
      funext i
      revert i
      refine Fin.forall_fin_two.2 ⟨?_, ?_⟩
      · exact (exCoupling_mulVec (1 / 2) fun _ => 2).1.trans (by norm_num)
      · exact (exCoupling_mulVec (1 / 2) fun _ => 2).2.trans (by norm_num))
    (by
      intro h
      have h0 := (exCoupling_mulVec (1 / 4) fun _ => 2).1.symm.trans (congrFun h (0 : Fin 2))
      norm_num at h0)

/-- The matrix times five. -/
noncomputable def exFiveTimes : UserProblem (twoLevels 2 1) ℝ :=
  ⟨(5 : ℝ) • signMatrix exPair (1 / 2), fun _ _ => 1, twoLevelRestriction exSumRow⟩

/-- `(1, 1)` is in the coarse space and an eigenvector with the eigenvalue 1/2.  The matrix is multiplied by 5. -/
example (fresh₁ : ∀ l, Fin (twoLevels 2 1 l) → ℝ) (x₁ b₁ : Fin 2 → ℝ) :
    ∃ H, buildFor exAround (exCoupling (1 / 2)) true { isPreconditioner := some false } = .ok H ∧
      ∀ fresh (b xs : Fin (twoLevels 2 1 0) → ℝ), ((5 : ℝ) • signMatrix exPair (1 / 2)).mulVec xs = b →
      ∃ y, (((⟨exCoupling (1 / 2), []⟩ : UserWorld (twoLevels 2 1) ℝ).step exAround
          (.build true { isPreconditioner := some false })).run exAround
        [.vmult 0 fresh₁ x₁ b₁, .change exFiveTimes]).answer
          exAround 0 fresh (xs - fun _ => 1) b = .ok y ∧
        energyOf ((5 : ℝ) • signMatrix exPair (1 / 2)) (fun _ => 1)
          ≤ energyOf ((5 : ℝ) • signMatrix exPair (1 / 2)) (xs - y) :=
  C109_scaled_violated exAround ⟨exCoupling (1 / 2), []⟩ { isPreconditioner := some false } exName exPair_spd
    (twoLevelRestriction_independent exSumRow_independent) (fun l => exInvSolve_exact _ l) rfl rfl rfl (by decide)
    (fun m hm => by simp [exAround] at hm; rcases hm with rfl | rfl <;> norm_num)
    (fun _ => 1) (fun _ => 1) (exSum_transpose fun _ => 1).symm (1 / 2)
    (Fin.forall_fin_two.2 ⟨by
        change (1 : ℝ) * (signMatrix exPair (1 / 2)).mulVec (fun _ => 1) 0 = _
        rw [(exCoupling_mulVec _ _).1]; norm_num, by
        change (1 : ℝ) * (signMatrix exPair (1 / 2)).mulVec (fun _ => 1) 1 = _
        rw [(exCoupling_mulVec _ _).2]; norm_num⟩) 5 (by norm_num)
    (by
      change upperEnd [1 / 2, 3 / 2] + lowerEnd none [1 / 2, 3 / 2] ≤ _
      rw [exEnds.1, exEnds.2]
      norm_num) exFiveTimes rfl fresh₁ x₁ b₁

end examples

end Mfmg
