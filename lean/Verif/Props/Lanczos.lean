import Verif.Lemmas.LanczosTwo
import Mathlib.Analysis.InnerProductSpace.PiL2

/-!
# The Lanczos iteration (C26, C27, C29, C30, C32, C33)
-/

set_option autoImplicit false

namespace Mfmg

open Finset
open scoped InnerProductSpace

section

variable {E : Type} [NormedAddCommGroup E] [InnerProductSpace ℝ E]

/-- Facts on every run that returns. -/
theorem solveLanczos_ok (debug : Bool) (A : E → E) (P : LanczosState E → Prop)
    (hP : ∀ s s', P s → lanczosStep debug A s = .ok s' → P s')
    (tridiag : List ℝ → List ℝ → ℕ → List ℝ × List ℝ) (req : ℕ) (p : LanczosParams) (guess : E)
    (h0 : P (lanczosInit guess)) (r : LanczosResult E) (ys : List E)
    (h : solveLanczos debug A tridiag req p guess = .ok (r, ys)) :
    P r.state ∧ r.state.vs.length ≤ p.maxit ∧
      calcEvecs r.state.vs.length r.state.vs r.evecs req 0 = .ok ys ∧
      (0 < p.maxit →
        TestInv p.pct p.maxit r.tests r.state.vs.length (r.state.vs.length + 1) ∧
        r.tests.head? = some 1 ∧ r.tests.getLast? = some r.state.vs.length ∧
        (r.evals, r.evecs) = tridiag r.state.diag r.state.sub req ∧
        checkConvergence r.state.beta r.state.vs.length req p.tol r.evecs = .ok r.converged ∧
        (r.converged = false → r.state.vs.length = p.maxit) ∧ 1 ≤ r.state.vs.length) := by
  unfold solveLanczos at h
  simp only [Outcome.bind_eq_ok] at h
  obtain ⟨_, -, _, -, _, -, r', hr, _, -, ys', hys, h⟩ := h
  simp only [Outcome.pure_eq, Outcome.ok.injEq, Prod.mk.injEq] at h
  obtain ⟨rfl, rfl⟩ := h
  obtain ⟨a, b, c, d, e⟩ := lanczosLoop_spec debug A P hP (fun d s => tridiag d s req) req p.tol
    p.pct p.maxit p.maxit 1 0 ⟨lanczosInit guess, [], [], [], false⟩ (by omega) rfl h0
    ⟨Or.inl ⟨rfl, rfl, rfl⟩, by simp, fun c h1 h2 => by omega⟩ r' hr
  refine ⟨a, b, hys, ?_⟩
  intro hpos
  obtain ⟨e1, e2, e3, e4, e5, e6⟩ := e hpos
  refine ⟨e1, e2, e3, e4, e5, e6, ?_⟩
  -- the first test is made at iteration 1, so there is at least one vector
  by_contra hc
  have hz : r'.state.vs.length = 0 := by omega
  rw [hz] at e1
  rcases e1.start with ⟨hn, -, -⟩ | ⟨-, hl, -⟩
  · rw [hn] at e2; cases e2
  · have hmem : ∀ (k x : ℕ), r'.tests[k]? = some x → 1 ≤ x := by
      intro k
      induction k with
      | zero =>
        intro x hx
        rw [List.head?_eq_getElem?, hx] at e2
        obtain rfl := Option.some.inj e2
        exact le_rfl
      | succ k ih =>
        intro x hx
        have hlen : k + 1 < r'.tests.length := by
          by_contra hc
          rw [List.getElem?_eq_none (by omega)] at hx
          cases hx
        have hk : r'.tests[k]? = some r'.tests[k] := List.getElem?_eq_getElem (by omega)
        have h1 := (e1.chain k _ x hk hx).1
        have := ih _ hk
        omega
    rw [List.getLast?_eq_getElem?] at hl
    have := hmem _ _ hl
    omega

/-- **C26.** For a symmetric operator, whatever the tridiagonal eigensolver returns, the Lanczos
vectors of every run that returns are orthonormal and satisfy `A V = V T + w eᵀ` with the tridiagonal
matrix `T` of the stored coefficients, `‖w‖ = beta`, `w ⟂ V`.  There are at most `max_iterations` of
them, and the sizes of the coefficient arrays match. -/
theorem C26_lanczos_relation (debug : Bool) (A : E →ₗ[ℝ] E) (hA : A.IsSymmetric)
    (tridiag : List ℝ → List ℝ → ℕ → List ℝ × List ℝ) (req : ℕ) (p : LanczosParams) (guess : E)
    (r : LanczosResult E) (ys : List E)
    (h : solveLanczos debug A tridiag req p guess = .ok (r, ys)) :
    LanczosRelation A r.state.vs.length (fun i => r.state.vs.getD i 0)
        (tridiagEntry r.state.diag r.state.sub) r.state.w ∧
      r.state.beta = ‖r.state.w‖ ∧ r.state.diag.length = r.state.vs.length ∧
      r.state.sub.length = r.state.vs.length - 1 := by
  have hinv := (solveLanczos_ok debug A (LanczosInv A ⊤)
    (fun s s' hs hst => (lanczosStep_inv debug A ⊤ (fun _ _ => trivial)
      (fun x _ y _ => hA x y) s hs s' hst).1) tridiag req p guess
    (lanczosInit_inv A ⊤ guess trivial) r ys h).1
  exact ⟨hinv.rel, hinv.beta, hinv.lenDiag, hinv.lenSub⟩

/-- **C26**, step by step: every iteration that is not a breakdown keeps the relation, for every
number of iterations. -/
theorem C26_every_iteration (debug : Bool) (A : E →ₗ[ℝ] E) (hA : A.IsSymmetric) (guess : E) (k : ℕ)
    (s : LanczosState E)
    (h : (List.range k).foldlM (fun s _ => lanczosStep debug A s) (lanczosInit guess) = .ok s) :
    s.vs.length = k ∧
      LanczosRelation A k (fun i => s.vs.getD i 0) (tridiagEntry s.diag s.sub) s.w ∧
      s.beta = ‖s.w‖ := by
  have key : ∀ (k : ℕ) (s : LanczosState E),
      (List.range k).foldlM (fun s _ => lanczosStep debug A s) (lanczosInit guess) = .ok s →
      s.vs.length = k ∧ LanczosInv A ⊤ s := by
    intro k
    induction k with
    | zero =>
      intro s h
      simp only [List.range_zero, List.foldlM_nil, Outcome.pure_eq, Outcome.ok.injEq] at h
      subst h
      exact ⟨rfl, lanczosInit_inv A ⊤ guess trivial⟩
    | succ k ih =>
      intro s h
      rw [List.range_succ, List.foldlM_append] at h
      rw [Outcome.bind_eq_ok] at h
      obtain ⟨s1, h1, h2⟩ := h
      simp only [List.foldlM_cons, List.foldlM_nil, Outcome.bind_eq_ok] at h2
      obtain ⟨s2, h2, h3⟩ := h2
      simp only [Outcome.pure_eq, Outcome.ok.injEq] at h3
      subst h3
      obtain ⟨hl, hi⟩ := ih s1 h1
      obtain ⟨a, b⟩ := lanczosStep_inv debug A ⊤ (fun _ _ => trivial) (fun x _ y _ => hA x y) s1 hi
        s2 h2
      exact ⟨by omega, a⟩
  obtain ⟨hl, hi⟩ := key k s h
  refine ⟨hl, ?_, hi.beta⟩
  have := hi.rel
  rwa [hl] at this

theorem column_getD (n : ℕ) (v : List ℝ) (i j : ℕ) (hj : j < n) :
    (column n v i).getD j 0 = v.getD (n * i + j) 0 := by
  simp only [column, List.getD, List.getElem?_take, List.getElem?_drop, if_pos hj]

theorem sum_sq_column (n : ℕ) (v : List ℝ) (hv : v.length = n) :
    (v.map (fun x => x * x)).sum = ∑ j ∈ range n, v.getD j 0 * v.getD j 0 := by
  subst hv
  induction v with
  | nil => simp
  | cons a v ih =>
    rw [List.length_cons, Finset.sum_range_succ', List.map_cons, List.sum_cons, ih]
    simp only [List.getD_cons_zero, List.getD_cons_succ]
    ring

/-- Norm of a combination of orthonormal vectors. -/
theorem norm_combination (A : E → E) (m : ℕ) (v : ℕ → E) (T : ℕ → ℕ → ℝ) (w : E)
    (h : LanczosRelation A m v T w) (c : ℕ → ℝ) (hc : ∑ j ∈ range m, c j * c j = 1) :
    ‖∑ j ∈ range m, c j • v j‖ = 1 := by
  have : ⟪∑ j ∈ range m, c j • v j, ∑ j ∈ range m, c j • v j⟫_ℝ = 1 := by
    rw [sum_inner, ← hc]
    refine Finset.sum_congr rfl ?_
    intro i hi
    rw [inner_sum, Finset.sum_eq_single i]
    · rw [inner_smul_left, inner_smul_right, h.orthonormal i i (Finset.mem_range.1 hi)
        (Finset.mem_range.1 hi), if_pos rfl]
      simp
    · intro j hj hne
      rw [inner_smul_left, inner_smul_right, h.orthonormal i j (Finset.mem_range.1 hi)
        (Finset.mem_range.1 hj), if_neg (fun e => hne e.symm)]
      simp
    · intro hn; exact absurd hi hn
  rw [real_inner_self_eq_norm_sq] at this
  have h0 := norm_nonneg (∑ j ∈ range m, c j • v j)
  nlinarith [sq_nonneg (‖∑ j ∈ range m, c j • v j‖ - 1)]

/-- Facts on a run that returns, for an operator that is symmetric on a subspace it maps to itself,
started inside the subspace. -/
theorem lanczos_run_facts (debug : Bool) (A : E →ₗ[ℝ] E) (S : Submodule ℝ E)
    (hAS : ∀ x ∈ S, A x ∈ S) (hsym : ∀ x ∈ S, ∀ y ∈ S, ⟪A x, y⟫_ℝ = ⟪x, A y⟫_ℝ)
    (dstev : List ℝ → List ℝ → List ℝ × List ℝ) (hd : DstevContract dstev) (tol2 : ℝ)
    (req : ℕ) (hreq : 0 < req) (p : LanczosParams) (hmax : 0 < p.maxit) (guess : E) (hg : guess ∈ S)
    (r : LanczosResult E) (ys : List E)
    (h : solveLanczos debug A (calcTridiagEpairs Real.sqrt tol2 dstev) req p guess = .ok (r, ys)) :
    LanczosInv A S r.state ∧ r.evals.length = req ∧ ys.length = req ∧
      (∀ (i : ℕ) (θ : ℝ) (y : E), r.evals[i]? = some θ → ys[i]? = some y →
        ‖y‖ = 1 ∧ y ∈ S ∧
        ‖A y - θ • y‖ = r.state.beta *
          |r.evecs.getD (r.state.vs.length - 1 + r.state.vs.length * i) 0| ∧
        (r.converged = true → ‖A y - θ • y‖ ≤ p.tol)) ∧
      (∀ (i j : ℕ) (y z : E), i ≠ j → ys[i]? = some y → ys[j]? = some z → ⟪y, z⟫_ℝ = 0) ∧
      ∀ (i j : ℕ) (θ : ℝ) (y z : E), r.evals[i]? = some θ → ys[i]? = some y → ys[j]? = some z →
        ⟪A y - θ • y, z⟫_ℝ = 0 := by
  obtain ⟨hinv, hle, hys, hrest⟩ := solveLanczos_ok debug A (LanczosInv A S)
    (fun s s' hs hst => (lanczosStep_inv debug A S hAS hsym s hs s' hst).1)
    (calcTridiagEpairs Real.sqrt tol2 dstev) req p guess (lanczosInit_inv A S guess hg) r ys h
  obtain ⟨-, -, -, hep, hchk, -, hm⟩ := hrest hmax
  set m := r.state.vs.length with hmdef
  have hsz : r.state.sub.length + 1 = r.state.diag.length := by
    rw [hinv.lenSub, hinv.lenDiag]; omega
  have hdm : r.state.diag.length = m := hinv.lenDiag
  rw [calcTridiagEpairs_eq Real.sqrt tol2 dstev r.state.diag r.state.sub req
    (hd.len _ _ hsz) (hd.flat _ _ hsz)] at hep
  simp only [hdm] at hep
  split_ifs at hep with hcond
  · -- the array is empty: no run returns
    exfalso
    injection hep with h1 h2
    rw [h2] at hys hchk
    rcases Nat.lt_or_ge m req with hlt | hge
    · cases req with
      | zero => omega
      | succ req =>
        rw [calcEvecs] at hys
        cases hvs : r.state.vs with
        | nil => rw [hvs] at hmdef; simp at hmdef; omega
        | cons v vs =>
          rw [hvs, calcEvecLoop, Outcome.get_ub _ _ _ (by simp)] at hys
          cases hys
    · rw [checkConvergence_nil _ _ _ _ hreq hge] at hchk
      cases hchk
  · push Not at hcond
    injection hep with hevals hevecs
    set kept := (List.range m).filter (fun i =>
      !((spuriousFlags tol2 (dstev r.state.diag r.state.sub).1
        (dstev r.state.diag.tail r.state.sub.tail).1 req).getD i false ||
        !isMarked tol2 (dstev r.state.diag r.state.sub).1 i)) with hkept
    set aux := (dstev r.state.diag r.state.sub).2 with haux
    have hauxlen : aux.length = m * m := by rw [haux, hd.flat _ _ hsz, hdm]
    have hcol : ∀ k, k < m → (column m aux k).length = m :=
      fun k hk => column_length m aux k m hauxlen hk
    have hunit : ∀ k, k < m → ((column m aux k).map (fun x => x * x)).sum = 1 := by
      intro k hk
      rw [sum_sq_column m _ (hcol k hk)]
      have := hd.orthonormal _ _ hsz k k (by omega) (by omega)
      rw [if_pos rfl, hdm] at this
      exact this
    have hnorm : ∀ k ∈ kept.take req, (column m aux k).map (fun x =>
        x / Real.sqrt (((column m aux k).map (fun x => x * x)).sum)) = column m aux k := by
      intro k hk
      have hk : k < m := List.mem_range.1 (List.mem_of_mem_filter (List.mem_of_mem_take hk))
      rw [hunit k hk, Real.sqrt_one]
      simp
    rw [List.flatMap_congr hnorm] at hevecs
    have hcols : ∀ (i k : ℕ), (kept.take req)[i]? = some k → k < m ∧ column m r.evecs i = column m aux k := by
      intro i k hk
      refine ⟨List.mem_range.1 (List.mem_of_mem_filter (List.mem_of_mem_take
        (List.mem_of_getElem? hk))), ?_⟩
      rw [hevecs]
      refine column_flatMap m _ _ ?_ i k hk
      intro k' hk'
      exact hcol k' (List.mem_range.1 (List.mem_of_mem_filter (List.mem_of_mem_take hk')))
    have hevlen : r.evals.length = req := by
      rw [hevals, List.length_map, List.length_take]; omega
    have hvlen : m * req ≤ r.evecs.length := by
      rw [hevecs, List.length_flatMap]
      have : (kept.take req).map (fun k => (column m aux k).length) = List.replicate req m := by
        rw [List.eq_replicate_iff]
        refine ⟨by simp; omega, ?_⟩
        intro b hb
        obtain ⟨k, hk, rfl⟩ := List.mem_map.1 hb
        exact hcol k (List.mem_range.1 (List.mem_of_mem_filter (List.mem_of_mem_take hk)))
      rw [this, List.sum_replicate, smul_eq_mul, Nat.mul_comm]
    have hys' := calcEvecs_eq r.state.vs r.evecs req 0 (by rw [Nat.zero_add]; exact hvlen)
    rw [hys'] at hys
    injection hys with hys
    have hidx : ∀ (i : ℕ) (y : E), ys[i]? = some y → i < req ∧ ∃ k, (kept.take req)[i]? = some k ∧
        k < m ∧ column m r.evecs i = column m aux k ∧
        y = ∑ j ∈ range m, (column m aux k).getD j 0 • r.state.vs.getD j 0 := by
      intro i y hy
      have hi : i < req := by
        by_contra hc
        rw [← hys, List.getElem?_eq_none (by simp; omega)] at hy
        cases hy
      obtain ⟨k, hk⟩ : ∃ k, (kept.take req)[i]? = some k := by
        have : i < (kept.take req).length := by rw [List.length_take]; omega
        exact ⟨_, List.getElem?_eq_getElem this⟩
      obtain ⟨hkm, hck⟩ := hcols i k hk
      refine ⟨hi, k, hk, hkm, hck, ?_⟩
      rw [← hys, List.getElem?_map, List.getElem?_range hi] at hy
      simp only [Option.map_some, Option.some.injEq, Nat.zero_add] at hy
      rw [← hy]
      refine Finset.sum_congr rfl ?_
      intro j hj
      rw [← hck, column_getD m _ _ _ (Finset.mem_range.1 hj)]
    refine ⟨hinv, hevlen, by rw [← hys]; simp, ?_, ?_, ?_⟩
    rotate_left 2
    · intro i i' θ y z hθ hy hz
      obtain ⟨-, k, hk, hkm, -, hy'⟩ := hidx i y hy
      obtain ⟨-, k', -, -, -, hz'⟩ := hidx i' z hz
      have hθ' : θ = (dstev r.state.diag r.state.sub).1.getD k 0 := by
        rw [hevals, List.getElem?_map, hk] at hθ
        exact (Option.some.inj hθ).symm
      have heig := hd.eigen _ _ hsz k (by omega)
      rw [hdm] at heig
      have hres := lanczos_residual A m (fun j => r.state.vs.getD j 0)
        (tridiagEntry r.state.diag r.state.sub) r.state.w hinv.rel _ _ heig (by omega)
      rw [hy', hθ', hres, hz', inner_sum]
      refine Finset.sum_eq_zero fun j hj => ?_
      rw [inner_smul_left, inner_smul_right, real_inner_comm,
        hinv.rel.rest j (Finset.mem_range.1 hj), mul_zero, mul_zero]
    rotate_left
    · intro i i' y z hne hy hz
      obtain ⟨-, k, hk, hkm, -, hy'⟩ := hidx i y hy
      obtain ⟨-, k', hk', hkm', -, hz'⟩ := hidx i' z hz
      have hnd : (kept.take req).Nodup :=
        (List.Nodup.filter _ List.nodup_range).sublist (List.take_sublist _ _)
      have hkk : k ≠ k' := by
        intro h
        subst h
        obtain ⟨h1, e1⟩ := List.getElem?_eq_some_iff.1 hk
        obtain ⟨h2, e2⟩ := List.getElem?_eq_some_iff.1 hk'
        exact hne ((List.Nodup.getElem_inj_iff hnd).1 (e1.trans e2.symm))
      have horth := hd.orthonormal _ _ hsz k k' (by omega) (by omega)
      rw [if_neg hkk, hdm] at horth
      rw [hy', hz', sum_inner]
      refine Eq.trans ?_ horth
      refine Finset.sum_congr rfl ?_
      intro a ha
      rw [inner_sum, Finset.sum_eq_single a]
      · rw [inner_smul_left, inner_smul_right, hinv.rel.orthonormal a a (Finset.mem_range.1 ha)
          (Finset.mem_range.1 ha), if_pos rfl]
        simp
        try rfl
      · intro b hb hne
        rw [inner_smul_left, inner_smul_right, hinv.rel.orthonormal a b (Finset.mem_range.1 ha)
          (Finset.mem_range.1 hb), if_neg (fun e => hne e.symm)]
        simp
      · intro hn; exact absurd ha hn
    intro i θ y hθ hy
    obtain ⟨hi, k, hk, hkm, hck, hy'⟩ := hidx i y hy
    have hθ' : θ = (dstev r.state.diag r.state.sub).1.getD k 0 := by
      rw [hevals, List.getElem?_map, hk] at hθ
      exact (Option.some.inj hθ).symm
    have heig := hd.eigen _ _ hsz k (by omega)
    rw [hdm] at heig
    have hres := lanczos_residual A m (fun j => r.state.vs.getD j 0)
      (tridiagEntry r.state.diag r.state.sub) r.state.w hinv.rel _ _ heig (by omega)
    have hval : ‖A y - θ • y‖ = r.state.beta *
          |r.evecs.getD (m - 1 + m * i) 0| := by
      rw [hy', hθ', hres, norm_smul, Real.norm_eq_abs, ← hinv.beta, mul_comm]
      congr 2
      rw [show (dstev r.state.diag r.state.sub).2 = aux from rfl, ← hck,
        column_getD m _ _ _ (by omega), Nat.add_comm]
    refine ⟨?_, ?_, hval, ?_⟩
    rotate_left
    · rw [hy']
      refine Submodule.sum_mem _ (fun j hj => Submodule.smul_mem _ _ (hinv.mem _ ?_))
      exact getD_mem _ _ _ (Finset.mem_range.1 hj)
    rotate_left
    · rw [hy']
      refine norm_combination A m (fun j => r.state.vs.getD j 0) _ _ hinv.rel _ ?_
      rw [← sum_sq_column m _ (hcol k hkm)]
      exact hunit k hkm
    · intro hconv
      rw [hval]
      rw [hconv, checkConvergence, if_neg (by omega), checkLoop_eq _ _ _ (by omega) _ _ _ _
        (by rw [Nat.zero_add]; exact hvlen)] at hchk
      simp only [Bool.true_and, Outcome.ok.injEq, decide_eq_true_eq, Nat.zero_add] at hchk
      have := hchk i hi
      rwa [Nat.add_comm] at this

/-- **C27.** For a symmetric operator and an exact tridiagonal eigensolver: every run that returns
gives `num_requested` eigenvalues and orthonormal vectors; the residual of each pair is exactly
`beta * |last component|`, the number that is tested; and when the run stopped because the test
passed, every residual is at most the tolerance. -/
theorem C27_residual (debug : Bool) (A : E →ₗ[ℝ] E) (hA : A.IsSymmetric)
    (dstev : List ℝ → List ℝ → List ℝ × List ℝ) (hd : DstevContract dstev) (tol2 : ℝ)
    (req : ℕ) (hreq : 0 < req) (p : LanczosParams) (hmax : 0 < p.maxit) (guess : E)
    (r : LanczosResult E) (ys : List E)
    (h : solveLanczos debug A (calcTridiagEpairs Real.sqrt tol2 dstev) req p guess = .ok (r, ys)) :
    r.evals.length = req ∧ ys.length = req ∧
      (∀ (i : ℕ) (θ : ℝ) (y : E), r.evals[i]? = some θ → ys[i]? = some y →
        ‖y‖ = 1 ∧
        ‖A y - θ • y‖ = r.state.beta *
          |r.evecs.getD (r.state.vs.length - 1 + r.state.vs.length * i) 0| ∧
        (r.converged = true → ‖A y - θ • y‖ ≤ p.tol)) ∧
      ∀ (i j : ℕ) (y z : E), i ≠ j → ys[i]? = some y → ys[j]? = some z → ⟪y, z⟫_ℝ = 0 := by
  obtain ⟨-, h1, h2, h3, h4, -⟩ := lanczos_run_facts debug A ⊤ (fun _ _ => trivial)
    (fun x _ y _ => hA x y) dstev hd tol2 req hreq p hmax guess trivial r ys h
  refine ⟨h1, h2, fun i θ y e1 e2 => ?_, h4⟩
  obtain ⟨a, -, b, c⟩ := h3 i θ y e1 e2
  exact ⟨a, b, c⟩

/-- **C32.** Any operator, any convergence behaviour (`tridiag` is arbitrary): a run that returns made
at most `max_iterations` steps; the first and the last step were tested; the tests follow the
overshoot rule; and the run went to the limit unless the last test passed. -/
theorem C32_tests (debug : Bool) (A : E → E)
    (tridiag : List ℝ → List ℝ → ℕ → List ℝ × List ℝ) (req : ℕ) (p : LanczosParams)
    (hmax : 0 < p.maxit) (guess : E) (r : LanczosResult E) (ys : List E)
    (h : solveLanczos debug A tridiag req p guess = .ok (r, ys)) :
    r.state.vs.length ≤ p.maxit ∧ 1 ≤ r.state.vs.length ∧
      TestSchedule p.pct p.maxit r.state.vs.length r.tests ∧
      checkConvergence r.state.beta r.state.vs.length req p.tol r.evecs = .ok r.converged ∧
      (r.evals, r.evecs) = tridiag r.state.diag r.state.sub req ∧
      (r.converged = false → r.state.vs.length = p.maxit) := by
  obtain ⟨-, hle, -, hrest⟩ := solveLanczos_ok debug A (fun _ => True) (fun _ _ _ _ => trivial)
    tridiag req p guess trivial r ys h
  obtain ⟨a, b, c, d, e, f, g⟩ := hrest hmax
  exact ⟨hle, g, ⟨b, c, a.chain⟩, e, d, f⟩

/-! ## Out-of-range reads after a purge (C33) -/

/-- Full statement of C33: with an exact tridiagonal eigensolver, a run never reads outside the arrays
of tridiagonal eigenvectors. -/
def NoOutOfRange (debug : Bool) (A : E → E) (dstev : List ℝ → List ℝ → List ℝ × List ℝ) (tol2 : ℝ)
    (req : ℕ) (p : LanczosParams) (guess : E) : Prop :=
  solveLanczos debug A (calcTridiagEpairs Real.sqrt tol2 dstev) req p guess
      ≠ .ub "evecs out of range" ∧
    solveLanczos debug A (calcTridiagEpairs Real.sqrt tol2 dstev) req p guess
      ≠ .ub "evecs_tridiag out of range"

/-- **C33** is false: for every operator that acts as `[[c, b], [b, c]]` on a plane, with
`tol2 / 2 < b ≤ tol2` (`tol2` is 5e-12 in the code), start vector the first basis vector, one pair
requested, any tolerance below `b` and any limit of at least two iterations: both Ritz values are
purged in the second iteration and the convergence test reads the empty array, in debug and in
release builds. -/
theorem C33_purged_violated (debug : Bool) (A : E → E) (c b : ℝ) (e₁ e₂ : E)
    (h : ActsTwo A c b e₁ e₂) (dstev : List ℝ → List ℝ → List ℝ × List ℝ) (hd : DstevContract dstev)
    (tol2 : ℝ) (hb0 : 0 < b) (hb : b ≤ tol2) (hb2 : tol2 < 2 * b) (p : LanczosParams)
    (hmax : 2 ≤ p.maxit) (htol0 : 0 ≤ p.tol) (htol : p.tol < b) (hpct : 0 ≤ p.pct)
    (hpct' : p.pct < 100) :
    solveLanczos debug A (calcTridiagEpairs Real.sqrt tol2 dstev) 1 p e₁
        = .ub "evecs out of range" ∧
      ¬ NoOutOfRange debug A dstev tol2 1 p e₁ := by
  suffices hub : solveLanczos debug A (calcTridiagEpairs Real.sqrt tol2 dstev) 1 p e₁
        = .ub "evecs out of range" from ⟨hub, fun hn => hn.1 hub⟩
  obtain ⟨s, hs, hs1⟩ := tridiag_one dstev hd tol2 c
  obtain ⟨n, hn⟩ : ∃ n, p.maxit = n + 2 := ⟨p.maxit - 2, by omega⟩
  unfold solveLanczos
  have a1 : Outcome.assert debug (decide (0 ≤ p.pct ∧ p.pct < 100)) = .ok () := by
    simp [Outcome.assert, hpct, hpct']
  have a2 : Outcome.assert debug (decide (0 ≤ p.tol)) = .ok () := by
    simp [Outcome.assert, htol0]
  have a3 : Outcome.assert debug (decide (1 ≤ p.maxit)) = .ok () := by
    simp [Outcome.assert, show 1 ≤ p.maxit by omega]
  rw [a1, a2, a3]
  simp only [Outcome.ok_bind]
  rw [hn, lanczosLoop]
  simp only [two_step1 debug A c b hb0 e₁ e₂ h, Outcome.ok_bind, true_or, if_true, hs]
  have hchk : checkConvergence b 1 1 p.tol [s] = .ok false := by
    rw [checkConvergence, if_neg (by omega), checkLoop_eq _ _ _ (by omega) _ _ _ _ (by simp)]
    simp only [Bool.true_and, Outcome.ok.injEq, decide_eq_false_iff_not, not_forall]
    refine ⟨0, by omega, ?_⟩
    simp only [Nat.add_zero, Nat.mul_zero, Nat.sub_self, List.getD_cons_zero, hs1, mul_one]
    linarith
  simp only [hchk, Outcome.ok_bind, Bool.false_eq_true, if_false, List.nil_append]
  rw [lanczosLoop]
  simp only [two_step2 debug A c b hb0 e₁ e₂ h, Outcome.ok_bind]
  rw [if_pos (by right; right; push_cast; linarith),
    tridiag_two_purged dstev hd tol2 c b hb0 hb hb2]
  simp only
  rw [checkConvergence_nil _ _ _ _ (by omega) (by omega)]
  rfl

/-- **C33**, as far as it holds: as long as the tridiagonal step never purges below the requested
number (it returns full arrays whenever the matrix is large enough), and the limit allows enough
iterations, no run reads out of range. -/
theorem C33_no_purge_partial (debug : Bool) (A : E → E)
    (tridiag : List ℝ → List ℝ → ℕ → List ℝ × List ℝ) (req : ℕ) (hreq : 0 < req) (p : LanczosParams)
    (hmax : req ≤ p.maxit) (guess : E)
    (hfull : ∀ d s, req ≤ d.length → d.length * req ≤ (tridiag d s req).2.length) :
    solveLanczos debug A tridiag req p guess ≠ .ub "evecs out of range" ∧
      solveLanczos debug A tridiag req p guess ≠ .ub "evecs_tridiag out of range" := by
  -- every test succeeds, and the arrays of the last one are large enough
  have hstepD : ∀ s s' : LanczosState E, s.diag.length = s.vs.length →
      lanczosStep debug A s = .ok s' → s'.diag.length = s'.vs.length := by
    intro s s' hs h
    unfold lanczosStep at h
    by_cases hb : s.beta = 0
    · simp only [hb, if_true] at h
      split at h <;> cases h
    · rw [if_neg hb] at h
      injection h with h
      subst h
      simp [hs]
  have hstepub : ∀ s : LanczosState E, ∀ w, lanczosStep debug A s = .ub w →
      w = "division by zero (NaN)" := by
    intro s w h
    unfold lanczosStep at h
    by_cases hb : s.beta = 0
    · simp only [hb, if_true] at h
      split at h
      · cases h
      · injection h with h; exact h.symm
    · rw [if_neg hb] at h; cases h
  have hloop : ∀ (left it prev : ℕ) (r : LanczosResult E), r.state.diag.length = r.state.vs.length →
      r.state.vs.length + 1 = it → ∀ w,
      lanczosLoop debug A (fun d s => tridiag d s req) req p.tol p.pct p.maxit left it prev r = .ub w →
      w = "division by zero (NaN)" := by
    intro left
    induction left with
    | zero => intro it prev r _ _ w h; simp [lanczosLoop] at h
    | succ left ih =>
      intro it prev r hr hlen w h
      rw [lanczosLoop] at h
      cases hst : lanczosStep debug A r.state with
      | throws m => rw [hst] at h; cases h
      | aborted => rw [hst] at h; cases h
      | ub w' => rw [hst] at h; injection h with h; rw [← h]; exact hstepub _ _ hst
      | ok s =>
        rw [hst, Outcome.ok_bind] at h
        have hd := hstepD _ _ hr hst
        have hl := lanczosStep_length debug A _ _ hst
        split at h
        · have hchk : ∃ cv, checkConvergence s.beta it req p.tol (tridiag s.diag s.sub req).2
              = .ok cv := by
            rw [checkConvergence]
            split_ifs with hlt
            · exact ⟨_, rfl⟩
            · have := hfull s.diag s.sub (by omega)
              rw [show s.diag.length = it by omega] at this
              exact ⟨_, checkLoop_eq _ _ _ (by omega) _ _ _ _ (by rw [Nat.zero_add]; exact this)⟩
          obtain ⟨cv, hcv⟩ := hchk
          simp only [hcv, Outcome.ok_bind] at h
          cases cv with
          | true => simp at h
          | false =>
            simp only [Bool.false_eq_true, if_false] at h
            exact ih (it + 1) it _ hd (by simp only; omega) w h
        · exact ih (it + 1) prev { r with state := s } hd (by simp only; omega) w h
  have hfinal : ∀ w, solveLanczos debug A tridiag req p guess = .ub w →
      w = "division by zero (NaN)" := by
    intro w h
    have hsolve := h
    unfold solveLanczos at h
    have asrt : ∀ (c : Bool) {β : Type} (f : Unit → Outcome β) (w : String),
        (Outcome.assert debug c >>= f) = .ub w → f () = .ub w := by
      intro c β f w hc
      unfold Outcome.assert at hc
      split at hc
      · cases hc
      · exact hc
    have h := asrt _ _ _ h
    have h := asrt _ _ _ h
    have h := asrt _ _ _ h
    cases hl : lanczosLoop debug A (fun d s => tridiag d s req) req p.tol p.pct p.maxit p.maxit 1 0
        ⟨lanczosInit guess, [], [], [], false⟩ with
    | throws m => rw [hl] at h; cases h
    | aborted => rw [hl] at h; cases h
    | ub w' =>
      rw [hl] at h
      injection h with h
      rw [← h]
      exact hloop _ 1 0 ⟨lanczosInit guess, [], [], [], false⟩ rfl rfl _ hl
    | ok r =>
      rw [hl, Outcome.ok_bind] at h
      have h := asrt _ _ _ h
      obtain ⟨hdiag, b, c, d, e⟩ := lanczosLoop_spec debug A
        (fun s => s.diag.length = s.vs.length) hstepD (fun d s => tridiag d s req) req p.tol
        p.pct p.maxit p.maxit 1 0 ⟨lanczosInit guess, [], [], [], false⟩ (by omega) rfl rfl
        ⟨Or.inl ⟨rfl, rfl, rfl⟩, by simp, fun c h1 h2 => by omega⟩ r hl
      obtain ⟨-, -, -, e4, e5, e6⟩ := e (by omega)
      have hge : req ≤ r.state.vs.length := by
        by_contra hc
        rw [checkConvergence, if_pos (by omega)] at e5
        injection e5 with e5
        have := e6 e5.symm
        omega
      have hlen : r.state.vs.length * (0 + req) ≤ r.evecs.length := by
        have := hfull r.state.diag r.state.sub (by omega)
        rw [← e4, hdiag] at this
        rwa [Nat.zero_add]
      rw [calcEvecs_eq _ _ _ _ hlen] at h
      cases h
  constructor
  · intro h
    have := hfinal _ h
    simp at this
  · intro h
    have := hfinal _ h
    simp at this

end

/-! ## The tridiagonal step (C29, C30) -/

section

variable {K : Type} [Field K] [LinearOrder K] [IsStrictOrderedRing K]

/-- **C29.** For ascending eigenvalues `ev` of the matrix and `ev2` of its trailing submatrix, and
whenever the scan is made (`n - 1 ≥ 1` and `n - 1 ≥ num_requested`), an eigenvalue is flagged
spurious iff it is not within `tol` of another eigenvalue of `ev` and is within `tol` of some
eigenvalue of `ev2`.  Any tolerance. -/
theorem C29_scan_exact (tol : K) (ev ev2 : List K) (hs : ev.Pairwise (· ≤ ·))
    (hs2 : ev2.Pairwise (· ≤ ·)) (req i : ℕ) (hi : i < ev.length) (h1 : 1 ≤ ev.length - 1)
    (h2 : req ≤ ev.length - 1) :
    (spuriousFlags tol ev ev2 req).getD i false = true ↔
      (¬ ∃ j, j < ev.length ∧ j ≠ i ∧ |ev.getD j 0 - ev.getD i 0| ≤ tol) ∧
        ∃ x ∈ ev2, |x - ev.getD i 0| ≤ tol := by
  rw [spuriousFlags_spec tol ev ev2 hs hs2 req i hi]
  simp only [h1, h2, and_self, true_and]
  rfl

/-- **C30.** The tridiagonal step returns nothing or exactly the requested number of pairs.  `kept`
are the indices, in increasing order, of the eigenvalues that are neither spurious nor later members
of a group of repeated ones; if there are enough, the first `req` of them are returned, each with its
own column divided by its norm.  The values are strictly increasing and smaller than every kept value
that is not returned. -/
theorem C30_all_or_nothing (sqrt : K → K) (tol : K) (htol : 0 ≤ tol)
    (dstev : List K → List K → List K × List K) (diag sub : List K) (req : ℕ)
    (hlen : (dstev diag sub).1.length = diag.length)
    (hflat : (dstev diag sub).2.length = diag.length * diag.length)
    (hsort : (dstev diag sub).1.Pairwise (· ≤ ·))
    (hsort2 : (dstev diag.tail sub.tail).1.Pairwise (· ≤ ·)) :
    ∃ kept : List ℕ, kept.Pairwise (· < ·) ∧
      (∀ i, i ∈ kept ↔ i < diag.length ∧ FirstOfGroup tol (dstev diag sub).1 i ∧
        ¬ ((1 ≤ diag.length - 1 ∧ req ≤ diag.length - 1) ∧
          Spurious tol (dstev diag sub).1 (dstev diag.tail sub.tail).1 i)) ∧
      (kept.length < req → calcTridiagEpairs sqrt tol dstev diag sub req = ([], [])) ∧
      (req ≤ kept.length →
        (calcTridiagEpairs sqrt tol dstev diag sub req).1
            = (kept.take req).map (fun k => (dstev diag sub).1.getD k 0) ∧
        (calcTridiagEpairs sqrt tol dstev diag sub req).1.length = req ∧
        (calcTridiagEpairs sqrt tol dstev diag sub req).1.Pairwise (· < ·) ∧
        (∀ i ∈ kept.drop req, ∀ x ∈ (calcTridiagEpairs sqrt tol dstev diag sub req).1,
          x < (dstev diag sub).1.getD i 0) ∧
        (calcTridiagEpairs sqrt tol dstev diag sub req).2.length = diag.length * req ∧
        ∀ (i k : ℕ), (kept.take req)[i]? = some k →
          column diag.length (calcTridiagEpairs sqrt tol dstev diag sub req).2 i =
            (column diag.length (dstev diag sub).2 k).map (fun x =>
              x / sqrt (((column diag.length (dstev diag sub).2 k).map (fun x => x * x)).sum))) := by
  have heq := calcTridiagEpairs_eq sqrt tol dstev diag sub req hlen hflat
  simp only at heq
  set n := diag.length with hn
  set ev := (dstev diag sub).1 with hev
  set kept := (List.range n).filter (fun i =>
      !((spuriousFlags tol ev (dstev diag.tail sub.tail).1 req).getD i false ||
        !isMarked tol ev i)) with hkept
  have hkl : kept.length ≤ n := by
    have := List.length_filter_le (fun i =>
      !((spuriousFlags tol ev (dstev diag.tail sub.tail).1 req).getD i false ||
        !isMarked tol ev i)) (List.range n)
    rwa [List.length_range] at this
  have hmem : ∀ i, i ∈ kept ↔ i < n ∧ FirstOfGroup tol ev i ∧
        ¬ ((1 ≤ n - 1 ∧ req ≤ n - 1) ∧ Spurious tol ev (dstev diag.tail sub.tail).1 i) := by
    intro i
    rw [hkept, List.mem_filter, List.mem_range]
    refine and_congr_right ?_
    intro hi
    have h1 := spuriousFlags_spec tol ev (dstev diag.tail sub.tail).1 hsort hsort2 req i
      (by rw [hlen]; exact hi)
    have h2 := isMarked_iff tol htol ev hsort i (by rw [hlen]; exact hi)
    rw [hlen] at h1
    rw [← h1, ← h2]
    cases (spuriousFlags tol ev (dstev diag.tail sub.tail).1 req).getD i false <;>
      cases isMarked tol ev i <;> simp
  have hpw : kept.Pairwise (· < ·) := List.Pairwise.filter _ List.pairwise_lt_range
  have hlt : ∀ a ∈ kept, ∀ b ∈ kept, a < b → ev.getD a 0 < ev.getD b 0 := by
    intro a ha b hb hab
    have h1 := ((hmem b).1 hb).2.1 a hab
    have h2 := getD_mono ev hsort a b hab.le (by rw [hlen]; exact ((hmem b).1 hb).1)
    rw [lt_abs] at h1
    rcases h1 with h1 | h1 <;> linarith
  refine ⟨kept, hpw, hmem, ?_, ?_⟩
  · intro hk
    rw [heq, if_pos (Or.inr hk)]
  · intro hk
    rw [if_neg (by push Not; exact ⟨by omega, hk⟩)] at heq
    rw [heq]
    have hcol : ∀ k ∈ kept.take req, ((column n (dstev diag sub).2 k).map (fun x =>
              x / sqrt (((column n (dstev diag sub).2 k).map (fun x => x * x)).sum))).length = n := by
      intro k hk'
      rw [List.length_map]
      exact column_length n _ k n hflat
        (List.mem_range.1 (List.mem_of_mem_filter (List.mem_of_mem_take hk')))
    refine ⟨rfl, by simp; omega, ?_, ?_, ?_, ?_⟩
    · rw [List.pairwise_map]
      refine List.Pairwise.imp_of_mem ?_ (hpw.sublist (List.take_sublist req kept))
      intro a b ha hb hab
      exact hlt a (List.mem_of_mem_take ha) b (List.mem_of_mem_take hb) hab
    · intro i hi x hx
      obtain ⟨k, hk', rfl⟩ := List.mem_map.1 hx
      refine hlt k (List.mem_of_mem_take hk') i (List.mem_of_mem_drop hi) ?_
      have := hpw
      rw [← List.take_append_drop req kept, List.pairwise_append] at this
      exact this.2.2 k hk' i hi
    · simp only [List.length_flatMap]
      have : (kept.take req).map (fun k => ((column n (dstev diag sub).2 k).map (fun x =>
              x / sqrt (((column n (dstev diag sub).2 k).map (fun x => x * x)).sum))).length)
          = List.replicate req n := by
        rw [List.eq_replicate_iff]
        refine ⟨by simp; omega, ?_⟩
        intro b hb
        obtain ⟨k, hk', rfl⟩ := List.mem_map.1 hb
        exact hcol k hk'
      rw [this, List.sum_replicate, smul_eq_mul, Nat.mul_comm]
    · intro i k hik
      exact column_flatMap n _ _ hcol i k hik

end

/-! ## Examples -/

/-- The plane, with `[[2, 1], [1, 2]]`. -/
noncomputable def exOp (c b : ℝ) : EuclideanSpace ℝ (Fin 2) →ₗ[ℝ] EuclideanSpace ℝ (Fin 2) :=
  Matrix.toEuclideanLin !![c, b; b, c]

theorem exOp_acts (c b : ℝ) :
    ActsTwo (exOp c b) c b (EuclideanSpace.single 0 1) (EuclideanSpace.single 1 1) where
  n1 := by simp
  n2 := by simp
  orth := by
    rw [EuclideanSpace.inner_single_left]
    simp
  a1 := by
    ext i
    fin_cases i <;> simp [exOp]
  a2 := by
    ext i
    fin_cases i <;> simp [exOp]

theorem exOp_symm (c b : ℝ) : (exOp c b).IsSymmetric := by
  unfold exOp
  rw [Matrix.isSymmetric_toEuclideanLin_iff]
  ext i j
  fin_cases i <;> fin_cases j <;> simp

/-- A run of two iterations that converges: the hypotheses of C26, C27 and C32 are met. -/
theorem exRun (debug : Bool) : ∃ r ys,
    solveLanczos debug (exOp 2 1) (calcTridiagEpairs Real.sqrt (5e-12) exactDstev) 1 ⟨10, 1e-10, 5⟩
      (EuclideanSpace.single 0 1) = .ok (r, ys) ∧ r.converged = true ∧ r.state.vs.length = 2 ∧
      r.evals = [1] := by
  have h := exOp_acts 2 1
  have hd := exactDstev_contract
  obtain ⟨s, hs, hs1⟩ := tridiag_one exactDstev hd (5e-12) 2
  obtain ⟨col, hc, hc1⟩ := tridiag_two_kept exactDstev hd (5e-12) 2 1 (by norm_num) (by norm_num)
  unfold solveLanczos
  have a1 : Outcome.assert debug (decide ((0 : ℤ) ≤ 5 ∧ (5 : ℤ) < 100)) = .ok () := by
    simp [Outcome.assert]
  have a2 : Outcome.assert debug (decide ((0 : ℝ) ≤ 1e-10)) = .ok () := by
    have : (0 : ℝ) ≤ 1e-10 := by norm_num
    simp [Outcome.assert, this]
  have a3 : Outcome.assert debug (decide (1 ≤ 10)) = .ok () := by
    simp [Outcome.assert]
  simp only [a1, a2, a3, Outcome.ok_bind]
  rw [lanczosLoop]
  simp only [two_step1 debug _ 2 1 (by norm_num) _ _ h, Outcome.ok_bind, true_or, if_true, hs]
  have hchk : checkConvergence 1 1 1 1e-10 [s] = .ok false := by
    rw [checkConvergence, if_neg (by omega), checkLoop_eq _ _ _ (by omega) _ _ _ _ (by simp)]
    simp only [Bool.true_and, Outcome.ok.injEq, decide_eq_false_iff_not, not_forall]
    refine ⟨0, by omega, ?_⟩
    simp only [Nat.add_zero, Nat.mul_zero, Nat.sub_self, List.getD_cons_zero, hs1, mul_one]
    norm_num
  simp only [hchk, Outcome.ok_bind, Bool.false_eq_true, if_false, List.nil_append]
  rw [lanczosLoop]
  simp only [two_step2 debug _ 2 1 (by norm_num) _ _ h, Outcome.ok_bind, hc]
  rw [if_pos (by right; right; norm_num)]
  have hchk2 : checkConvergence 0 2 1 1e-10 col = .ok true := by
    rw [checkConvergence, if_neg (by omega), checkLoop_eq _ _ _ (by omega) _ _ _ _ (by omega)]
    simp only [zero_mul, Bool.true_and, Outcome.ok.injEq, decide_eq_true_eq]
    intro _ _; norm_num
  simp only [show 1 + 1 = 2 from rfl, hchk2, Outcome.ok_bind, if_true]
  have a4 : Outcome.assert debug (decide (1 ≤ [EuclideanSpace.single (0 : Fin 2) (1 : ℝ),
      EuclideanSpace.single 1 1].length)) = .ok () := by simp [Outcome.assert]
  rw [a4, Outcome.ok_bind, calcEvecs_eq _ _ _ _ (by simp; omega)]
  simp only [Outcome.ok_bind, Outcome.pure_eq]
  refine ⟨_, _, rfl, rfl, rfl, ?_⟩
  norm_num

/-- C27 on the run above: the returned vector is a unit vector with residual at most 1e-10. -/
example (debug : Bool) : ∃ r ys y,
    solveLanczos debug (exOp 2 1) (calcTridiagEpairs Real.sqrt (5e-12) exactDstev) 1 ⟨10, 1e-10, 5⟩
      (EuclideanSpace.single 0 1) = .ok (r, ys) ∧ ys = [y] ∧ ‖y‖ = 1 ∧
      ‖exOp 2 1 y - (1 : ℝ) • y‖ ≤ 1e-10 := by
  obtain ⟨r, ys, h, hc, -, hev⟩ := exRun debug
  obtain ⟨h1, h2, h3, -⟩ := C27_residual debug (exOp 2 1) (exOp_symm 2 1) exactDstev exactDstev_contract
    _ 1 (by omega) _ (by simp) _ r ys h
  obtain ⟨y, hy⟩ := List.length_eq_one_iff.1 h2
  obtain ⟨a, -, c⟩ := h3 0 1 y (by rw [hev]; rfl) (by rw [hy]; rfl)
  exact ⟨r, ys, y, h, hy, a, c hc⟩

/-- C26 and C32 on the same run. -/
example (debug : Bool) : ∃ r ys,
    solveLanczos debug (exOp 2 1) (calcTridiagEpairs Real.sqrt (5e-12) exactDstev) 1 ⟨10, 1e-10, 5⟩
      (EuclideanSpace.single 0 1) = .ok (r, ys) ∧
      LanczosRelation (exOp 2 1) 2 (fun i => r.state.vs.getD i 0)
        (tridiagEntry r.state.diag r.state.sub) r.state.w ∧ TestSchedule 5 10 2 r.tests := by
  obtain ⟨r, ys, h, -, hl, -⟩ := exRun debug
  have h1 := (C26_lanczos_relation debug (exOp 2 1) (exOp_symm 2 1) _ _ _ _ r ys h).1
  have h2 := (C32_tests debug _ _ _ _ (by simp) _ r ys h).2.2.1
  rw [hl] at h1 h2
  exact ⟨r, ys, h, h1, h2⟩

/-- C26, two steps. -/
example (debug : Bool) : ∃ s, (List.range 2).foldlM (fun s _ => lanczosStep debug (exOp 2 1) s)
    (lanczosInit (EuclideanSpace.single 0 1)) = .ok s ∧ s.vs.length = 2 := by
  have h := exOp_acts 2 1
  refine ⟨⟨[EuclideanSpace.single 0 1, EuclideanSpace.single 1 1], 0, 0, [2, 2], [1]⟩, ?_, rfl⟩
  rw [show List.range 2 = [0, 1] from rfl]
  simp only [List.foldlM_cons, List.foldlM_nil, two_step1 debug _ 2 1 (by norm_num) _ _ h,
    two_step2 debug _ 2 1 (by norm_num) _ _ h, Outcome.ok_bind, Outcome.pure_eq]

/-- C33: `[[1, 4e-12], [4e-12, 1]]` with tolerance 1e-14 and the tolerance of the code. -/
example (debug : Bool) :
    solveLanczos debug (exOp 1 4e-12) (calcTridiagEpairs Real.sqrt (5e-12) exactDstev) 1
      ⟨200, 1e-14, 5⟩ (EuclideanSpace.single 0 1) = .ub "evecs out of range" :=
  (C33_purged_violated debug _ 1 4e-12 _ _ (exOp_acts 1 4e-12) exactDstev exactDstev_contract 5e-12
    (by norm_num) (by norm_num) (by norm_num) ⟨200, 1e-14, 5⟩ (by norm_num) (by norm_num)
    (by norm_num) (by norm_num) (by norm_num)).1

/-- A tridiagonal step that never purges. -/
example (debug : Bool) (A : ℝ → ℝ) :
    solveLanczos debug A (fun d _ req => (List.replicate req 0, List.replicate (d.length * req) 0)) 2
      ⟨5, 0, 0⟩ 1 ≠ .ub "evecs out of range" :=
  (C33_no_purge_partial debug A _ 2 (by omega) ⟨5, 0, 0⟩ (by norm_num) 1
    (fun d s _ => by simp)).1

/-- C29: 2 is near a value of the second list, the two values near 1 are repeated. -/
example : (spuriousFlags (1 / 100 : ℚ) [1, 1, 2, 3] [1, 2, 5 / 2] 1) = [false, false, true, false] ∧
    ([1, 1, 2, 3] : List ℚ).Pairwise (· ≤ ·) ∧ ([1, 2, 5 / 2] : List ℚ).Pairwise (· ≤ ·) := by
  refine ⟨by decide +kernel, by decide +kernel, by decide +kernel⟩

/-- C30: of the values 1, 1, 2, 3 the second and the third are purged. -/
example : (calcTridiagEpairs (fun _ => (1 : ℚ)) (1 / 100)
    (fun d _ => if d.length = 4 then ([1, 1, 2, 3], (List.range 16).map (fun i => (i : ℚ)))
      else ([1, 2, 5 / 2], [])) [0, 0, 0, 0] [0, 0, 0] 2) =
    ([1, 3], [0, 1, 2, 3, 12, 13, 14, 15]) := by decide +kernel

end Mfmg
