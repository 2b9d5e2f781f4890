import Verif.Lemmas.Multiplicity
import Mathlib.LinearAlgebra.Matrix.Notation

/-!
# Multiple eigenvalues (C103)
-/

set_option autoImplicit false

namespace Mfmg

open Finset
open scoped InnerProductSpace

section

variable {E : Type} [NormedAddCommGroup E] [InnerProductSpace ℝ E]

/-- **C103 (what holds).** The operator is symmetric on a subspace `F` of finite dimension that it maps to itself, and
the start vector is in `F`.  For every run that returns, value number `i` (from 0) is at least the distinct eigenvalue
number `i` on `F`: if at most `i` distinct eigenvalues are below `μ`, the value is at least `μ`.  So the values are
bounded below by the eigenvalues, also when they are counted with multiplicity.  When the run has converged there is an
eigenvalue within the tolerance of each value. -/
theorem C103_lower_partial (debug : Bool) (A : E →ₗ[ℝ] E) (F : Submodule ℝ E) [FiniteDimensional ℝ F]
    (hmaps : ∀ x ∈ F, A x ∈ F) (hsymm : ∀ x ∈ F, ∀ y ∈ F, ⟪A x, y⟫_ℝ = ⟪x, A y⟫_ℝ)
    (dstev : List ℝ → List ℝ → List ℝ × List ℝ) (hd : DstevContract dstev) (tol2 : ℝ) (htol2 : 0 ≤ tol2)
    (req : ℕ) (hreq : 0 < req) (p : LanczosParams) (hmax : 0 < p.maxit) (g : E) (hg : g ∈ F)
    (r : LanczosResult E) (ys : List E)
    (h : solveLanczos debug A (calcTridiagEpairs Real.sqrt tol2 dstev) req p g = .ok (r, ys)) :
    (∀ (μ : ℝ) (L : Finset ℝ), ContainsBelow A F μ L → ∀ (i : ℕ) (θ : ℝ), L.card ≤ i → r.evals[i]? = some θ → μ ≤ θ) ∧
      (r.converged = true → ∀ θ ∈ r.evals, ∃ lam, EigenvalueIn A F lam ∧ |lam - θ| ≤ p.tol) := by
  obtain ⟨hinv, hel, hyl, hpair, horth, hgal⟩ := lanczos_run_facts debug A (seenFrom A F g) (seenFrom_maps hmaps hsymm g)
    (fun x hx y hy => hsymm x (seenFrom_le A F g hx) y (seenFrom_le A F g hy)) dstev hd tol2 req hreq p hmax g
    (start_seenFrom hg) r ys h
  have hsorted := run_sorted debug A dstev hd tol2 htol2 req hreq p hmax g hinv h hel
  refine ⟨fun μ L hL i θ hi hθ => ?_, fun hconv θ hθ => ?_⟩
  · by_contra hlt
    push Not at hlt
    have hi' : i < r.evals.length := by
      by_contra hc
      rw [List.getElem?_eq_none (by omega)] at hθ
      cases hθ
    have hθ' : r.evals[i] = θ := by
      rw [List.getElem?_eq_getElem hi'] at hθ
      exact Option.some.inj hθ
    have hval : ∀ j : Fin (i + 1), ∃ t y, r.evals[(j : ℕ)]? = some t ∧ ys[(j : ℕ)]? = some y ∧ t ≤ θ := by
      intro j
      have hj : (j : ℕ) < r.evals.length := by have := j.2; omega
      refine ⟨_, _, List.getElem?_eq_getElem hj, List.getElem?_eq_getElem (by omega), ?_⟩
      rw [← hθ']
      rcases Nat.lt_or_ge j i with hji | hji
      · exact (List.pairwise_iff_getElem.1 hsorted _ _ hj hi' hji).le
      · have : (j : ℕ) = i := by have := j.2; omega
        simp only [this, le_refl]
    choose t y ht hy hle using hval
    have ho : Orthonormal ℝ y := by
      refine ⟨fun j => (hpair j _ _ (ht j) (hy j)).1, fun j k hjk => ?_⟩
      exact horth j k _ _ (fun e => hjk (Fin.ext e)) (hy j) (hy k)
    have := ritz_count hmaps hsymm ho (fun j => (hpair j _ _ (ht j) (hy j)).2.1)
      (fun j k => hgal j k _ _ _ (ht j) (hy j) (hy k)) hL (fun j => lt_of_le_of_lt (hle j) hlt)
    omega
  · obtain ⟨i, hi, e⟩ := List.mem_iff_getElem.1 hθ
    obtain ⟨h1, h2, -, h3⟩ := hpair i _ _ (List.getElem?_eq_getElem hi) (List.getElem?_eq_getElem (by omega))
    rw [← e]
    exact eigenvalue_near hmaps hsymm (seenFrom_le A F g h2) h1 (h3 hconv)

/-- **C103 (distinct eigenvalues are found).** In the situation of `C103_lower_partial` the run has ended with a zero
remainder, the start vector has a component for every eigenvalue, and the filter for spurious values has left the first
values alone.  Then value number `i` is an eigenvalue, and exactly `i` distinct eigenvalues are below it. -/
theorem C103_exact_partial (debug : Bool) (A : E →ₗ[ℝ] E) (F : Submodule ℝ E) [FiniteDimensional ℝ F]
    (hmaps : ∀ x ∈ F, A x ∈ F) (hsymm : ∀ x ∈ F, ∀ y ∈ F, ⟪A x, y⟫_ℝ = ⟪x, A y⟫_ℝ)
    (dstev : List ℝ → List ℝ → List ℝ × List ℝ) (hd : DstevContract dstev) (tol2 : ℝ) (htol2 : 0 ≤ tol2)
    (req : ℕ) (hreq : 0 < req) (p : LanczosParams) (hmax : 0 < p.maxit) (g : E) (hg : g ∈ F)
    (hsee : ∀ lam, EigenvalueIn A F lam → ∃ u ∈ F, A u = lam • u ∧ ⟪u, g⟫_ℝ ≠ 0)
    (r : LanczosResult E) (ys : List E)
    (h : solveLanczos debug A (calcTridiagEpairs Real.sqrt tol2 dstev) req p g = .ok (r, ys))
    (hb : r.state.beta = 0) (hkeep : r.evals = (dstev r.state.diag r.state.sub).1.take req) :
    ∀ (i : ℕ) (θ : ℝ), r.evals[i]? = some θ → EigenvalueIn A F θ ∧
      ∃ L : Finset ℝ, L.card = i ∧ ∀ lam, lam ∈ L ↔ lam < θ ∧ EigenvalueIn A F lam := by
  obtain ⟨hinv, hel, hyl, hpair, -, -⟩ := lanczos_run_facts debug A F hmaps hsymm dstev hd tol2 req hreq p hmax g
    hg r ys h
  obtain ⟨hfrom, -, -, hrest⟩ := solveLanczos_ok debug A (LanczosFrom A F g)
    (fun s s' hs hst => lanczosStep_from hmaps hsymm s s' hs hst) _ req p g (lanczosInit_from A F g hg) r ys h
  obtain ⟨-, -, -, -, -, -, hm⟩ := hrest hmax
  have hsorted := run_sorted debug A dstev hd tol2 htol2 req hreq p hmax g hinv h hel
  have hsz : r.state.sub.length + 1 = r.state.diag.length := by rw [hinv.lenSub, hinv.lenDiag]; omega
  have heig : ∀ j (hj : j < r.evals.length), EigenvalueIn A F r.evals[j] := by
    intro j hj
    obtain ⟨h1, h2, h3, -⟩ := hpair j _ _ (List.getElem?_eq_getElem hj) (List.getElem?_eq_getElem (by omega))
    rw [hb, zero_mul, norm_eq_zero, sub_eq_zero] at h3
    refine ⟨_, h2, fun h0 => ?_, h3⟩
    rw [h0, norm_zero] at h1
    norm_num at h1
  intro i θ hθ
  have hi : i < r.evals.length := by
    by_contra hc
    rw [List.getElem?_eq_none (by omega)] at hθ
    cases hθ
  rw [List.getElem?_eq_getElem hi] at hθ
  have hθ' := Option.some.inj hθ
  subst hθ'
  refine ⟨heig i hi, ?_⟩
  obtain ⟨L, hL⟩ := eigenvalues_finite hmaps hsymm
  refine ⟨L.filter (· < r.evals[i]), le_antisymm ?_ ?_, fun lam => ?_⟩
  · have hsub : L.filter (· < r.evals[i]) ⊆
        (range i).image (fun k => (dstev r.state.diag r.state.sub).1.getD k 0) := by
      intro lam hlam
      obtain ⟨h1, h2⟩ := Finset.mem_filter.1 hlam
      obtain ⟨u, hu, hAu, hug⟩ := hsee lam ((hL lam).2 h1)
      obtain ⟨k, hk, e⟩ := seen_value hsymm hfrom hm hb hd hu hAu hug
      refine Finset.mem_image.2 ⟨k, Finset.mem_range.2 ?_, e⟩
      by_contra hki
      push Not at hki
      have hmono := getD_mono _ (hd.sorted _ _ hsz) i k hki (by rw [hd.len _ _ hsz, hinv.lenDiag]; exact hk)
      have hev : r.evals[i] = (dstev r.state.diag r.state.sub).1.getD i 0 := by
        have hlt : i < (dstev r.state.diag r.state.sub).1.length := by
          rw [hd.len _ _ hsz, hinv.lenDiag]; omega
        rw [getD_of_lt _ _ _ hlt]
        simp only [hkeep, List.getElem_take]
      rw [e, ← hev] at hmono
      linarith
    exact (Finset.card_le_card hsub).trans (Finset.card_image_le.trans (by rw [Finset.card_range]))
  · have hsub : (r.evals.take i).toFinset ⊆ L.filter (· < r.evals[i]) := by
      intro lam hlam
      obtain ⟨j, hj, e⟩ := List.mem_iff_getElem.1 (List.mem_toFinset.1 hlam)
      rw [List.length_take] at hj
      rw [List.getElem_take] at e
      rw [← e]
      exact Finset.mem_filter.2 ⟨(hL _).1 (heig j (by omega)),
        List.pairwise_iff_getElem.1 hsorted _ _ (by omega) hi (by omega)⟩
    have hc : (r.evals.take i).toFinset.card = i := by
      rw [List.toFinset_card_of_nodup ((hsorted.imp (fun h => h.ne)).sublist (List.take_sublist _ _)), List.length_take]
      omega
    exact hc.symm.le.trans (Finset.card_le_card hsub)
  · rw [Finset.mem_filter, ← hL lam, and_comm]

end

section

variable {size : ℕ} {M : ℕ → ℕ → ℝ} {constrained : ℕ → Bool}

/-- **C103 is violated by the code.** The set `L` contains all eigenvalues below `μ` of the matrix of an agglomerate on
its free dofs, and there are more independent eigenvectors with eigenvalues of at most `bound < μ` than `L` has
elements (so one of them is multiple).  Then no call of the library without deflation for more eigenvectors than `L`
has elements gives the smallest eigenvalues counted with multiplicity: value number `L.card` (from 0) is at least `μ`
although the eigenvalue is at most `bound`.  This holds for all random numbers, tolerances and limits of iterations. -/
theorem C103_multiple_violated (h : SymmetricUncoupled size M constrained) (μ bound : ℝ) (L : Finset ℝ)
    (hL : ∀ lam, lam < μ → FreeEigenvalue size M constrained lam → lam ∈ L)
    (x : Fin (L.card + 1) → ℕ → ℝ) (lam : Fin (L.card + 1) → ℝ)
    (hx : ∀ i, FreeEigenvector size M constrained (lam i) (x i) ∧ lam i ≤ bound)
    (hind : LinearIndependent ℝ (fun i (j : Fin size) => x i j))
    (debug : Bool) (dstev : List ℝ → List ℝ → List ℝ × List ℝ) (hd : DstevContract dstev) (sortPerm : List ℝ → List ℕ)
    (noise : ℕ → ℕ → ℝ) (draw : ℕ → ℝ) (emptyVec : EuclideanSpace ℝ (Fin size)) (n : ℕ) (hn : L.card < n)
    (tolerance : ℝ) (o : LanczosOptions) (hdef : o.deflated = none) (hmax : 0 < o.maxIterations.getD 200)
    (es : List ℝ) (ys : List (EuclideanSpace ℝ (Fin size)))
    (hrun : localLanczos debug dstev sortPerm noise size M constrained draw emptyVec n tolerance o = .ok (es, ys)) :
    (∃ θ, es[L.card]? = some θ ∧ μ ≤ θ) ∧
      ∀ tol, tol < μ - bound → ¬ AtMostSmallest size M constrained tol es := by
  obtain ⟨r, hr, rfl⟩ := localLanczos_plain hd h.symm (by omega) hdef hmax hrun
  have hlow := (C103_lower_partial debug (matOp size M) (freeVectors size constrained) h.maps
    (fun x _ y _ => matOp_symm h.symm x y) dstev hd 5e-12 (by norm_num) n (by omega) _ hmax _ (libraryGuess_free draw)
    r ys hr).1 μ L (fun l h1 h2 => hL l h1 (freeEigenvalue_in.2 h2))
  have hlen := (C27_residual debug (matOp size M) (fun x y => matOp_symm h.symm x y) dstev hd 5e-12 n (by omega)
    (localLanczosParams tolerance o) hmax _ r ys hr).1
  have hget : r.evals[L.card]? = some r.evals[L.card] := List.getElem?_eq_getElem (by omega)
  have hμ := hlow L.card _ le_rfl hget
  refine ⟨⟨_, hget, hμ⟩, fun tol htol hall => ?_⟩
  have := hall L.card _ bound x lam hget hx hind
  linarith

/-- **C103 is violated by the code: the coarse space misses eigenvectors.** For every multiple eigenvalue of the matrix
of an agglomerate there is an eigenvector that is orthogonal to all vectors returned by a call without deflation, however
many are requested. -/
theorem C103_orthogonal_violated (h : SymmetricUncoupled size M constrained) (lam : ℝ) (x y : ℕ → ℝ)
    (hx : FreeEigenvector size M constrained lam x) (hy : FreeEigenvector size M constrained lam y)
    (hind : ∀ a b : ℝ, (∀ i, i < size → a * x i + b * y i = 0) → a = 0 ∧ b = 0)
    (debug : Bool) (dstev : List ℝ → List ℝ → List ℝ × List ℝ) (hd : DstevContract dstev) (sortPerm : List ℝ → List ℕ)
    (noise : ℕ → ℕ → ℝ) (draw : ℕ → ℝ) :
    ∃ z : ℕ → ℝ, FreeEigenvector size M constrained lam z ∧
      ∀ (emptyVec : EuclideanSpace ℝ (Fin size)) (n : ℕ) (tolerance : ℝ) (o : LanczosOptions)
        (es : List ℝ) (ys : List (EuclideanSpace ℝ (Fin size))), 0 < n → o.deflated = none →
        0 < o.maxIterations.getD 200 →
        localLanczos debug dstev sortPerm noise size M constrained draw emptyVec n tolerance o = .ok (es, ys) →
        ∀ v ∈ ys, ∑ i : Fin size, z i * v i = 0 := by
  have hsy : ∀ x ∈ freeVectors size constrained, ∀ y ∈ freeVectors size constrained,
      ⟪matOp size M x, y⟫_ℝ = ⟪x, matOp size M y⟫_ℝ := fun x _ y _ => matOp_symm h.symm x y
  obtain ⟨g, hgdef⟩ : ∃ g, g = libraryGuess size constrained draw := ⟨_, rfl⟩
  obtain ⟨z, hz, hz0, hzg⟩ : ∃ z ∈ eigIn (matOp size M) (freeVectors size constrained) lam, z ≠ 0 ∧ ⟪z, g⟫_ℝ = 0 := by
    by_cases h0 : ⟪entriesVec size x, g⟫_ℝ = 0
    · exact ⟨_, hx.mem.1, hx.mem.2, h0⟩
    · refine ⟨⟪entriesVec size y, g⟫_ℝ • entriesVec size x + (-⟪entriesVec size x, g⟫_ℝ) • entriesVec size y,
        Submodule.add_mem _ (Submodule.smul_mem _ _ hx.mem.1) (Submodule.smul_mem _ _ hy.mem.1), fun he => ?_, ?_⟩
      · obtain ⟨-, hb⟩ := hind ⟪entriesVec size y, g⟫_ℝ (-⟪entriesVec size x, g⟫_ℝ) (fun i hi => by
          have := congrArg (fun v : EuclideanSpace ℝ (Fin size) => v ⟨i, hi⟩) he
          exact this)
        exact h0 (neg_eq_zero.1 hb)
      · rw [inner_add_left, inner_smul_left, inner_smul_left]
        simp only [conj_trivial]
        ring
  refine ⟨_, freeEigenvector_of hz hz0, ?_⟩
  intro emptyVec n tolerance o es ys hn hdef hmax hrun v hv
  obtain ⟨r, hr, rfl⟩ := localLanczos_plain hd h.symm hn hdef hmax hrun
  rw [← hgdef] at hr
  have hgF : g ∈ freeVectors size constrained := by rw [hgdef]; exact libraryGuess_free draw
  obtain ⟨-, hel, hyl, hpair, -⟩ := lanczos_run_facts debug (matOp size M) (seenFrom _ (freeVectors size constrained) g)
    (seenFrom_maps h.maps hsy g) (fun x hx y hy => matOp_symm h.symm x y) dstev hd 5e-12 n hn _ hmax g
    (start_seenFrom hgF) r ys hr
  obtain ⟨i, hi, rfl⟩ := List.mem_iff_getElem.1 hv
  obtain ⟨-, h2, -⟩ := hpair i _ _ (List.getElem?_eq_getElem (by omega)) (List.getElem?_eq_getElem hi)
  obtain ⟨c, hc⟩ := h2.2 lam
  have := hc z hz.1 hz.2
  rw [hzg, mul_zero, inner_fin] at this
  rw [← this]
  exact Finset.sum_congr rfl fun j _ => by rw [dif_pos j.2]

/-- **C103 is violated by the code: too many eigenvectors requested.** A call without deflation for more eigenvectors
than the matrix has distinct eigenvalues on the free dofs never returns normally, although there are as many
eigenvectors as free dofs. -/
theorem C103_distinct_violated (h : SymmetricUncoupled size M constrained) (L : Finset ℝ)
    (hL : ∀ lam, FreeEigenvalue size M constrained lam → lam ∈ L)
    (debug : Bool) (dstev : List ℝ → List ℝ → List ℝ × List ℝ) (hd : DstevContract dstev) (sortPerm : List ℝ → List ℕ)
    (noise : ℕ → ℕ → ℝ) (draw : ℕ → ℝ) (emptyVec : EuclideanSpace ℝ (Fin size)) (n : ℕ) (hn : L.card < n)
    (tolerance : ℝ) (o : LanczosOptions) (hdef : o.deflated = none) (hmax : 0 < o.maxIterations.getD 200) :
    ∀ out, localLanczos debug dstev sortPerm noise size M constrained draw emptyVec n tolerance o ≠ .ok out := by
  rintro ⟨es, ys⟩ hrun
  obtain ⟨r, hr, rfl⟩ := localLanczos_plain hd h.symm (by omega) hdef hmax hrun
  have hlen := (C27_residual debug (matOp size M) (fun x y => matOp_symm h.symm x y) dstev hd 5e-12 n (by omega)
    (localLanczosParams tolerance o) hmax _ r ys hr).1
  have hget : r.evals[L.card]? = some r.evals[L.card] := List.getElem?_eq_getElem (by omega)
  have := (C103_lower_partial debug (matOp size M) (freeVectors size constrained) h.maps
    (fun x _ y _ => matOp_symm h.symm x y) dstev hd 5e-12 (by norm_num) n (by omega) _ hmax _ (libraryGuess_free draw)
    r ys hr).1 (r.evals[L.card] + 1) L (fun l h1 h2 => hL l (freeEigenvalue_in.2 h2)) L.card _ le_rfl hget
  linarith

end

/-! ## Examples -/

/-- The five-point matrix on a square of 2 × 2 dofs without boundary conditions: eigenvalues 0, 2, 2, 4. -/
def exPlaquette (i j : ℕ) : ℝ := if i = j then 2 else if (i + j) % 2 = 1 then -1 else 0

theorem exPlaquette_symm : SymmetricUncoupled 4 exPlaquette (fun _ => false) where
  symm := by
    intro i j _ _
    unfold exPlaquette
    rw [Nat.add_comm]
    by_cases h : i = j
    · rw [h]
    · rw [if_neg h, if_neg (Ne.symm h)]
  uncoupled := fun _ _ _ _ _ h => by cases h

theorem exPlaquette_vector (lam : ℝ) (x : ℕ → ℝ) (hne : x 0 ≠ 0) (h0 : 2 * x 0 - x 1 - x 3 = lam * x 0)
    (h1 : 2 * x 1 - x 0 - x 2 = lam * x 1) (h2 : 2 * x 2 - x 1 - x 3 = lam * x 2)
    (h3 : 2 * x 3 - x 0 - x 2 = lam * x 3) : FreeEigenvector 4 exPlaquette (fun _ => false) lam x where
  ne := ⟨0, by norm_num, hne⟩
  free := fun _ _ h => by cases h
  eig := by
    intro i hi
    interval_cases i <;> simp [Finset.sum_range_succ, exPlaquette] <;> linarith

theorem exPlaquette_values (lam : ℝ) (h : FreeEigenvalue 4 exPlaquette (fun _ => false) lam) :
    lam ∈ ({0, 2, 4} : Finset ℝ) := by
  obtain ⟨x, ⟨i, hi, hxi⟩, -, he⟩ := h
  have e0 := he 0 (by norm_num)
  have e1 := he 1 (by norm_num)
  have e2 := he 2 (by norm_num)
  have e3 := he 3 (by norm_num)
  simp [Finset.sum_range_succ, exPlaquette] at e0 e1 e2 e3
  simp only [Finset.mem_insert, Finset.mem_singleton]
  by_contra hno
  push Not at hno
  obtain ⟨n0, n2, n4⟩ := hno
  have a1 : (lam - 2) * (x 0 - x 2) = 0 := by linarith
  have a2 : (lam - 2) * (x 1 - x 3) = 0 := by linarith
  have a3 : lam * (x 0 + x 1 + x 2 + x 3) = 0 := by linarith
  have a4 : (lam - 4) * (x 0 - x 1 + x 2 - x 3) = 0 := by linarith
  have b1 := (mul_eq_zero.1 a1).resolve_left (sub_ne_zero.2 n2)
  have b2 := (mul_eq_zero.1 a2).resolve_left (sub_ne_zero.2 n2)
  have b3 := (mul_eq_zero.1 a3).resolve_left n0
  have b4 := (mul_eq_zero.1 a4).resolve_left (sub_ne_zero.2 n4)
  interval_cases i <;> exact hxi (by linarith)

/-- Three eigenvectors of the square: the constant and the two linear ones. -/
def exModes : Fin 3 → ℕ → ℝ
  | 0 => fun _ => 1
  | 1 => fun i => ([1, 1, -1, -1] : List ℝ).getD i 0
  | 2 => fun i => ([1, -1, -1, 1] : List ℝ).getD i 0

/-- `C103_multiple_violated` for three eigenvectors of the square: the third value is at least 4, not 2. -/
example (debug : Bool) (dstev : List ℝ → List ℝ → List ℝ × List ℝ) (hd : DstevContract dstev) (sortPerm : List ℝ → List ℕ)
    (noise : ℕ → ℕ → ℝ) (draw : ℕ → ℝ) (emptyVec : EuclideanSpace ℝ (Fin 4)) (tolerance : ℝ)
    (es : List ℝ) (ys : List (EuclideanSpace ℝ (Fin 4)))
    (hrun : localLanczos debug dstev sortPerm noise 4 exPlaquette (fun _ => false) draw emptyVec 3 tolerance {} =
      .ok (es, ys)) : ∃ θ, es[2]? = some θ ∧ 4 ≤ θ := by
  have hcard : ({0, 2} : Finset ℝ).card = 2 := by
    rw [Finset.card_pair (by norm_num)]
  have hm : ∀ k : Fin 3, FreeEigenvector 4 exPlaquette (fun _ => false) (if k = 0 then 0 else 2) (exModes k) ∧
      (if k = 0 then (0 : ℝ) else 2) ≤ 2 := by
    intro k
    fin_cases k
    · exact ⟨exPlaquette_vector _ _ (by simp [exModes]) (by simp [exModes]; norm_num) (by simp [exModes]; norm_num)
        (by simp [exModes]; norm_num) (by simp [exModes]; norm_num), by norm_num⟩
    · exact ⟨exPlaquette_vector _ _ (by simp [exModes]) (by simp [exModes]) (by simp [exModes])
        (by simp [exModes]) (by simp [exModes]), by norm_num⟩
    · exact ⟨exPlaquette_vector _ _ (by simp [exModes]) (by simp [exModes]) (by simp [exModes])
        (by simp [exModes]) (by simp [exModes]), by norm_num⟩
  have hind : LinearIndependent ℝ (fun (k : Fin 3) (j : Fin 4) => exModes k j) := by
    rw [Fintype.linearIndependent_iff]
    intro c hc
    have c0 := congrFun hc 0
    have c1 := congrFun hc 1
    have c2 := congrFun hc 2
    simp [Fin.sum_univ_three, exModes] at c0 c1 c2
    intro i
    fin_cases i <;> simp <;> linarith
  have hviol : ∀ (L : Finset ℝ) (hL2 : L.card = 2), (∀ lam, lam < 4 → FreeEigenvalue 4 exPlaquette (fun _ => false) lam → lam ∈ L) →
      ∃ θ, es[2]? = some θ ∧ 4 ≤ θ := by
    intro L hL2 hL
    have := (C103_multiple_violated exPlaquette_symm 4 2 L hL (fun k => exModes (Fin.cast (by omega) k))
      (fun k => if (Fin.cast (by omega) k : Fin 3) = 0 then 0 else 2) (fun k => hm _)
      (hind.comp (fun k => Fin.cast (by omega) k) (Fin.cast_injective (show L.card + 1 = 3 by omega))) debug dstev hd sortPerm noise draw emptyVec 3 (by omega)
      tolerance {} rfl (by norm_num) es ys hrun).1
    rwa [hL2] at this
  refine hviol {0, 2} hcard fun lam hlam hfree => ?_
  have := exPlaquette_values lam hfree
  simp only [Finset.mem_insert, Finset.mem_singleton] at this ⊢
  rcases this with h | h | h
  · exact Or.inl h
  · exact Or.inr h
  · linarith

/-- `C103_orthogonal_violated` for the two linear functions on the square. -/
example (debug : Bool) (dstev : List ℝ → List ℝ → List ℝ × List ℝ) (hd : DstevContract dstev) (sortPerm : List ℝ → List ℕ)
    (noise : ℕ → ℕ → ℝ) (draw : ℕ → ℝ) :=
  C103_orthogonal_violated exPlaquette_symm 2 (exModes 1) (exModes 2)
    (exPlaquette_vector _ _ (by simp [exModes]) (by simp [exModes]) (by simp [exModes]) (by simp [exModes])
      (by simp [exModes]))
    (exPlaquette_vector _ _ (by simp [exModes]) (by simp [exModes]) (by simp [exModes]) (by simp [exModes])
      (by simp [exModes]))
    (by
      intro a b h
      have h0 := h 0 (by norm_num)
      have h1 := h 1 (by norm_num)
      simp [exModes] at h0 h1
      exact ⟨by linarith, by linarith⟩) debug dstev hd sortPerm noise draw

/-- `C103_distinct_violated`: the four eigenvectors of the square cannot be requested. -/
example (debug : Bool) (dstev : List ℝ → List ℝ → List ℝ × List ℝ) (hd : DstevContract dstev) (sortPerm : List ℝ → List ℕ)
    (noise : ℕ → ℕ → ℝ) (draw : ℕ → ℝ) (emptyVec : EuclideanSpace ℝ (Fin 4)) (tolerance : ℝ) :=
  C103_distinct_violated exPlaquette_symm {0, 2, 4} exPlaquette_values debug dstev hd sortPerm noise draw emptyVec 4
    (lt_of_le_of_lt Finset.card_le_three (by norm_num)) tolerance {} rfl (by norm_num)

/-! A run that returns: `diag(0, 0, 1, 1)` with all random numbers equal to 1/2 and two eigenvectors requested.  The
result has the values 0 and 1, the smallest eigenvalues are 0 and 0. -/

theorem tridiag_both_kept (dstev : List ℝ → List ℝ → List ℝ × List ℝ) (hd : DstevContract dstev)
    (tol2 c b : ℝ) (h0 : 0 ≤ tol2) (h1 : tol2 < b) :
    ∃ col, calcTridiagEpairs Real.sqrt tol2 dstev [c, c] [b] 2 = ([c - b, c + b], col) ∧ col.length = 4 := by
  have hb : 0 < b := lt_of_le_of_lt h0 h1
  have hev := dstev_two dstev hd c b hb
  have hev2 := (dstev_one dstev hd c).1
  have hcol : ∀ k, k < 2 → (column 2 (dstev [c, c] [b]).2 k).length = 2 := fun k hk =>
    column_length 2 _ k 2 (hd.flat _ _ rfl) (by omega)
  rw [calcTridiagEpairs_eq _ _ _ _ _ _ (hd.len _ _ rfl) (hd.flat _ _ rfl)]
  have hs : ([c - b, c + b] : List ℝ).Pairwise (· ≤ ·) := by
    simp; linarith
  have hflag : ∀ i, i < 2 → (spuriousFlags tol2 [c - b, c + b] [c] 2).getD i false = false := by
    intro i hi
    rw [← Bool.not_eq_true, spuriousFlags_spec tol2 _ _ hs (by simp) 2 i hi]
    rintro ⟨-, -, x, hx, hle⟩
    simp only [List.mem_singleton] at hx
    subst hx
    have : i = 0 ∨ i = 1 := by omega
    rw [abs_le] at hle
    rcases this with rfl | rfl <;> simp at hle <;> linarith
  have hmark : ∀ i, i < 2 → isMarked tol2 [c - b, c + b] i = true := by
    intro i hi
    have : i = 0 ∨ i = 1 := by omega
    rcases this with rfl | rfl
    · rfl
    · simp [isMarked]; linarith
  simp only [hev, List.tail_cons, hev2]
  have : (List.range [c, c].length).filter (fun i =>
      !((spuriousFlags tol2 [c - b, c + b] [c] 2).getD i false ||
        !isMarked tol2 [c - b, c + b] i)) = [0, 1] := by
    rw [List.filter_eq_self.2]
    · rfl
    · intro i hi
      rw [hflag i (by simpa using hi), hmark i (by simpa using hi)]
      rfl
  rw [this]
  simp only [List.length_cons, List.length_nil]
  rw [if_neg (by omega)]
  refine ⟨_, rfl, ?_⟩
  simp [hcol]

/-- `diag(0, 0, 1, 1)`. -/
def exDouble (i j : ℕ) : ℝ := if i = j ∧ 2 ≤ i then 1 else 0

theorem exDouble_symm : SymmetricUncoupled 4 exDouble (fun _ => false) where
  symm := by
    intro i j _ _
    unfold exDouble
    by_cases h : i = j
    · rw [h]
    · rw [if_neg (fun e => h e.1), if_neg (fun e => h e.1.symm)]
  uncoupled := fun _ _ _ _ _ h => by cases h

noncomputable def exHalf : EuclideanSpace ℝ (Fin 4) := !₂[-1 / 2, -1 / 2, 1 / 2, 1 / 2]

theorem exDouble_guess (i : Fin 4) : libraryGuess 4 (fun _ => false) (fun _ => 1 / 2) i = 1 / 2 := by
  obtain ⟨m, hm⟩ := (libraryGuess_apply (constrained := fun _ => false) (fun _ => 1 / 2) i).2 rfl
  exact hm

theorem exDouble_apply (x : EuclideanSpace ℝ (Fin 4)) (i : Fin 4) :
    matOp 4 exDouble x i = if 2 ≤ (i : ℕ) then x i else 0 := by
  rw [matOp_apply, Fin.sum_univ_four]
  fin_cases i <;> simp [exDouble]

theorem exDouble_acts : ActsTwo (matOp 4 exDouble) (1 / 2) (1 / 2)
    (libraryGuess 4 (fun _ => false) (fun _ => 1 / 2)) exHalf where
  n1 := by
    rw [← pow_left_inj₀ (norm_nonneg _) (by norm_num) two_ne_zero, ← real_inner_self_eq_norm_sq, inner_fin,
      Fin.sum_univ_four]
    simp only [exDouble_guess]; norm_num
  n2 := by
    rw [← pow_left_inj₀ (norm_nonneg _) (by norm_num) two_ne_zero, ← real_inner_self_eq_norm_sq, inner_fin,
      Fin.sum_univ_four]
    simp [exHalf]; norm_num
  orth := by
    rw [inner_fin, Fin.sum_univ_four]
    simp only [exDouble_guess]; simp [exHalf]; norm_num
  a1 := by
    ext i
    rw [exDouble_apply]
    simp only [PiLp.add_apply, PiLp.smul_apply, exDouble_guess]
    fin_cases i <;> simp [exHalf] <;> norm_num
  a2 := by
    ext i
    rw [exDouble_apply]
    simp only [PiLp.add_apply, PiLp.smul_apply, exDouble_guess]
    fin_cases i <;> simp [exHalf] <;> norm_num

theorem exDouble_solve (debug : Bool) (dstev : List ℝ → List ℝ → List ℝ × List ℝ) (hd : DstevContract dstev) :
    ∃ r ys, solveLanczos debug (matOp 4 exDouble) (calcTridiagEpairs Real.sqrt 5e-12 dstev) 2
      ⟨200, 1e-4, 5⟩ (libraryGuess 4 (fun _ => false) (fun _ => 1 / 2)) = .ok (r, ys) ∧ r.evals = [0, 1] ∧
        r.state.beta = 0 ∧ r.evals = (dstev r.state.diag r.state.sub).1.take 2 := by
  have h := exDouble_acts
  obtain ⟨col, hc, hc1⟩ := tridiag_both_kept dstev hd 5e-12 (1 / 2) (1 / 2) (by norm_num) (by norm_num)
  have hs : calcTridiagEpairs Real.sqrt 5e-12 dstev [1 / 2] [] 2 = ([], []) := by
    rw [calcTridiagEpairs, if_pos (by simp)]
  unfold solveLanczos
  have a1 : Outcome.assert debug (decide ((0 : ℤ) ≤ 5 ∧ (5 : ℤ) < 100)) = .ok () := by
    simp [Outcome.assert]
  have a2 : Outcome.assert debug (decide ((0 : ℝ) ≤ 1e-4)) = .ok () := by
    have : (0 : ℝ) ≤ 1e-4 := by norm_num
    simp [Outcome.assert, this]
  have a3 : Outcome.assert debug (decide (2 ≤ 200)) = .ok () := by
    simp [Outcome.assert]
  simp only [a1, a2, a3, Outcome.ok_bind]
  rw [lanczosLoop]
  simp only [two_step1 debug _ _ _ (by norm_num) _ _ h, Outcome.ok_bind, true_or, if_true, hs]
  have hchk : checkConvergence (1 / 2) 1 2 1e-4 [] = .ok false := by
    rw [checkConvergence, if_pos (by omega)]
  simp only [hchk, Outcome.ok_bind, Bool.false_eq_true, if_false, List.nil_append]
  rw [lanczosLoop]
  simp only [two_step2 debug _ _ _ (by norm_num) _ _ h, Outcome.ok_bind, hc]
  rw [if_pos (by right; right; norm_num)]
  have hchk2 : checkConvergence 0 2 2 1e-4 col = .ok true := by
    rw [checkConvergence, if_neg (by omega), checkLoop_eq _ _ _ (by omega) _ _ _ _ (by omega)]
    simp only [zero_mul, Bool.true_and, Outcome.ok.injEq, decide_eq_true_eq]
    intro _ _; norm_num
  simp only [show 1 + 1 = 2 from rfl, hchk2, Outcome.ok_bind, if_true]
  have a4 : Outcome.assert debug (decide (2 ≤ [libraryGuess 4 (fun _ => false) (fun _ => 1 / 2), exHalf].length)) =
    .ok () := by simp [Outcome.assert]
  rw [a4, Outcome.ok_bind, calcEvecs_eq _ _ _ _ (by simp; omega)]
  simp only [Outcome.ok_bind, Outcome.pure_eq]
  refine ⟨_, _, rfl, ?_, rfl, ?_⟩
  · norm_num
  · simp only [dstev_two dstev hd (1 / 2) (1 / 2) (by norm_num)]
    rfl

/-- `C103_lower_partial` and `C103_exact_partial` on this run: 0 and 1 are eigenvalues, one of the distinct eigenvalues
is below 1. -/
example (debug : Bool) (dstev : List ℝ → List ℝ → List ℝ × List ℝ) (hd : DstevContract dstev) : ∃ r ys,
    solveLanczos debug (matOp 4 exDouble) (calcTridiagEpairs Real.sqrt 5e-12 dstev) 2
      ⟨200, 1e-4, 5⟩ (libraryGuess 4 (fun _ => false) (fun _ => 1 / 2)) = .ok (r, ys) ∧
      (∀ (μ : ℝ) (L : Finset ℝ), ContainsBelow (matOp 4 exDouble) ⊤ μ L → L.card ≤ 1 → μ ≤ 1) ∧
      (EigenvalueIn (matOp 4 exDouble) ⊤ 1 ∧ ∃ L : Finset ℝ, L.card = 1 ∧
        ∀ lam, lam ∈ L ↔ lam < 1 ∧ EigenvalueIn (matOp 4 exDouble) ⊤ lam) := by
  obtain ⟨r, ys, h, hev, hb, hk⟩ := exDouble_solve debug dstev hd
  have hsy : ∀ x ∈ (⊤ : Submodule ℝ (EuclideanSpace ℝ (Fin 4))), ∀ y ∈ (⊤ : Submodule ℝ (EuclideanSpace ℝ (Fin 4))),
      ⟪matOp 4 exDouble x, y⟫_ℝ = ⟪x, matOp 4 exDouble y⟫_ℝ := fun x _ y _ => matOp_symm exDouble_symm.symm x y
  have hlow := (C103_lower_partial debug (matOp 4 exDouble) ⊤ (fun _ _ => trivial) hsy dstev hd 5e-12 (by norm_num) 2
    two_pos ⟨200, 1e-4, 5⟩ (by norm_num) _ trivial r ys h).1
  refine ⟨r, ys, h, fun μ L hL hc => hlow μ L hL 1 1 hc (by rw [hev]; rfl), C103_exact_partial debug (matOp 4 exDouble) ⊤ (fun _ _ => trivial) hsy dstev hd 5e-12 (by norm_num) 2
    two_pos ⟨200, 1e-4, 5⟩ (by norm_num) _ trivial ?_ r ys h hb hk 1 1 (by rw [hev]; rfl)⟩
  rintro lam ⟨x, -, hx0, hx⟩
  by_cases hz : ∀ i : Fin 4, 2 ≤ (i : ℕ) → x i = 0
  · have hlam : lam = 0 := by
      by_contra hne
      refine hx0 ?_
      ext i
      have := congrArg (fun v : EuclideanSpace ℝ (Fin 4) => v i) hx
      simp only [exDouble_apply, PiLp.smul_apply, smul_eq_mul] at this
      by_cases hi : 2 ≤ (i : ℕ)
      · exact hz i hi
      · rw [if_neg hi] at this
        exact (mul_eq_zero.1 this.symm).resolve_left hne
    refine ⟨EuclideanSpace.single 0 1, trivial, ?_, ?_⟩
    · ext i
      rw [exDouble_apply, hlam]
      fin_cases i <;> simp
    · rw [inner_fin, Fin.sum_univ_four]
      simp only [exDouble_guess]
      simp
  · push Not at hz
    obtain ⟨i, hi, hxi⟩ := hz
    have hlam : lam = 1 := by
      have := congrArg (fun v : EuclideanSpace ℝ (Fin 4) => v i) hx
      simp only [exDouble_apply, PiLp.smul_apply, smul_eq_mul, if_pos hi] at this
      have h2 : (lam - 1) * x i = 0 := by linarith
      linarith [(mul_eq_zero.1 h2).resolve_right hxi]
    refine ⟨EuclideanSpace.single 3 1, trivial, ?_, ?_⟩
    · ext i
      rw [exDouble_apply, hlam]
      fin_cases i <;> simp
    · rw [inner_fin, Fin.sum_univ_four]
      simp only [exDouble_guess]
      simp

/-- The library's call on this matrix returns, and `C103_multiple_violated` applies to it. -/
example (debug : Bool) (sortPerm : List ℝ → List ℕ) (noise : ℕ → ℕ → ℝ) (emptyVec : EuclideanSpace ℝ (Fin 4)) : ∃ ys,
    localLanczos debug exactDstev sortPerm noise 4 exDouble (fun _ => false) (fun _ => 1 / 2) emptyVec 2 1e-4 {} =
      .ok ([0, 1], ys) ∧ ∀ tol, tol < 1 → ¬ AtMostSmallest 4 exDouble (fun _ => false) tol [0, 1] := by
  obtain ⟨r, ys, h, hev, -, -⟩ := exDouble_solve debug exactDstev exactDstev_contract
  have hp : localLanczosParams 1e-4 {} = ⟨200, 1e-4, 5⟩ := by simp [localLanczosParams]
  have hl := (C27_residual debug (matOp 4 exDouble) (fun x y => matOp_symm exDouble_symm.symm x y) exactDstev
    exactDstev_contract 5e-12 2 two_pos ⟨200, 1e-4, 5⟩ (by norm_num) _ r ys h).2.1
  have hrun : localLanczos debug exactDstev sortPerm noise 4 exDouble (fun _ => false) (fun _ => 1 / 2) emptyVec 2 1e-4 {} =
      .ok ([0, 1], ys) := by
    unfold localLanczos
    rw [lanczosSolve_plain _ _ _ _ _ _ (by norm_num), hp, h]
    have a : Outcome.assert debug true = .ok () := by simp [Outcome.assert]
    simp [Outcome.ok_bind, Outcome.pure_eq, savePairs, hl, hev, finishPairs, a, copyInto]
    rw [List.take_of_length_le (l := ys) (by omega), List.take_of_length_le (by omega)]
  refine ⟨ys, hrun, fun tol htol => ?_⟩
  have hv : ∀ k : Fin 2, FreeEigenvector 4 exDouble (fun _ => false) 0 (fun i => if i = k then 1 else 0) := by
    intro k
    refine ⟨⟨k, by omega, by simp⟩, (fun _ _ h => by cases h), fun i hi => ?_⟩
    interval_cases i <;> fin_cases k <;> simp [exDouble]
  have hind : LinearIndependent ℝ (fun (k : Fin 2) (j : Fin 4) => if (j : ℕ) = k then (1 : ℝ) else 0) := by
    rw [Fintype.linearIndependent_iff]
    intro c hc i
    have c0 := congrFun hc 0
    have c1 := congrFun hc 1
    simp [Fin.sum_univ_two] at c0 c1
    fin_cases i
    · exact c0
    · exact c1
  refine (C103_multiple_violated exDouble_symm 1 0 {0} ?_ (fun k i => if i = k then 1 else 0) (fun _ => 0)
    (fun k => ⟨hv k, le_refl _⟩) hind debug exactDstev exactDstev_contract sortPerm noise (fun _ => 1 / 2) emptyVec 2
    (by simp) 1e-4 {} rfl (by norm_num) _ ys hrun).2 tol (by linarith)
  rintro lam hlam ⟨x, ⟨i, hi, hxi⟩, -, he⟩
  rw [Finset.mem_singleton]
  have h2 := he i hi
  interval_cases i <;> simp [exDouble] at h2
  · exact h2.resolve_right hxi
  · exact h2.resolve_right hxi
  · exfalso
    have h3 : (lam - 1) * x 2 = 0 := by linarith
    linarith [(mul_eq_zero.1 h3).resolve_right hxi]
  · exfalso
    have h3 : (lam - 1) * x 3 = 0 := by linarith
    linarith [(mul_eq_zero.1 h3).resolve_right hxi]

end Mfmg
