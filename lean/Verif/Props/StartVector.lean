import Verif.Lemmas.StartVector
import Verif.Props.LanczosRate

/-!
# The start vector of the local eigenproblems (C101)
-/

set_option autoImplicit false

namespace Mfmg

open Finset
open scoped InnerProductSpace

section

variable {size : ℕ} {M : ℕ → ℕ → ℝ} {constrained : ℕ → Bool}

/-- **C101 (the start vector sees the smallest eigenvector).** The matrix is symmetric, its entries off the
diagonal are not positive, and the random numbers are positive.  Then there is a unit eigenvector for the
smallest eigenvalue on the free dofs that has no negative entry and is not orthogonal to the start vector made
by the library.  Nothing is assumed about connectedness, and the smallest eigenvalue may be multiple. -/
theorem C101_start_sees (h : NonpositiveOffDiagonal size M constrained)
    (hfree : ∃ i, i < size ∧ constrained i = false) (draw : ℕ → ℝ) (hd : ∀ m, 0 < draw m) :
    ∃ (lam : ℝ) (x : ℕ → ℝ), SmallestFree size M constrained lam ∧ FreeEigenvector size M constrained lam x ∧
      (∀ i, i < size → 0 ≤ x i) ∧ ∑ i ∈ range size, x i ^ 2 = 1 ∧
      0 < ∑ i ∈ range size, x i * (setInitialGuess constrained draw size 0 0).getD i 0 := by
  obtain ⟨l1, hs, hlow⟩ := h.smallest hfree
  obtain ⟨w, hw, hne⟩ := (freeEigenvalue_iff l1).1 hs.1
  have hwn : ‖w‖ ≠ 0 := norm_ne_zero_iff.2 hne
  obtain ⟨v, hv⟩ : ∃ v, v = ‖w‖⁻¹ • w := ⟨_, rfl⟩
  have hvm : v ∈ eigIn (matOp size M) (freeVectors size constrained) l1 := by
    rw [hv]; exact Submodule.smul_mem _ _ hw
  have hv1 : ‖v‖ = 1 := by rw [hv, norm_smul, norm_inv, norm_norm, inv_mul_cancel₀ hwn]
  have hvne : v ≠ 0 := by
    rintro rfl
    rw [norm_zero] at hv1
    norm_num at hv1
  have ha := h.abs_eig hlow hvm
  have ha0 : absVec v ≠ 0 := by
    intro h0
    have := absVec_inner v
    rw [h0, inner_zero_left] at this
    exact hvne (inner_self_eq_zero.1 this.symm)
  refine ⟨l1, _, hs, freeEigenvector_of ha ha0, ?_, ?_, ?_⟩
  · intro i hi
    simp only [dif_pos hi]
    exact abs_nonneg _
  · have := absVec_inner v
    rw [real_inner_self_eq_norm_sq v, hv1, inner_fin] at this
    rw [Finset.sum_range, ← one_pow 2, ← this]
    exact Finset.sum_congr rfl fun j _ => by rw [dif_pos j.2, sq]
  · have hp := absVec_guess_pos hd hvm.1 hvne
    rw [inner_fin] at hp
    rw [Finset.sum_range]
    refine lt_of_lt_of_eq hp (Finset.sum_congr rfl fun j _ => ?_)
    rw [dif_pos j.2]
    rfl

/-- **C101 (the call finds the smallest eigenvalue).** `lam` is the smallest eigenvalue on the free dofs, all
others are at least `l2`, and `x` is a unit eigenvector for `lam` that makes such an angle with the start vector
that the constant 5e-12 of the filter for spurious eigenvalues does not matter.  Then for every `δ > 0` there is
a number `k` such that every call for one eigenvector with a maximum of more than `k` iterations which returns
has met the tolerance, has made at most `percent_overshoot` per cent more than `k` iterations, and returns, if
it has made more than `k`, a unit vector and a value between `lam` and `lam + δ`.  `k` does not depend on the
tolerance or the other options. -/
theorem C101_found_partial (h : SymmetricUncoupled size M constrained) (draw : ℕ → ℝ) (lam l2 : ℝ)
    (hlam : SmallestFree size M constrained lam) (hl : lam < l2)
    (hgap : ∀ μ, FreeEigenvalue size M constrained μ → μ = lam ∨ l2 ≤ μ)
    (x : ℕ → ℝ) (hx : FreeEigenvector size M constrained lam x) (hx1 : ∑ i ∈ range size, x i ^ 2 = 1)
    (hsee : 5e-12 * ∑ i ∈ range size, (setInitialGuess constrained draw size 0 0).getD i 0 ^ 2 <
      (l2 - lam) * (∑ i ∈ range size, x i * (setInitialGuess constrained draw size 0 0).getD i 0) ^ 2)
    (δ : ℝ) (hδ : 0 < δ) :
    ∃ k : ℕ, ∀ (debug : Bool) (dstev : List ℝ → List ℝ → List ℝ × List ℝ) (sortPerm : List ℝ → List ℕ)
        (noise : ℕ → ℕ → ℝ) (emptyVec : EuclideanSpace ℝ (Fin size)) (tolerance : ℝ) (o : LanczosOptions)
        (es : List ℝ) (ys : List (EuclideanSpace ℝ (Fin size))), DstevContract dstev → o.deflated = none →
        k < o.maxIterations.getD 200 → 0 ≤ o.percentOvershoot.getD 5 →
        localLanczos debug dstev sortPerm noise size M constrained draw emptyVec 1 tolerance o = .ok (es, ys) →
        ∃ r, solveLanczos debug (matOp size M) (calcTridiagEpairs Real.sqrt 5e-12 dstev) 1
            (localLanczosParams tolerance o) (libraryGuess size constrained draw) = .ok (r, ys) ∧
          r.converged = true ∧
          100 * ((r.state.vs.length : ℤ) - 1) ≤ (100 + o.percentOvershoot.getD 5) * k ∧
          (k < r.state.vs.length → ∃ θ y, es = [θ] ∧ ys = [y] ∧ ‖y‖ = 1 ∧ lam ≤ θ ∧ θ ≤ lam + δ ∧
            ‖matOp size M y - θ • y‖ ≤ max tolerance 1e-4) := by
  have hlow := h.lower hlam
  have hwn : ‖entriesVec size x‖ = 1 := by
    have : ‖entriesVec size x‖ ^ 2 = 1 := by
      rw [← real_inner_self_eq_norm_sq, inner_fin, ← hx1, Finset.sum_range]
      exact Finset.sum_congr rfl fun j _ => (sq _).symm
    nlinarith [norm_nonneg (entriesVec size x)]
  have hin : ⟪entriesVec size x, libraryGuess size constrained draw⟫_ℝ =
      ∑ i ∈ range size, x i * (setInitialGuess constrained draw size 0 0).getD i 0 := by
    rw [inner_fin, Finset.sum_range]; rfl
  have hgn : ‖libraryGuess size constrained draw‖ ^ 2 =
      ∑ i ∈ range size, (setInitialGuess constrained draw size 0 0).getD i 0 ^ 2 := by
    rw [← real_inner_self_eq_norm_sq, inner_fin, Finset.sum_range]
    exact Finset.sum_congr rfl fun j _ => (sq _).symm
  rw [← hin, ← hgn] at hsee
  have hne : ⟪entriesVec size x, libraryGuess size constrained draw⟫_ℝ ≠ 0 := by
    intro h0
    rw [h0] at hsee
    have := sq_nonneg ‖libraryGuess size constrained draw‖
    norm_num at hsee
    linarith
  obtain ⟨u, g, ln, hsp, hg, hug, hcs⟩ := split_start h.maps (fun x _ y _ => matOp_symm h.symm x y) hlow hl
    (fun μ w hw hw0 => hgap μ ((freeEigenvalue_iff μ).2 ⟨w, hw, hw0⟩)) (libraryGuess_free draw) hx.mem.1 hwn hne
  have hgpos : 0 < ‖libraryGuess size constrained draw‖ ^ 2 := by
    have : libraryGuess size constrained draw ≠ 0 := by
      intro h0
      rw [h0, inner_zero_right] at hne
      exact hne rfl
    have := norm_pos_iff.2 this
    positivity
  have hthr : 5e-12 < (l2 - lam) * cosSq u g := by
    have h1 := mul_le_mul_of_nonneg_left hcs (by linarith : 0 ≤ l2 - lam)
    have h2 : ‖libraryGuess size constrained draw‖ ^ 2 * 5e-12 <
        ‖libraryGuess size constrained draw‖ ^ 2 * ((l2 - lam) * cosSq u g) := by linarith
    exact lt_of_mul_lt_mul_left h2 hgpos.le
  have h2 := hsp.spread
  obtain ⟨c, hc⟩ : ∃ c : ℝ, c = ln - lam := ⟨_, rfl⟩
  have hc0 : 0 < c := by rw [hc]; linarith
  obtain ⟨t, ht⟩ : ∃ t : ℝ, t = (l2 - lam) * cosSq u g - 5e-12 := ⟨_, rfl⟩
  have ht0 : 0 < t := by rw [ht]; linarith
  obtain ⟨ε, hε, he1, he2, he3, he4⟩ : ∃ ε : ℝ, 0 < ε ∧ ε ≤ 1 ∧ c * ε ≤ 1e-4 ∧ c * ε ≤ δ ∧ c * ε ≤ t / 2 := by
    refine ⟨min (min 1 (1e-4 / c)) (min (δ / c) (t / 2 / c)), by positivity, ?_, ?_, ?_, ?_⟩
    · exact (min_le_left _ _).trans (min_le_left _ _)
    · rw [← le_div_iff₀' hc0]; exact (min_le_left _ _).trans (min_le_right _ _)
    · rw [← le_div_iff₀' hc0]; exact (min_le_right _ _).trans (min_le_left _ _)
    · rw [← le_div_iff₀' hc0]; exact (min_le_right _ _).trans (min_le_right _ _)
  obtain ⟨k, hk⟩ := startLeft_small hl h2 u g hε
  have hkk := hk k le_rfl
  have hk0 := startLeft_nonneg hl h2 u g k
  have hsq : c * startLeft lam l2 ln u g k ^ 2 ≤ c * ε := by
    refine mul_le_mul_of_nonneg_left ?_ hc0.le
    nlinarith
  refine ⟨k, fun debug dstev sortPerm noise emptyVec tolerance o es ys hdst hdef hmax hpct hrun => ?_⟩
  unfold localLanczos at hrun
  rw [hdef, lanczosSolve_one] at hrun
  simp only [Outcome.bind_eq_ok, Outcome.pure_eq] at hrun
  obtain ⟨q, ⟨⟨r, ys'⟩, hr, sv, hsv, hq⟩, -, -, es', hes, hout⟩ := hrun
  simp only [Outcome.ok.injEq, Prod.mk.injEq] at hq hout
  obtain ⟨rfl, rfl⟩ := hout
  subst hq
  have hnum := C27_residual debug (matOp size M) (fun x y => matOp_symm h.symm x y) dstev hdst 5e-12 1 (by omega)
    (localLanczosParams tolerance o) (by change 0 < o.maxIterations.getD 200; omega) _ r ys' hr
  obtain ⟨hel, hyl, -⟩ := hnum
  obtain ⟨θ, hθ⟩ : ∃ θ, r.evals = [θ] := List.length_eq_one_iff.1 hel
  obtain ⟨y, rfl⟩ : ∃ y, ys' = [y] := List.length_eq_one_iff.1 hyl
  rw [hθ] at hsv
  simp only [savePairs, List.length_singleton, le_refl, and_self, if_true, Outcome.ok.injEq] at hsv
  subst hsv
  have hes' : es' = [θ] := by
    simp [finishPairs, copyInto] at hes
    exact hes.symm
  subst hes'
  have hr' := hr
  rw [hug] at hr'
  have hC := C100_rate_partial debug (matOp size M) _ u g lam l2 ln hsp hg dstev hdst 5e-12
    (localLanczosParams tolerance o) hpct k hmax (by
      refine le_trans ?_ (le_max_right tolerance (1e-4))
      rw [← hc]
      exact (mul_le_mul_of_nonneg_left hkk hc0.le).trans he2) (by rw [← hc]; linarith) r [y] hr'
  obtain ⟨hconv, hits, hval⟩ := hC
  refine ⟨r, hr, hconv, hits, fun hj => ?_⟩
  obtain ⟨θ', y', e1, e2, e3, e4, e5, e6, -⟩ := hval k hj (by rw [← hc]; linarith)
  rw [List.cons.injEq] at e2
  obtain ⟨rfl, -⟩ := e2
  rw [hθ, List.cons.injEq] at e1
  obtain ⟨rfl, -⟩ := e1
  exact ⟨θ, y, rfl, rfl, e3, e4, by rw [← hc] at e5; linarith, e6⟩

/-- **C101 (the shifted matrix).** The matrix-based evaluator passes the matrix with shifted diagonal to the solver
and takes the shift away from the eigenvalues.  Symmetry, the missing coupling and the sign of the entries off the
diagonal are the same for both matrices, and the eigenvectors on the free dofs are the same, with eigenvalues that
differ by the mean of the diagonal. -/
theorem C101_shifted (size : ℕ) (A : ℕ → ℕ → ℝ) (constrained : List ℕ)
    (h : NonpositiveOffDiagonal size A (fun i => decide (i ∈ constrained))) :
    NonpositiveOffDiagonal size (shiftedMatrix size A constrained) (fun i => decide (i ∈ constrained)) ∧
      (∀ lam x, FreeEigenvector size (shiftedMatrix size A constrained) (fun i => decide (i ∈ constrained))
          (lam + (∑ k ∈ range size, A k k) / size) x ↔
        FreeEigenvector size A (fun i => decide (i ∈ constrained)) lam x) ∧
      ∀ lam, SmallestFree size (shiftedMatrix size A constrained) (fun i => decide (i ∈ constrained))
          (lam + (∑ k ∈ range size, A k k) / size) ↔
        SmallestFree size A (fun i => decide (i ∈ constrained)) lam := by
  have havg : ((List.range size).map (fun k => A k k)).sum = ∑ k ∈ range size, A k k := by
    rw [Finset.sum_range, ← List.sum_ofFn, List.ofFn_eq_map, ← List.map_coe_finRange_eq_range, List.map_map]
    rfl
  have hM : ∀ i j, i < size → shiftedMatrix size A constrained i j = if i = j then
      if i ∈ constrained then 200 else A i i + (∑ k ∈ range size, A k k) / size else A i j := by
    intro i j hi
    rw [C40_shifted _ _ _ _ _ hi, havg]
  have hoff : ∀ i j, i < size → i ≠ j → shiftedMatrix size A constrained i j = A i j := fun i j hi hij => by
    rw [hM i j hi, if_neg hij]
  have hrow : ∀ (x : ℕ → ℝ), (∀ i, i < size → decide (i ∈ constrained) = true → x i = 0) → ∀ i, i < size →
      ∑ j ∈ range size, shiftedMatrix size A constrained i j * x j =
        ∑ j ∈ range size, A i j * x j + (∑ k ∈ range size, A k k) / size * x i := by
    intro x hx i hi
    have hmem : i ∈ range size := Finset.mem_range.2 hi
    rw [← Finset.add_sum_erase _ _ hmem, ← Finset.add_sum_erase (range size) (fun j => A i j * x j) hmem]
    have : ∑ j ∈ (range size).erase i, shiftedMatrix size A constrained i j * x j =
        ∑ j ∈ (range size).erase i, A i j * x j :=
      Finset.sum_congr rfl fun j hj => by rw [hoff i j hi (Finset.ne_of_mem_erase hj).symm]
    rw [this, hM i i hi, if_pos rfl]
    by_cases hc : i ∈ constrained
    · rw [hx i hi (decide_eq_true hc)]; ring
    · rw [if_neg hc]; ring
  have hev : ∀ lam x, FreeEigenvector size (shiftedMatrix size A constrained) (fun i => decide (i ∈ constrained))
          (lam + (∑ k ∈ range size, A k k) / size) x ↔
        FreeEigenvector size A (fun i => decide (i ∈ constrained)) lam x := by
    intro lam x
    constructor
    · rintro ⟨h1, h2, h3⟩
      refine ⟨h1, h2, fun i hi => ?_⟩
      have := h3 i hi
      rw [hrow x h2 i hi] at this
      linarith
    · rintro ⟨h1, h2, h3⟩
      refine ⟨h1, h2, fun i hi => ?_⟩
      rw [hrow x h2 i hi, h3 i hi]
      ring
  refine ⟨⟨⟨fun i j hi hj => ?_, fun i j hi hj hij hc => ?_⟩, fun i j hi hj hij => ?_⟩, hev, fun lam => ?_⟩
  · by_cases hij : i = j
    · rw [hij]
    · rw [hoff i j hi hij, hoff j i hj (Ne.symm hij), h.symm i j hi hj]
  · rw [hoff i j hi hij, h.uncoupled i j hi hj hij hc]
  · rw [hoff i j hi hij]; exact h.nonpos i j hi hj hij
  · constructor
    · rintro ⟨⟨x, hx⟩, h2⟩
      refine ⟨⟨x, (hev lam x).1 hx⟩, ?_⟩
      rintro μ ⟨z, hz⟩
      have := h2 _ ⟨z, (hev μ z).2 hz⟩
      linarith
    · rintro ⟨⟨x, hx⟩, h2⟩
      refine ⟨⟨x, (hev lam x).2 hx⟩, ?_⟩
      rintro μ ⟨z, hz⟩
      have e : μ - (∑ k ∈ range size, A k k) / size + (∑ k ∈ range size, A k k) / size = μ := by ring
      have := h2 _ ⟨z, (hev (μ - (∑ k ∈ range size, A k k) / size) z).1 (by rw [e]; exact hz)⟩
      linarith

end

/-- **C101 is violated by the code for other matrices.** The random numbers are always the same, as the generator is
always seeded in the same way.  For at least two dofs, none of them constrained, there is a symmetric positive
definite matrix with smallest eigenvalue 1 for which every call for one eigenvector returns 2 after the first
iteration, whatever the tolerance and the other options are: the start vector is orthogonal to the eigenvector for
the smallest eigenvalue. -/
theorem C101_missed_violated (n : ℕ) (draw : ℕ → ℝ) (hdraw : ∀ m, 0 < draw m) :
    ∃ M : ℕ → ℕ → ℝ, SymmetricUncoupled (n + 2) M (fun _ => false) ∧
      (∀ x : ℕ → ℝ, ∑ i ∈ range (n + 2), x i ^ 2 ≤
        ∑ i ∈ range (n + 2), (∑ j ∈ range (n + 2), M i j * x j) * x i) ∧
      SmallestFree (n + 2) M (fun _ => false) 1 ∧
      ∀ (debug : Bool) (dstev : List ℝ → List ℝ → List ℝ × List ℝ) (sortPerm : List ℝ → List ℕ)
        (noise : ℕ → ℕ → ℝ) (emptyVec : EuclideanSpace ℝ (Fin (n + 2))) (tolerance : ℝ) (o : LanczosOptions),
        DstevContract dstev → o.deflated = none → 1 ≤ o.maxIterations.getD 200 →
        (0 ≤ o.percentOvershoot.getD 5 ∧ o.percentOvershoot.getD 5 < 100) →
        ∃ y, localLanczos debug dstev sortPerm noise (n + 2) M (fun _ => false) draw emptyVec 1 tolerance o =
            .ok ([2], [y]) ∧ ‖y‖ = 1 := by
  obtain ⟨g, hg⟩ : ∃ g, g = libraryGuess (n + 2) (fun _ => false) draw := ⟨_, rfl⟩
  have hpos : ∀ i, 0 < g i := by
    intro i
    obtain ⟨m, hm⟩ := (libraryGuess_apply (size := n + 2) (constrained := fun _ => false) draw i).2 rfl
    rw [hg, hm]
    exact hdraw m
  obtain ⟨u, hu⟩ : ∃ u : EuclideanSpace ℝ (Fin (n + 2)), u =
      g 1 • EuclideanSpace.single 0 (1 : ℝ) - g 0 • EuclideanSpace.single 1 (1 : ℝ) := ⟨_, rfl⟩
  have hug : ⟪u, g⟫_ℝ = 0 := by
    rw [hu, inner_sub_left, inner_smul_left, inner_smul_left, EuclideanSpace.inner_single_left,
      EuclideanSpace.inner_single_left]
    simp only [conj_trivial, one_mul]
    ring
  have hu1 : u 1 = -g 0 := by rw [hu]; simp
  have hu0 : u ≠ 0 := by
    intro h0
    rw [h0] at hu1
    have := hpos 0
    simp only [PiLp.zero_apply] at hu1
    linarith
  have hc : 0 < ⟪u, u⟫_ℝ := real_inner_self_pos.2 hu0
  obtain ⟨c, hcdef⟩ : ∃ c, c = ⟪u, u⟫_ℝ := ⟨_, rfl⟩
  rw [← hcdef] at hc
  obtain ⟨f, hf⟩ : ∃ f : ℕ → ℝ, f = fun i => if h : i < n + 2 then u ⟨i, h⟩ else 0 := ⟨_, rfl⟩
  have hfu : ∀ i : Fin (n + 2), f i = u i := by
    intro i
    rw [hf]
    simp only [dif_pos i.2]
  have hap : ∀ x, matOp (n + 2) (fun i j => (if i = j then 2 else 0) - f i * f j / c) x =
      (2 : ℝ) • x - (⟪u, x⟫_ℝ / c) • u := by
    intro x
    ext i
    rw [matOp_apply]
    simp only [sub_mul, Finset.sum_sub_distrib, hfu, PiLp.sub_apply, PiLp.smul_apply, smul_eq_mul]
    congr 1
    · rw [Finset.sum_eq_single i (fun j _ hj => by rw [if_neg (fun e => hj (Fin.ext e).symm), zero_mul])
        (fun hi => absurd (mem_univ i) hi), if_pos rfl]
    · rw [inner_fin, Finset.sum_div, Finset.sum_mul]
      exact Finset.sum_congr rfl fun j _ => by ring
  have hlow : ∀ x, ⟪x, x⟫_ℝ ≤ ⟪matOp (n + 2) (fun i j => (if i = j then 2 else 0) - f i * f j / c) x, x⟫_ℝ := by
    intro x
    rw [hap, inner_sub_left, inner_smul_left, inner_smul_left]
    simp only [conj_trivial]
    have hcs := real_inner_mul_inner_self_le u x
    rw [← hcdef] at hcs
    have : ⟪u, x⟫_ℝ / c * ⟪u, x⟫_ℝ ≤ ⟪x, x⟫_ℝ := by
      rw [div_mul_eq_mul_div, div_le_iff₀ hc]
      linarith
    linarith
  refine ⟨fun i j => (if i = j then 2 else 0) - f i * f j / c, ⟨fun i j _ _ => ?_, fun _ _ _ _ _ h => by cases h⟩,
    fun x => ?_, ⟨?_, fun μ hμ => ?_⟩, ?_⟩
  · by_cases hij : i = j
    · rw [hij]
    · simp only [if_neg hij, if_neg (Ne.symm hij)]; ring
  · have := hlow (entriesVec (n + 2) x)
    rw [inner_fin, inner_fin] at this
    rw [Finset.sum_range, Finset.sum_range]
    refine le_trans (le_of_eq ?_) (this.trans (le_of_eq ?_))
    · exact Finset.sum_congr rfl fun j _ => sq _
    · refine Finset.sum_congr rfl fun i _ => ?_
      rw [matOp_apply, Finset.sum_range]
      rfl
  · refine (freeEigenvalue_iff 1).2 ⟨u, ⟨fun _ h => (by cases h), ?_⟩, hu0⟩
    rw [hap, ← hcdef, div_self hc.ne']
    module
  · obtain ⟨w, ⟨-, hw⟩, hw0⟩ := (freeEigenvalue_iff μ).1 hμ
    have := hlow w
    rw [hw, inner_smul_left] at this
    have hw1 := real_inner_self_pos.2 hw0
    simp only [conj_trivial] at this
    by_contra hlt
    push Not at hlt
    nlinarith
  · intro debug dstev sortPerm noise emptyVec tolerance o hd hdef hmax hpct
    have hg0 : g ≠ 0 := by
      intro h0
      have := hpos 0
      rw [h0] at this
      simp at this
    have hAg : matOp (n + 2) (fun i j => (if i = j then 2 else 0) - f i * f j / c) g = (2 : ℝ) • g := by
      rw [hap, hug, zero_div, zero_smul, sub_zero]
    obtain ⟨r, y, hr, he, hy, -⟩ := solve_eigenvector debug _ g 2 hAg hg0 dstev hd 5e-12
      (localLanczosParams tolerance o) hpct hmax (le_trans (by norm_num) (le_max_right tolerance 1e-4))
    refine ⟨y, ?_, hy⟩
    unfold localLanczos
    rw [hdef, lanczosSolve_one, ← hg, hr]
    simp [Outcome.ok_bind, he, savePairs, finishPairs, copyInto, Outcome.assert, Outcome.pure_eq]

/-! ## Examples -/

/-- Two coupled free dofs and a constrained one. -/
def exLapl : ℕ → ℕ → ℝ := fun i j => if i = j then (if i = 2 then 200 else 2) else if i + j = 1 then -1 else 0

def exConstr : ℕ → Bool := fun i => i == 2

theorem exLapl_nonpos : NonpositiveOffDiagonal 3 exLapl exConstr where
  symm := by
    intro i j hi hj
    interval_cases i <;> interval_cases j <;> simp [exLapl]
  uncoupled := by
    intro i j hi hj hij hc
    interval_cases i <;> interval_cases j <;> simp_all [exLapl, exConstr]
  nonpos := by
    intro i j hi hj hij
    interval_cases i <;> interval_cases j <;> simp_all [exLapl]

/-- The start vector is `(1, 2, 0)`. -/
theorem exGuess3 : setInitialGuess exConstr (fun m => (m : ℝ) + 1) 3 0 0 = [1, 2, 0] := by
  norm_num [setInitialGuess, exConstr]

example : ∃ (lam : ℝ) (x : ℕ → ℝ), SmallestFree 3 exLapl exConstr lam ∧ FreeEigenvector 3 exLapl exConstr lam x ∧
    (∀ i, i < 3 → 0 ≤ x i) ∧ ∑ i ∈ range 3, x i ^ 2 = 1 ∧
    0 < ∑ i ∈ range 3, x i * (setInitialGuess exConstr (fun m => (m : ℝ) + 1) 3 0 0).getD i 0 :=
  C101_start_sees exLapl_nonpos ⟨0, by norm_num, rfl⟩ _ (fun m => by positivity)

theorem exLapl_eig {μ : ℝ} (h : FreeEigenvalue 3 exLapl exConstr μ) : μ = 1 ∨ μ = 3 := by
  obtain ⟨x, ⟨i, hi, hne⟩, hf, he⟩ := h
  have h0 := he 0 (by norm_num)
  have h1 := he 1 (by norm_num)
  have h2 := hf 2 (by norm_num) rfl
  norm_num [Finset.sum_range_succ, exLapl] at h0 h1
  have e1 : x 1 = (2 - μ) * x 0 := by linarith
  have e2 : x 0 * ((2 - μ) ^ 2 - 1) = 0 := by
    rw [e1] at h1
    linear_combination h1
  rcases mul_eq_zero.1 e2 with h3 | h3
  · exfalso
    apply hne
    rw [h3, mul_zero] at e1
    interval_cases i
    · exact h3
    · exact e1
    · exact h2
  · have : (μ - 1) * (μ - 3) = 0 := by linear_combination h3
    rcases mul_eq_zero.1 this with h4 | h4
    · left; linarith
    · right; linarith

/-- The unit eigenvector `(1, 1, 0) / √2`. -/
noncomputable def exEig : ℕ → ℝ := fun i => if i = 2 then 0 else (Real.sqrt 2)⁻¹

theorem exEig_free : FreeEigenvector 3 exLapl exConstr 1 exEig where
  ne := ⟨0, by norm_num, by simp [exEig]⟩
  free := by
    intro i hi hc
    interval_cases i <;> simp_all [exEig, exConstr]
  eig := by
    intro i hi
    interval_cases i <;> norm_num [Finset.sum_range_succ, exLapl, exEig] <;> ring

example (δ : ℝ) (hδ : 0 < δ) :=
  C101_found_partial exLapl_nonpos.toSymmetricUncoupled (fun m => (m : ℝ) + 1) 1 3
    ⟨⟨exEig, exEig_free⟩, fun μ hμ => by rcases exLapl_eig hμ with h | h <;> norm_num [h]⟩ (by norm_num)
    (fun μ hμ => by rcases exLapl_eig hμ with h | h <;> rw [h] <;> norm_num) exEig exEig_free
    (by norm_num [Finset.sum_range_succ, exEig])
    (by
      rw [exGuess3]
      have h : (Real.sqrt 2)⁻¹ + (Real.sqrt 2)⁻¹ * 2 = 3 * (Real.sqrt 2)⁻¹ := by ring
      norm_num [Finset.sum_range_succ, exEig, h, mul_pow]) δ hδ

example : NonpositiveOffDiagonal 3 (shiftedMatrix 3 exLapl [2]) (fun i => decide (i ∈ [2])) :=
  (C101_shifted 3 exLapl [2] (by
    have h := exLapl_nonpos
    refine ⟨⟨h.symm, fun i j hi hj hij hc => h.uncoupled i j hi hj hij ?_⟩, h.nonpos⟩
    simpa [exConstr] using hc)).1

example := C101_missed_violated 1 (fun m => (m : ℝ) + 1) (fun m => by positivity)

end Mfmg
