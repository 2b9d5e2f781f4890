import Verif.Props.Units
import Verif.Props.Lanczos
import Verif.Spec.Units

/-!
# Change of units (C89): the absolute numbers in the set-up
-/

set_option autoImplicit false

namespace Mfmg

open Finset

/-! ## The drop tolerance of the matrix-free product -/

section

variable {K : Type} [Field K] [LinearOrder K] [IsStrictOrderedRing K]

omit [LinearOrder K] [IsStrictOrderedRing K] in
theorem productTransposed_units (c : K) (n : ℕ) (a : ℕ → ℕ → K) (B : DistMatrix K) (i j : ℕ) :
    productTransposed n (fun i k => c * a i k) B i j = c * productTransposed n a B i j := by
  unfold productTransposed
  rw [← List.sum_map_mul_left]
  congr 1
  apply List.map_congr_left
  intro k _
  rw [mul_assoc]

/-- **C89 is violated** by the matrix-free product `A Rᵀ`: for every matrix and every restriction, in small
enough units nothing at all is stored, on no process, so that the coarse operator is zero. -/
theorem C89_product_violated (procs n : ℕ) (eps : K) (heps : 0 < eps) (B : DistMatrix K)
    (hB : B.WellFormed procs) (nRows : ℕ) (owner : ℕ → ℕ) (a : ℕ → ℕ → K) :
    ∃ c₀ : K, 0 < c₀ ∧ ∀ c : K, 0 < c → c ≤ c₀ → ∀ apply : (ℕ → K) → (ℕ → K), IsMatrix n (fun i k => c * a i k) apply →
      ∀ rank, transposeMultiply procs eps B nRows owner apply rank = [] := by
  set S := ∑ i ∈ range nRows, ∑ j ∈ range B.rows, |productTransposed n a B i j| with hS
  have hS0 : 0 ≤ S := sum_nonneg fun i _ => sum_nonneg fun j _ => abs_nonneg _
  refine ⟨eps / (1 + S), by positivity, ?_⟩
  intro c hc hle apply hA rank
  rw [List.eq_nil_iff_forall_not_mem]
  rintro ⟨i, j, x⟩ hx
  obtain ⟨hi, hj, -, rfl, hlt⟩ := (C38_stored procs n eps B hB nRows owner apply _ hA rank i j x).1 hx
  rw [productTransposed_units, abs_mul, abs_of_pos hc] at hlt
  have h1 : |productTransposed n a B i j| ≤ S :=
    (single_le_sum (f := fun j => |productTransposed n a B i j|) (fun j _ => abs_nonneg _)
      (mem_range.2 hj)).trans
      (single_le_sum (f := fun i => ∑ j ∈ range B.rows, |productTransposed n a B i j|)
        (fun i _ => sum_nonneg fun j _ => abs_nonneg _) (mem_range.2 hi))
  have h2 : c * |productTransposed n a B i j| ≤ eps / (1 + S) * S :=
    mul_le_mul hle h1 (abs_nonneg _) (by positivity)
  have h3 : eps / (1 + S) * S ≤ eps := by
    rw [div_mul_eq_mul_div, div_le_iff₀ (by linarith)]
    nlinarith
  exact absurd hlt (not_lt.2 (h2.trans h3))

/-! ## The diagonal of constrained dofs and the bounds of LAPACK -/

/-- For an eigenpair of the matrix given to the eigensolver, the eigenvalue is at least the average diagonal
or the vector vanishes on all dofs without constraint. -/
theorem shifted_dichotomy (size : ℕ) (A : ℕ → ℕ → K) (constrained : List ℕ) (hpsd : PositiveForm size A)
    (hdec : Decoupled size constrained A) (l : K) (v : List K)
    (hv : IsEigenpair size (shiftedMatrix size A constrained) l v) :
    averageDiagonal size A ≤ l ∨ ∀ i, i < size → i ∉ constrained → v.getD i 0 = 0 := by
  set w : ℕ → K := fun i => if i ∈ constrained then 0 else v.getD i 0 with hw
  have hrow : ∀ i ∈ range size, w i * ∑ j ∈ range size, A i j * w j
      = (l - averageDiagonal size A) * (w i * w i) := by
    intro i hi
    rw [mem_range] at hi
    by_cases hc : i ∈ constrained
    · simp [hw, hc]
    · have h := hv.2 i hi
      rw [matVec_shifted _ _ _ _ _ hi, if_neg hc] at h
      have hm : matVec size A v i = ∑ j ∈ range size, A i j * w j := by
        change ∑ j ∈ range size, A i j * v.getD j 0 = _
        apply sum_congr rfl
        intro j hj
        by_cases hj' : j ∈ constrained
        · rw [(hdec j (mem_range.1 hj) hj' i hi (by rintro rfl; exact hc hj')).2]
          ring
        · simp [hw, hj']
      rw [hm] at h
      have hwi : w i = v.getD i 0 := by simp [hw, hc]
      rw [← hwi] at h
      linear_combination w i * h
  have hsum : 0 ≤ (l - averageDiagonal size A) * ∑ i ∈ range size, w i * w i := by
    rw [mul_sum, ← sum_congr rfl hrow]
    have := hpsd w
    refine this.trans_eq ?_
    apply sum_congr rfl
    intro i _
    rw [mul_sum]
    apply sum_congr rfl
    intro j _
    ring
  by_cases hl : averageDiagonal size A ≤ l
  · exact Or.inl hl
  · right
    rw [not_le] at hl
    have h0 : ∑ i ∈ range size, w i * w i = 0 := by
      apply le_antisymm
      · by_contra hpos
        rw [not_le] at hpos
        nlinarith
      · exact sum_nonneg fun i _ => mul_self_nonneg _
    intro i hi hc
    have := (sum_eq_zero_iff_of_nonneg fun i _ => mul_self_nonneg (w i)).1 h0 i (mem_range.2 hi)
    have hwi : w i = v.getD i 0 := by simp [hw, hc]
    rw [hwi] at this
    exact mul_self_eq_zero.1 this

theorem positiveForm_units {c : K} (hc : 0 ≤ c) (size : ℕ) {A : ℕ → ℕ → K} (h : PositiveForm size A) :
    PositiveForm size (fun i j => c * A i j) := by
  intro w
  have : ∑ i ∈ range size, ∑ j ∈ range size, w i * (c * A i j) * w j
      = c * ∑ i ∈ range size, ∑ j ∈ range size, w i * A i j * w j := by
    rw [mul_sum]
    apply sum_congr rfl
    intro i _
    rw [mul_sum]
    apply sum_congr rfl
    intro j _
    ring
  rw [this]
  exact mul_nonneg hc (h w)

omit [LinearOrder K] [IsStrictOrderedRing K] in
theorem decoupled_units (c : K) (size : ℕ) {constrained : List ℕ} {A : ℕ → ℕ → K}
    (h : Decoupled size constrained A) : Decoupled size constrained (fun i j => c * A i j) := by
  intro k hk hkc i hi hik
  obtain ⟨h1, h2⟩ := h k hk hkc i hi hik
  exact ⟨by simp only [h1, mul_zero], by simp only [h2, mul_zero]⟩

omit [LinearOrder K] [IsStrictOrderedRing K] in
/-- The unit vector of a constrained dof is an eigenvector. -/
theorem unit_eigenpair (size : ℕ) (A : ℕ → ℕ → K) (constrained : List ℕ)
    (hdec : Decoupled size constrained A) (k : ℕ) (hk : k < size) (hkc : k ∈ constrained) :
    IsEigenpair size (shiftedMatrix size A constrained) 200
      ((List.range size).map fun i => if i = k then 1 else 0) := by
  have hget : ∀ j, j < size →
      ((List.range size).map fun i => if i = k then (1 : K) else 0).getD j 0 = if j = k then 1 else 0 := by
    intro j hj
    simp [List.getD, List.getElem?_map, List.getElem?_range hj]
  refine ⟨by simp, fun i hi => ?_⟩
  rw [matVec_shifted _ _ _ _ _ hi, hget i hi]
  have hm : matVec size A ((List.range size).map fun i => if i = k then (1 : K) else 0) i = A i k := by
    change ∑ j ∈ range size, A i j * List.getD _ j 0 = _
    rw [sum_eq_single_of_mem k (mem_range.2 hk)]
    · rw [hget k hk, if_pos rfl, mul_one]
    · intro j hj hjk
      rw [hget j (mem_range.1 hj), if_neg hjk, mul_zero]
  rw [hm]
  by_cases hik : i = k
  · subst hik
    rw [if_pos hkc, if_pos rfl]
    ring
  · rw [if_neg hik, (hdec k hk hkc i hi hik).2]
    ring

/-- **C89 is violated** by agglomerates with constrained dofs: for every positive semidefinite agglomerate
matrix with a constrained dof (decoupled from the others, as documented), and every eigensolver that returns
eigenvectors for smallest eigenvalues, in large enough units every returned vector vanishes on all dofs without
constraint: the agglomerate contributes nothing to the coarse space.  The eigenvalue of constrained dofs is the
constant 200 in all units. -/
theorem C89_constrained_violated (debug : Bool) (type : Option (List Char))
    (htype : type.getD (chars! "arpack") ∈ eigensolverNames) (n size : ℕ) (A : ℕ → ℕ → K)
    (constrained : List ℕ) (hpsd : PositiveForm size A) (hdec : Decoupled size constrained A)
    (havg : 0 < averageDiagonal size A) (k : ℕ) (hk : k < size) (hkc : k ∈ constrained)
    (S : EigenSolvers K) (h1 : EigenContract size S.arpack) (h2 : EigenContract size S.lanczos)
    (h3 : EigenContract size S.anasazi) (h4 : EigenContract size S.lapack) :
    ∃ c₀, 0 < c₀ ∧ ∀ c, c₀ ≤ c → ∀ (es : List K) (vs : List (List K)) (diag : List K),
      localMatrixBased debug type n size (fun i j => c * A i j) constrained S = .ok (es, vs, diag) →
      ∀ (q : ℕ) (m : K) (v : List K), es[q]? = some m → vs[q]? = some v →
        IsSmallest size (shiftedMatrix size (fun i j => c * A i j) constrained)
          (m + averageDiagonal size (fun i j => c * A i j)) →
        ∀ i, i < size → i ∉ constrained → v.getD i 0 = 0 := by
  refine ⟨201 / averageDiagonal size A, by positivity, ?_⟩
  intro c hc es vs diag hrun q m v hm hv hsmall
  have hc' : 201 ≤ c * averageDiagonal size A := by rwa [div_le_iff₀ havg] at hc
  have hcpos : 0 < c := lt_of_lt_of_le (by positivity) hc
  have hp := localMatrixBased_pair debug type htype n size _ constrained S h1 h2 h3 h4 es vs diag hrun q m v
    hm hv
  have hu := unit_eigenpair size _ constrained (decoupled_units c size hdec) k hk hkc
  have hle := hsmall 200 _ hu ⟨k, hk, by
    simp [List.getD, List.getElem?_map, List.getElem?_range hk]⟩
  rcases shifted_dichotomy size _ constrained (positiveForm_units hcpos.le size hpsd)
    (decoupled_units c size hdec) _ v hp with h | h
  · rw [averageDiagonal_units] at h hle
    linarith
  · exact h

/-- **C89 is violated** with the eigensolver `lapack`: for every positive semidefinite agglomerate matrix, with
or without (decoupled) constrained dofs, in large enough units LAPACK finds nothing below its upper bound 100 and
set-up reads past the end. -/
theorem C89_lapack_violated (debug : Bool) (n size : ℕ) (hn : 0 < n) (A : ℕ → ℕ → K)
    (constrained : List ℕ) (hpsd : PositiveForm size A) (hdec : Decoupled size constrained A)
    (havg : 0 < averageDiagonal size A)
    (S : EigenSolvers K) (hS : EigenContract size S.lapack)
    (hbound : ∀ (M : ℕ → ℕ → K) (l : K), l ∈ (S.lapack M).1 → -(1 / 2) < l ∧ l ≤ 100)
    (hnonzero : ∀ (M : ℕ → ℕ → K) (v : List K), v ∈ (S.lapack M).2 →
      ∃ i, i < size ∧ v.getD i 0 ≠ 0) :
    ∃ c₀, 0 < c₀ ∧ ∀ c, c₀ ≤ c → ∃ w, localMatrixBased debug (some (chars! "lapack")) n size
      (fun i j => c * A i j) constrained S = .ub w := by
  refine ⟨101 / averageDiagonal size A, by positivity, ?_⟩
  intro c hc
  have hc' : 101 ≤ c * averageDiagonal size A := by rwa [div_le_iff₀ havg] at hc
  have hcpos : 0 < c := lt_of_lt_of_le (by positivity) hc
  set A' : ℕ → ℕ → K := fun i j => c * A i j with hA'
  have hempty : (S.lapack (shiftedMatrix size A' constrained)).1.length = 0 := by
    rw [List.length_eq_zero_iff, List.eq_nil_iff_forall_not_mem]
    intro l hl
    obtain ⟨q, hq, rfl⟩ := List.getElem_of_mem hl
    obtain ⟨hlen, hp⟩ := hS (shiftedMatrix size A' constrained)
    have hq2 : q < (S.lapack (shiftedMatrix size A' constrained)).2.length := by omega
    have hpair := hp q _ _ (List.getElem?_eq_getElem hq) (List.getElem?_eq_getElem hq2)
    obtain ⟨i, hi, hvi⟩ := hnonzero _ _ (List.getElem_mem hq2)
    have hb := (hbound _ _ hl).2
    generalize (S.lapack (shiftedMatrix size A' constrained)).1[q] = l at *
    generalize (S.lapack (shiftedMatrix size A' constrained)).2[q] = v at *
    rcases shifted_dichotomy size A' constrained (positiveForm_units hcpos.le size hpsd)
      (decoupled_units c size hdec) _ v hpair with h | h
    · rw [averageDiagonal_units] at h
      linarith
    · have hic : i ∈ constrained := by
        by_contra hc
        exact hvi (h i hi hc)
      have hrow := hpair.2 i hi
      rw [matVec_shifted _ _ _ _ _ hi, if_pos hic] at hrow
      have hm : matVec size A' v i = A' i i * v.getD i 0 := by
        change ∑ j ∈ range size, A' i j * v.getD j 0 = _
        refine sum_eq_single_of_mem i (mem_range.2 hi) ?_
        intro j hj hji
        have h0 : A' i j = 0 := (decoupled_units c size hdec i hi hic j (mem_range.1 hj) hji).1
        rw [h0, zero_mul]
      rw [hm] at hrow
      have h0 : (200 - l) * v.getD i 0 = 0 := by linear_combination hrow
      rcases mul_eq_zero.1 h0 with h0 | h0
      · linarith
      · exact hvi h0
  refine ⟨"lapack_eigenvalues[i]", ?_⟩
  unfold localMatrixBased solveMatrixBased takeLapack
  simp only [Option.getD_some]
  rw [if_neg (by decide), if_neg (by decide), if_neg (by decide), if_pos trivial,
    if_pos (Or.inl (by omega)), Outcome.ub_bind]

end

/-! ## Examples -/

example : ∃ c₀ : ℚ, 0 < c₀ ∧ ∀ c : ℚ, 0 < c → c ≤ c₀ → ∀ apply : (ℕ → ℚ) → (ℕ → ℚ),
    IsMatrix 3 (fun i k => c * exTri i k) apply →
      ∀ rank, transposeMultiply 2 (1 / 10 ^ 14) exB 3 (fun i => i / 2) apply rank = [] :=
  C89_product_violated 2 3 (1 / 10 ^ 14) (by norm_num) exB exB_wf 3 (fun i => i / 2) exTri

theorem exAgg_psd : PositiveForm 3 exAgg := by
  intro w
  have : ∑ i ∈ range 3, ∑ j ∈ range 3, w i * exAgg i j * w j = (w 0 - w 1) ^ 2 + w 2 ^ 2 := by
    simp [sum_range_succ, exAgg]
    ring
  rw [this]
  positivity

theorem exAgg_decoupled : Decoupled 3 [2] exAgg := by
  intro k hk hkc i hi hik
  simp only [List.mem_cons, List.not_mem_nil, or_false] at hkc
  subst hkc
  have : i = 0 ∨ i = 1 := by omega
  rcases this with rfl | rfl <;> exact ⟨rfl, rfl⟩

/-- The matrix given to the eigensolver in units 300 times smaller. -/
def exLarge : ℕ → ℕ → ℚ := shiftedMatrix 3 (fun i j => 300 * exAgg i j) [2]

open Classical in
/-- A solver that knows the smallest pair of this matrix, and nothing of others. -/
noncomputable def exLargeSolve (M : ℕ → ℕ → ℚ) : List ℚ × List (List ℚ) :=
  if M = exLarge then ([200], [[0, 0, 1]]) else ([], [])

theorem exLargeSolve_contract : EigenContract 3 exLargeSolve := by
  intro M
  unfold exLargeSolve
  split_ifs with h
  · refine ⟨rfl, fun k l v hl hv => ?_⟩
    match k with
    | 0 =>
      simp only [List.getElem?_cons_zero, Option.some.injEq] at hl hv
      subst hl hv h
      exact ⟨rfl, by decide +kernel⟩
    | k + 1 => simp at hl
  · exact ⟨rfl, fun k l v hl => by simp at hl⟩

/-- The smallest eigenvalue of the matrix is the constant 200. -/
theorem exLarge_smallest : IsSmallest 3 exLarge 200 := by
  rintro l v hv ⟨i, hi, hvi⟩
  have h0 := hv.2 0 (by omega)
  have h1 := hv.2 1 (by omega)
  have h2 := hv.2 2 (by omega)
  have e : ∀ i, matVec 3 exLarge v i
      = exLarge i 0 * v.getD 0 0 + exLarge i 1 * v.getD 1 0 + exLarge i 2 * v.getD 2 0 := by
    intro i
    simp [matVec, List.range_succ]
    ring
  rw [e] at h0 h1 h2
  rw [show exLarge 0 0 = 600 by decide +kernel, show exLarge 0 1 = -300 by decide +kernel,
    show exLarge 0 2 = 0 by decide +kernel] at h0
  rw [show exLarge 1 0 = -300 by decide +kernel, show exLarge 1 1 = 600 by decide +kernel,
    show exLarge 1 2 = 0 by decide +kernel] at h1
  rw [show exLarge 2 0 = 0 by decide +kernel, show exLarge 2 1 = 0 by decide +kernel,
    show exLarge 2 2 = 200 by decide +kernel] at h2
  have f1 : (l - 300) * (v.getD 0 0 + v.getD 1 0) = 0 := by linear_combination -h0 - h1
  have f2 : (l - 900) * (v.getD 0 0 - v.getD 1 0) = 0 := by linear_combination -h0 + h1
  have f3 : (l - 200) * v.getD 2 0 = 0 := by linear_combination -h2
  by_contra hl
  rw [not_le] at hl
  have g1 := (mul_eq_zero.1 f1).resolve_left (by intro h; linarith)
  have g2 := (mul_eq_zero.1 f2).resolve_left (by intro h; linarith)
  have g3 := (mul_eq_zero.1 f3).resolve_left (by intro h; linarith)
  have k0 : v.getD 0 0 = 0 := by linarith
  have k1 : v.getD 1 0 = 0 := by linarith
  have : i = 0 ∨ i = 1 ∨ i = 2 := by omega
  rcases this with rfl | rfl | rfl
  · exact hvi k0
  · exact hvi k1
  · exact hvi g3

/-- Two free dofs and a constrained one: in units 300 times smaller the run returns the unit vector of the
constrained dof, which has the smallest eigenvalue. -/
example : (∃ es vs diag, localMatrixBased true (some (chars! "lanczos")) 1 3 (fun i j => 300 * exAgg i j) [2]
      ⟨exLargeSolve, exLargeSolve, exLargeSolve, exLargeSolve⟩ = .ok (es, vs, diag) ∧
      es = [200 - averageDiagonal 3 fun i j => 300 * exAgg i j] ∧ vs = [[0, 0, 1]]) ∧
    IsSmallest 3 (shiftedMatrix 3 (fun i j => 300 * exAgg i j) [2]) 200 ∧
    ∃ c₀, 0 < c₀ ∧ ∀ c, c₀ ≤ c → ∀ (es : List ℚ) (vs : List (List ℚ)) (diag : List ℚ),
      localMatrixBased true (some (chars! "lanczos")) 1 3 (fun i j => c * exAgg i j) [2]
        ⟨exLargeSolve, exLargeSolve, exLargeSolve, exLargeSolve⟩ = .ok (es, vs, diag) →
      ∀ (q : ℕ) (m : ℚ) (v : List ℚ), es[q]? = some m → vs[q]? = some v →
        IsSmallest 3 (shiftedMatrix 3 (fun i j => c * exAgg i j) [2])
          (m + averageDiagonal 3 (fun i j => c * exAgg i j)) →
        ∀ i, i < 3 → i ∉ [2] → v.getD i 0 = 0 := by
  refine ⟨⟨_, _, (List.range 3).map fun i => 300 * exAgg i i, ?_, rfl, rfl⟩, exLarge_smallest,
    C89_constrained_violated true (some (chars! "lanczos")) (by decide) 1 3 exAgg [2] exAgg_psd exAgg_decoupled
      (by decide +kernel) 2 (by omega) (by simp) _ exLargeSolve_contract exLargeSolve_contract
      exLargeSolve_contract exLargeSolve_contract⟩
  · have hs : exLargeSolve (shiftedMatrix 3 (fun i j => 300 * exAgg i j) [2]) = ([200], [[0, 0, 1]]) :=
      if_pos rfl
    unfold localMatrixBased solveMatrixBased
    simp only [Option.getD_some]
    rw [if_neg (by decide), if_pos trivial, hs]
    rfl

example : ∃ c₀ : ℚ, 0 < c₀ ∧ ∀ c, c₀ ≤ c → ∃ w, localMatrixBased false (some (chars! "lapack")) 1 3
    (fun i j => c * exAgg i j) [2] exSolvers = .ub w :=
  C89_lapack_violated false 1 3 (by omega) exAgg [2] exAgg_psd exAgg_decoupled (by decide +kernel) exSolvers
    exSolve_contract
    (by
      intro M l hl
      simp only [exSolvers, exSolve] at hl
      split_ifs at hl
      · simp only [List.mem_cons, List.not_mem_nil, or_false] at hl
        rcases hl with rfl | rfl <;> norm_num
      · simp at hl)
    (by
      intro M v hv
      simp only [exSolvers, exSolve] at hv
      split_ifs at hv
      · simp only [List.mem_cons, List.not_mem_nil, or_false] at hv
        rcases hv with rfl | rfl
        · exact ⟨0, by omega, by norm_num⟩
        · exact ⟨0, by omega, by norm_num⟩
      · simp at hv)

end Mfmg
