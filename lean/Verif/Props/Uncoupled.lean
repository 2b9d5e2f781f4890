import Verif.Lemmas.Uncoupled
import Verif.Props.AnyBasis

/-!
# C122: parts of the problem that are not coupled
-/

set_option autoImplicit false

namespace Mfmg

open Spec Matrix

section

variable {K : Type} [Field K] [LinearOrder K]

omit [LinearOrder K] in
/-- Two hierarchies whose components are the same in the part. -/
theorem vmult_agree {dims : ℕ → ℕ} (S : ∀ l, Set (Fin (dims l))) (H H' : Hierarchy (fun l => Fin (dims l) → K))
    (D D' : Data K (fun l => Fin (dims l) → K)) (hH : IsLinear H D) (hH' : IsLinear H' D')
    (hn : H'.numLevels = H.numLevels) (hs : H'.nSmoothingSteps = H.nSmoothingSteps)
    (hp : H'.isPreconditioner = H.isPreconditioner)
    (hmode : H.isPreconditioner = true ∨ 2 ≤ H.numLevels)
    (hA : ∀ l x x', AgreeOn (S l) x x' → AgreeOn (S l) (D.A l x) (D'.A l x'))
    (hB : ∀ l x x', AgreeOn (S l) x x' → AgreeOn (S l) (D.B l x) (D'.B l x'))
    (hR : ∀ l x x', AgreeOn (S l) x x' → AgreeOn (S (l + 1)) (D.R l x) (D'.R l x'))
    (hP : ∀ l x x', AgreeOn (S (l + 1)) x x' → AgreeOn (S l) (D.P l x) (D'.P l x'))
    (hC : ∀ l x x', AgreeOn (S l) x x' → AgreeOn (S l) (D.C l x) (D'.C l x')) :
    ∀ fresh fresh' b b' x x', AgreeOn (S 0) b b' → AgreeOn (S 0) x x' →
      ∃ y y', (H.vmult fresh x b).result = .ok y ∧ (H'.vmult fresh' x' b').result = .ok y' ∧ AgreeOn (S 0) y y' := by
  intro fresh fresh' b b' x x' hb hx
  refine ⟨_, _, C04_cycle_is_textbook H D hH fresh x b hmode,
    C04_cycle_is_textbook H' D' hH' fresh' x' b' (by rw [hp, hn]; exact hmode), ?_⟩
  rw [hp, hn, hs]
  refine cycle_agree S D D' hA hB hR hP hC _ _ 0 hb ?_
  split_ifs
  · exact fun _ _ => rfl
  · exact hx

/-- **C122** (partial: the restriction matrices do not couple the parts).  Two problems that are the same in a part
which is coupled to the rest neither by the matrices nor by the restriction matrices: if starts and right-hand sides are
the same in the part, so are the results of every application, whatever the rest is; for all four smoothers, any number
of levels and processes, and any two exact coarse solvers.  The full claim does not ask anything of the restriction
matrices but that they are right for the problem; it is false, see `C122_mixed_violated`. -/
theorem C122_parts_partial (debug timer : Bool) (p : Params) (type : Option (List Char)) (k : SmootherKind)
    (hk : dealiiSmoother debug true type = .ok k) (dims : ℕ → ℕ)
    (procs : ∀ l, List (List (Fin (dims l)))) (graph graph' : ∀ l, Fin (dims l) → Fin (dims l) → Bool)
    (A A' : Matrix (Fin (dims 0)) (Fin (dims 0)) K) (hA : IsSpd A) (hA' : IsSpd A')
    (R R' : ∀ l, Matrix (Fin (dims (l + 1))) (Fin (dims l)) K) (hR : ∀ l, IndependentRows (R l))
    (hR' : ∀ l, IndependentRows (R' l))
    (solve solve' : ∀ l, Matrix (Fin (dims l)) (Fin (dims l)) K → (Fin (dims l) → K) → Fin (dims l) → K)
    (hsolve : ∀ l, SolvesExactly (solve l)) (hsolve' : ∀ l, SolvesExactly (solve' l))
    (hpos : 0 < p.maxLevels.getD 2) (hfast : p.fastAp.getD false = false)
    (hmode : p.isPreconditioner.getD true = true ∨ 2 ≤ p.maxLevels.getD 2)
    (S : ∀ l, Set (Fin (dims l))) (hSA : Separates A (S 0) (S 0)) (hSA' : Separates A' (S 0) (S 0))
    (hSR : ∀ l, Separates (R l) (S (l + 1)) (S l)) (hSR' : ∀ l, Separates (R' l) (S (l + 1)) (S l))
    (hsame : SamePart (S 0) (S 0) A A') (hsameR : ∀ l, SamePart (S (l + 1)) (S l) (R l) (R' l))
    (hgraph : ∀ l i j, i ∈ S l → j ∈ S l → graph l i j = graph' l i j) :
    ∃ H H' : Hierarchy (fun l => Fin (dims l) → K),
      (buildHierarchy debug timer (some p)
        (.ok (fullHelpers debug type dims procs graph A R solve))).result = .ok H ∧
      (buildHierarchy debug timer (some p)
        (.ok (fullHelpers debug type dims procs graph' A' R' solve'))).result = .ok H' ∧
      ∀ fresh fresh' b b' x x', AgreeOn (S 0) b b' → AgreeOn (S 0) x x' →
        ∃ y y', (H.vmult fresh x b).result = .ok y ∧ (H'.vmult fresh' x' b').result = .ok y' ∧
          AgreeOn (S 0) y y' := by
  have hc := coarse_uncoupled hSA hSA' hSR hSR' hsame hsameR
  have hop : ∀ l (x x' : Fin (dims l) → K), AgreeOn (S l) x x' →
      AgreeOn (S l) ((coarseMatrix dims A R l).mulVec x) ((coarseMatrix dims A' R' l).mulVec x') :=
    fun l x x' h => mulVec_agree (hc l).1 (hc l).2.1 (hc l).2.2 h
  have hinv : ∀ l (x x' : Fin (dims l) → K), AgreeOn (S l) x x' →
      AgreeOn (S l) ((coarseMatrix dims A R l)⁻¹.mulVec x) ((coarseMatrix dims A' R' l)⁻¹.mulVec x') := by
    intro l x x' h
    refine solution_agree (hc l).1 (hc l).2.1 (hc l).2.2 (coarseMatrix_spd dims A hA R hR l) ?_
    rw [mulVec_inv (spd_det (coarseMatrix_spd dims A hA R hR l)),
      mulVec_inv (spd_det (coarseMatrix_spd dims A' hA' R' hR' l))]
    exact h
  cases hrel : k.relaxation with
  | some kind =>
    rw [fullHelpers_relaxation debug type k kind hk hrel, fullHelpers_relaxation debug type k kind hk hrel]
    obtain ⟨H, e, h1, h2, h3, h4⟩ := matrixHelpers_build debug timer p type k kind hk hrel dims procs A hA R hR
      solve hsolve hpos hfast
    obtain ⟨H', e', h1', h2', h3', h4'⟩ := matrixHelpers_build debug timer p type k kind hk hrel dims procs A' hA' R' hR'
      solve' hsolve' hpos hfast
    exact ⟨H, H', e, e', vmult_agree S H H' _ _ h1 h1' (h2'.trans h2.symm) (h4'.trans h4.symm)
      (h3'.trans h3.symm) (by rw [h3, h2]; exact hmode.imp id (fun h => by omega)) hop
      (fun l x x' h => relaxVmult_agree kind (hc l).1 (hc l).2.1 (hc l).2.2 (procs l) h)
      (fun l x x' h => mulVec_agree (hSR l) (hSR' l) (hsameR l) h)
      (fun l x x' h => mulVec_agree (hSR l).transpose (hSR' l).transpose (hsameR l).transpose h) hinv⟩
  | none =>
    obtain rfl : k = .ilu := by cases k <;> simp_all [SmootherKind.relaxation]
    obtain ⟨H, e, h1, h2, h3, h4⟩ := fullHelpers_build debug timer p type hk dims procs graph A hA R hR
      solve hsolve hpos hfast
    obtain ⟨H', e', h1', h2', h3', h4'⟩ := fullHelpers_build debug timer p type hk dims procs graph' A' hA' R' hR'
      solve' hsolve' hpos hfast
    exact ⟨H, H', e, e', vmult_agree S H H' _ _ h1 h1' (h2'.trans h2.symm) (h4'.trans h4.symm)
      (h3'.trans h3.symm) (by rw [h3, h2]; exact hmode.imp id (fun h => by omega)) hop
      (fun l x x' h => iluVmult_agree (hgraph l) (hc l).1 (hc l).2.1 (hc l).2.2 (procs l) h)
      (fun l x x' h => mulVec_agree (hSR l) (hSR' l) (hsameR l) h)
      (fun l x x' h => mulVec_agree (hSR l).transpose (hSR' l).transpose (hsameR l).transpose h) hinv⟩

end

section violated

/-- Two chains of two unknowns each, held at their ends, without a connection. -/
def twoChains : Matrix (Fin 4) (Fin 4) ℚ := !![2, -1, 0, 0; -1, 2, 0, 0; 0, 0, 2, -1; 0, 0, -1, 2]

/-- The constant vector on both chains. -/
def allOnes : Matrix (Fin 1) (Fin 4) ℚ := !![1, 1, 1, 1]

/-- The second chain. -/
def secondChain : Set (Fin 4) := {2, 3}

theorem twoChains_form (v : Fin 4 → ℚ) : v ⬝ᵥ twoChains.mulVec v
    = v ⬝ᵥ v + (v 0 - v 1) ^ 2 + (v 2 - v 3) ^ 2 := by
  simp [twoChains, Matrix.mulVec, dotProduct, Fin.sum_univ_four]
  ring

theorem dot_self_nonneg (v : Fin 4 → ℚ) : 0 ≤ v ⬝ᵥ v := Finset.sum_nonneg fun i _ => mul_self_nonneg (v i)

theorem twoChains_spd : IsSpd twoChains := by
  refine ⟨by ext i j; fin_cases i <;> fin_cases j <;> rfl, ?_⟩
  intro v hv
  rw [twoChains_form]
  have h1 : 0 < v ⬝ᵥ v := by
    refine lt_of_le_of_ne (dot_self_nonneg v) fun h => hv ?_
    exact dotProduct_self_eq_zero.1 h.symm
  nlinarith [sq_nonneg (v 0 - v 1), sq_nonneg (v 2 - v 3)]

theorem allOnes_independent : IndependentRows allOnes := by
  intro y hy
  have h0 := congrFun hy 0
  simp [allOnes, Matrix.mulVec, dotProduct] at h0
  exact funext fun i => by fin_cases i; exact h0

/-- A Jacobi step on the two chains. -/
theorem twoChains_jacobi (procs : List (List (Fin 4))) (h : ListsAll procs.flatten) (e : Fin 4 → ℚ) :
    e - relaxVmult .jacobi twoChains procs (twoChains.mulVec e)
      = ![e 1 / 2, e 0 / 2, e 3 / 2, e 2 / 2] := by
  rw [relaxVmult_jacobi_all h]
  ext i
  fin_cases i <;> simp [twoChains, Matrix.mulVec, dotProduct, Fin.sum_univ_four] <;> ring

/-- **C122** does not hold if an eigenvector extends over both parts, although it is an eigenvector with the smallest
eigenvalue of the matrix: with a right-hand side that vanishes on the second chain the result is zero there if the
right-hand side vanishes on the first chain too, but not in general. -/
theorem C122_mixed_violated (debug timer : Bool) (type : Option (List Char))
    (hk : dealiiSmoother debug true type = .ok .jacobi) (procs : List (List (Fin 4))) (hprocs : ListsAll procs.flatten)
    (solve : ∀ m, Matrix (Fin m) (Fin m) ℚ → (Fin m → ℚ) → Fin m → ℚ) (hsolve : ∀ m, SolvesExactly (solve m)) :
    ∃ (A : Matrix (Fin 4) (Fin 4) ℚ) (R : Matrix (Fin 1) (Fin 4) ℚ), IsSpd A ∧ IndependentRows R ∧
      Separates A secondChain secondChain ∧ A.mulVec (R 0) = R 0 ∧ (∀ v, v ⬝ᵥ v ≤ v ⬝ᵥ A.mulVec v) ∧
      ∃ b b' y y', AgreeOn secondChain b b' ∧ (∀ x, TwoLevelGives debug timer {} type procs solve A R x b y ∧
        TwoLevelGives debug timer {} type procs solve A R x b' y') ∧ ¬ AgreeOn secondChain y y' := by
  have hgal : galerkin allOnes twoChains = !![4] := by
    ext i j
    fin_cases i
    fin_cases j
    simp [galerkin, allOnes, twoChains, Matrix.mul_apply, Fin.sum_univ_four]
    norm_num
  have hcorr : corrected twoChains allOnes ![1 / 2, 1 / 2, 0, 0] = ![1 / 4, 1 / 4, -1 / 4, -1 / 4] := by
    rw [corrected_eq twoChains_spd allOnes_independent _ (z := ![1 / 4]) (by
      rw [hgal]
      ext i
      fin_cases i
      simp [allOnes, twoChains, Matrix.mulVec, dotProduct, Fin.sum_univ_four]
      norm_num)]
    ext i
    fin_cases i <;> simp [allOnes, Matrix.mulVec, dotProduct] <;> norm_num
  have hcorr0 : corrected twoChains allOnes 0 = 0 := by
    simp [corrected]
  have hy : ∀ x, TwoLevelGives debug timer {} type procs solve twoChains allOnes x ![1, 1, 0, 0]
      ![7 / 8, 7 / 8, 1 / 8, 1 / 8] := by
    intro x
    obtain ⟨y, h1, h2⟩ := twoLevelGives_err debug timer {} type _ .jacobi hk rfl procs solve hsolve twoChains_spd
      allOnes_independent rfl rfl x ![1, 1, 0, 0] ![1, 1, 0, 0] (by
        ext i
        fin_cases i <;> simp [twoChains, Matrix.mulVec, dotProduct, Fin.sum_univ_four] <;> norm_num) 0 rfl
    have h3 : ![1, 1, 0, 0] - y = (![1 / 8, 1 / 8, -1 / 8, -1 / 8] : Fin 4 → ℚ) := by
      refine h2.trans ?_
      change ((fun e => e - relaxVmult .jacobi twoChains procs (twoChains.mulVec e)) (corrected twoChains allOnes
        ((fun e => e - relaxVmult .jacobi twoChains procs (twoChains.mulVec e)) (![1, 1, 0, 0] - 0)))) = _
      simp only [twoChains_jacobi procs hprocs]
      have e1 : (![(![1, 1, 0, 0] - 0 : Fin 4 → ℚ) 1 / 2, (![1, 1, 0, 0] - 0 : Fin 4 → ℚ) 0 / 2,
          (![1, 1, 0, 0] - 0 : Fin 4 → ℚ) 3 / 2, (![1, 1, 0, 0] - 0 : Fin 4 → ℚ) 2 / 2] : Fin 4 → ℚ)
            = ![1 / 2, 1 / 2, 0, 0] := by
        ext i
        fin_cases i <;> simp
      rw [e1, hcorr]
      ext i
      fin_cases i <;> simp <;> norm_num
    have h4 : y = ![7 / 8, 7 / 8, 1 / 8, 1 / 8] := by
      rw [← sub_sub_cancel ![1, 1, 0, 0] y, h3]
      ext i
      fin_cases i <;> simp <;> norm_num
    rwa [h4] at h1
  have hy0 : ∀ x, TwoLevelGives debug timer {} type procs solve twoChains allOnes x 0 0 := by
    intro x
    obtain ⟨y, h1, h2⟩ := twoLevelGives_err debug timer {} type _ .jacobi hk rfl procs solve hsolve twoChains_spd
      allOnes_independent rfl rfl x 0 0 (Matrix.mulVec_zero _) 0 rfl
    have h3 : 0 - y = 0 := by
      refine h2.trans ?_
      change ((fun e => e - relaxVmult .jacobi twoChains procs (twoChains.mulVec e)) (corrected twoChains allOnes
        ((fun e => e - relaxVmult .jacobi twoChains procs (twoChains.mulVec e)) (0 - 0)))) = _
      simp only [twoChains_jacobi procs hprocs]
      have e1 : (![(0 - 0 : Fin 4 → ℚ) 1 / 2, (0 - 0 : Fin 4 → ℚ) 0 / 2, (0 - 0 : Fin 4 → ℚ) 3 / 2,
          (0 - 0 : Fin 4 → ℚ) 2 / 2] : Fin 4 → ℚ) = 0 := by
        ext i
        fin_cases i <;> simp
      rw [e1, hcorr0]
      ext i
      fin_cases i <;> simp
    have h4 : y = 0 := by rw [← sub_sub_cancel 0 y, h3, sub_zero]
    rwa [h4] at h1
  refine ⟨twoChains, allOnes, twoChains_spd, allOnes_independent, ?_, ?_, ?_, ![1, 1, 0, 0], 0, _, _, ?_,
    fun x => ⟨hy x, hy0 x⟩, ?_⟩
  · intro i j
    fin_cases i <;> fin_cases j <;> simp [twoChains, secondChain]
  · ext i
    fin_cases i <;> simp [twoChains, allOnes, Matrix.mulVec, dotProduct, Fin.sum_univ_four] <;> norm_num
  · intro v
    rw [twoChains_form]
    nlinarith [sq_nonneg (v 0 - v 1), sq_nonneg (v 2 - v 3)]
  · rintro i (rfl | rfl) <;> rfl
  · intro h
    have := h 2 (Or.inl rfl)
    simp at this

end violated

section examples

example := C122_mixed_violated true true (some "Jacobi".toList) rfl [[0, 2], [1, 3]]
  ⟨by decide, by decide⟩ exInverse exInverse_exact

/-- Two chains, the second of which is stiffer in the other problem. -/
def otherChains (c : ℚ) : Matrix (Fin 4) (Fin 4) ℚ :=
  !![2, -1, 0, 0; -1, 2, 0, 0; 0, 0, 2 * c, -c; 0, 0, -c, 2 * c]

theorem otherChains_spd {c : ℚ} (hc : 0 < c) : IsSpd (otherChains c) := by
  refine ⟨by ext i j; fin_cases i <;> fin_cases j <;> rfl, ?_⟩
  intro v hv
  have e : v ⬝ᵥ (otherChains c).mulVec v
      = v 0 ^ 2 + v 1 ^ 2 + (v 0 - v 1) ^ 2 + c * (v 2 ^ 2 + v 3 ^ 2 + (v 2 - v 3) ^ 2) := by
    simp [otherChains, Matrix.mulVec, dotProduct, Fin.sum_univ_four]
    ring
  rw [e]
  by_contra h
  have h1 : 0 ≤ c * (v 2 ^ 2 + v 3 ^ 2 + (v 2 - v 3) ^ 2) := by positivity
  have h2 : c * (v 2 ^ 2 + v 3 ^ 2 + (v 2 - v 3) ^ 2) ≤ 0 := by
    nlinarith [sq_nonneg (v 0), sq_nonneg (v 1), sq_nonneg (v 0 - v 1)]
  have h3 : v 2 ^ 2 + v 3 ^ 2 + (v 2 - v 3) ^ 2 ≤ 0 := nonpos_of_mul_nonpos_right h2 hc
  have e0 : v 0 = 0 := by nlinarith [sq_nonneg (v 0), sq_nonneg (v 1), sq_nonneg (v 0 - v 1)]
  have e1 : v 1 = 0 := by nlinarith [sq_nonneg (v 0), sq_nonneg (v 1), sq_nonneg (v 0 - v 1)]
  have e2 : v 2 = 0 := by nlinarith [sq_nonneg (v 2), sq_nonneg (v 3), sq_nonneg (v 2 - v 3)]
  have e3 : v 3 = 0 := by nlinarith [sq_nonneg (v 2), sq_nonneg (v 3), sq_nonneg (v 2 - v 3)]
  exact hv (by ext i; fin_cases i <;> assumption)

/-- One vector on each chain. -/
def oneEach : Matrix (Fin 2) (Fin 4) ℚ := !![1, 1, 0, 0; 0, 0, 1, 1]

theorem oneEach_independent : IndependentRows oneEach := by
  intro y hy
  have h0 := congrFun hy 0
  have h2 := congrFun hy 2
  simp [oneEach, Matrix.mulVec, dotProduct, Fin.sum_univ_two] at h0 h2
  exact funext fun i => by fin_cases i <;> assumption

/-- The first part of each level. -/
def firstParts : ∀ l, Set (Fin (twoLevels 4 2 l))
  | 0 => ({0, 1} : Set (Fin 4))
  | _ + 1 => ({0} : Set (Fin 2))

theorem oneEach_levels (l : ℕ) : IndependentRows (twoLevelRestriction oneEach l) := by
  match l with
  | 0 => exact oneEach_independent
  | l + 1 => exact one_independent 2

theorem otherChains_separates (c : ℚ) : Separates (otherChains c) (firstParts 0) (firstParts 0) := by
  change ∀ i j : Fin 4, otherChains c i j ≠ 0 → ((i = 0 ∨ i = 1) ↔ (j = 0 ∨ j = 1))
  intro i j
  fin_cases i <;> fin_cases j <;> simp [otherChains]

theorem otherChains_same (c d : ℚ) : SamePart (firstParts 0) (firstParts 0) (otherChains c) (otherChains d) := by
  change ∀ i ∈ ({0, 1} : Set (Fin 4)), ∀ j ∈ ({0, 1} : Set (Fin 4)), otherChains c i j = otherChains d i j
  rintro i (rfl | rfl) j (rfl | rfl) <;> simp [otherChains]

theorem oneEach_separates (l : ℕ) :
    Separates (twoLevelRestriction oneEach l) (firstParts (l + 1)) (firstParts l) := by
  match l with
  | 0 =>
    change ∀ (i : Fin 2) (j : Fin 4), oneEach i j ≠ 0 → (i = 0 ↔ (j = 0 ∨ j = 1))
    intro i j
    fin_cases i <;> fin_cases j <;> simp [oneEach]
  | l + 1 =>
    change ∀ (i j : Fin 2), (1 : Matrix (Fin 2) (Fin 2) ℚ) i j ≠ 0 → (i = 0 ↔ j = 0)
    intro i j
    fin_cases i <;> fin_cases j <;> simp

example :=
  C122_parts_partial true true {} none _ rfl (twoLevels 4 2) (twoLevelRows [[0, 2], [1, 3]] 2)
    (fun _ _ _ => true) (fun _ _ _ => true) (otherChains 1) (otherChains 7) (otherChains_spd (by norm_num))
    (otherChains_spd (by norm_num)) (twoLevelRestriction oneEach) (twoLevelRestriction oneEach)
    oneEach_levels oneEach_levels
    (fun l => exInverse (twoLevels 4 2 l)) (fun l => exInverse (twoLevels 4 2 l)) (fun _ => exInverse_exact _)
    (fun _ => exInverse_exact _) (by decide) rfl (Or.inl rfl) firstParts (otherChains_separates 1)
    (otherChains_separates 7) oneEach_separates oneEach_separates
    (otherChains_same 1 7) (fun _ _ _ _ _ => rfl) (fun _ _ _ _ _ => rfl)

end examples

end Mfmg
