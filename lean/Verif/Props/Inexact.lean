import Verif.Lemmas.Inexact
import Verif.Lemmas.SlowCycle
import Verif.Examples.LooseChain

/-!
# Eigenvectors computed up to a tolerance (C98)
-/

set_option autoImplicit false

namespace Mfmg

open Spec

section

variable {K : Type} [Field K] [LinearOrder K] [IsStrictOrderedRing K]

/-- **C98**, rate: if the problem is the sum of the agglomerate matrices, the eigenvectors were computed up to a
tolerance, and no diagonal element of an agglomerate is more than `kappa` times its omitted eigenvalues less
`tol2 / lower`, where `tol2` is the square of the tolerance and `lower` bounds from below the eigenvalues of the
vectors computed inexactly, then `m` standalone two-level cycles multiply the energy of the error at most by
`(1 - 1 / (s² kappa)) ^ m`. Missing in the full claim: a tolerance that does not depend on `lower`. -/
theorem C98_rate_partial (debug dynAdds timer : Bool) (p : Params) (type : Option (List Char))
    (htype : dealiiSmoother debug true type = .ok .symmetricGaussSeidel ∨
      dealiiSmoother debug true type = .ok .gaussSeidel)
    (gdiag : ℕ → K) (css : List (List (CopyData K))) (hcs : ∀ cs ∈ css, ∀ c ∈ cs, c.WellFormed) (n : ℕ)
    (hn : ∀ c ∈ css.flatten, ∀ x ∈ c.dofMap, x < n) (hown : OwnIndependent css.flatten)
    (aggs : List (AggData n K)) (haggs : css.flatten = aggs.map AggData.copy)
    (exact loose : AggData n K → List (List K)) (tol2 lower : AggData n K → K)
    (hlower : ∀ a ∈ aggs, 0 < lower a)
    (hsolved : ∀ a ∈ aggs, a.SolvedUpTo (exact a) (loose a) (tol2 a) (lower a))
    (hpos : ∀ a ∈ aggs, ∀ i : Fin n, i.val ∈ a.copy.dofMap → a.matrix i i ≠ 0)
    (A : Matrix (Fin n) (Fin n) K) (hA : IsSpd A) (hsum : A = (aggs.map AggData.matrix).sum)
    (hdiag : ∀ i : Fin n, gdiag i.val = A i i) (s : ℕ) (hs : AtMostPerRow A s) (kappa : K) (hk : 0 < kappa)
    (hone : 1 ≤ (s : K) * s * kappa)
    (hkappa : ∀ a ∈ aggs, ∀ i : Fin n, i.val ∈ a.copy.dofMap →
      a.matrix i i ≤ kappa * (a.omitted - tol2 a / lower a))
    (rows : ∀ l, List (Fin (twoLevels n (rowsOf css.flatten).length l))) (hrows : ∀ l, ListsAll (rows l))
    (solve : ∀ l, Matrix (Fin (twoLevels n (rowsOf css.flatten).length l))
      (Fin (twoLevels n (rowsOf css.flatten).length l)) K →
      (Fin (twoLevels n (rowsOf css.flatten).length l) → K) →
      Fin (twoLevels n (rowsOf css.flatten).length l) → K)
    (hsolve : ∀ l, SolvesExactly (solve l)) (hlev : p.maxLevels.getD 2 = 2)
    (hfast : p.fastAp.getD false = false) (hpre : p.isPreconditioner = some false)
    (hsteps : 0 < toUnsigned (p.nSmoothingSteps.getD 1)) :
    ∃ a, assembleAll debug dynAdds gdiag (css.map collect) = .ok a ∧
      ∃ H, (buildHierarchy debug timer (some p) (.ok (matrixHelpers debug type
          (twoLevels n (rowsOf css.flatten).length) (fun l => [rows l]) A
          (twoLevelRestriction (a.R.block (rowsOf css.flatten).length n)) solve))).result = .ok H ∧
        ∀ b xs : Fin n → K, A.mulVec xs = b → ∀ x : ℕ → Fin n → K,
          (∀ m, ∃ fresh, (H.vmult fresh (x m) b).result = .ok (x (m + 1))) →
          ∀ m, energyOf A (xs - x m) ≤ (1 - 1 / ((s : K) * s * kappa)) ^ m * energyOf A (xs - x 0) := by
  refine pipeline_of_bounded debug dynAdds timer p type htype gdiag css hcs n hn hown
    (aggs.map fun a => { a with omitted := a.omitted - tol2 a / lower a }) ?_ ?_ ?_ A hA ?_ hdiag s hs kappa hk
    hone ?_ rows hrows solve hsolve hlev hfast hpre hsteps
  · rw [haggs, List.map_map]
    rfl
  · intro b hb
    obtain ⟨a, ha, rfl⟩ := List.mem_map.1 hb
    exact upTo_bounded a (hlower a ha) (hsolved a ha)
  · intro b hb
    obtain ⟨a, ha, rfl⟩ := List.mem_map.1 hb
    exact hpos a ha
  · rw [hsum, List.map_map]
    rfl
  · intro b hb
    obtain ⟨a, ha, rfl⟩ := List.mem_map.1 hb
    exact hkappa a ha

/-- **C98**, the omitted eigenvalues: if every eigenvector kept by an exact computation (`a`, with bound
`omitted`) is within the relative distance `δ` of the span of the vectors computed (`c`), then on the vectors
orthogonal to the computed ones the matrix is at least `omitted * (1 - m δ²)`, with `m` the number of
eigenvectors: the hypothesis `rest` of the agglomerates computed up to a tolerance. -/
theorem C98_omitted (n : ℕ) (a : AggData n K) (ha : a.Solved) (c : CopyData K)
    (hc : c.dofMap = a.copy.dofMap) (h0 : 0 ≤ a.omitted) (d2 : K) (hd2 : 0 ≤ d2)
    (hclose : ∀ v ∈ a.copy.eigenvectors,
      ∃ u ∈ Submodule.span K {f | ∃ w ∈ c.eigenvectors, f = globalVec n c w},
        (globalVec n a.copy v - u) ⬝ᵥ (globalVec n a.copy v - u)
          ≤ d2 * (globalVec n a.copy v ⬝ᵥ globalVec n a.copy v))
    (w : Fin n → K) (hw : ∀ i, w i ≠ 0 → i.val ∈ c.dofMap)
    (hort : ∀ v ∈ c.eigenvectors, globalVec n c v ⬝ᵥ w = 0) :
    a.omitted * (1 - a.copy.eigenvectors.length * d2) * (w ⬝ᵥ w) ≤ w ⬝ᵥ a.matrix.mulVec w := by
  have hon : onAgg a.copy w = w := by
    funext i
    unfold onAgg
    split_ifs with h
    · rfl
    · by_contra hne
      exact h (hc ▸ hw i (Ne.symm hne))
  have horth : (keptVecs n a.copy).Pairwise fun f g => f ⬝ᵥ g = 0 :=
    List.pairwise_map.2 ha.orthogonal
  have hspan : ∀ u ∈ Submodule.span K {f | ∃ w ∈ c.eigenvectors, f = globalVec n c w}, u ⬝ᵥ w = 0 := by
    intro u hu
    induction hu using Submodule.span_induction with
    | mem f hf =>
      obtain ⟨v, hv, rfl⟩ := hf
      exact hort v hv
    | zero => simp
    | add f g _ _ hf hg => rw [add_dotProduct, hf, hg, add_zero]
    | smul k f _ hf => rw [smul_dotProduct, hf, smul_zero]
  have h1 := leftOver_bound a ha w
  refine le_trans ?_ h1
  rw [mul_assoc]
  refine mul_le_mul_of_nonneg_left ?_ h0
  set q := projectOn (keptVecs n a.copy) w with hq
  have hqq : q ⬝ᵥ q = ((keptVecs n a.copy).map fun f =>
      f ⬝ᵥ w / (f ⬝ᵥ f) * (f ⬝ᵥ w / (f ⬝ᵥ f)) * (f ⬝ᵥ f)).sum := projectOn_norm _ horth w
  have hwq : w ⬝ᵥ q = q ⬝ᵥ q := by
    rw [hqq, hq, dot_projectOn]
    congr 1
    apply List.map_congr_left
    intro f _
    rw [dotProduct_comm w f]
    by_cases h : f ⬝ᵥ f = 0
    · rw [h]; simp
    · field_simp
  have hle : q ⬝ᵥ q ≤ a.copy.eigenvectors.length * d2 * (w ⬝ᵥ w) := by
    rw [hqq, keptVecs, List.map_map]
    have : ∀ l : List (List K), (∀ v ∈ l, v ∈ a.copy.eigenvectors) →
        (l.map ((fun f => f ⬝ᵥ w / (f ⬝ᵥ f) * (f ⬝ᵥ w / (f ⬝ᵥ f)) * (f ⬝ᵥ f)) ∘ globalVec n a.copy)).sum
          ≤ l.length * d2 * (w ⬝ᵥ w) := by
      intro l hl
      induction l with
      | nil => simp
      | cons v l ih =>
        have ih := ih fun v hv => hl v (by simp [hv])
        simp only [List.map_cons, List.sum_cons, List.length_cons, Function.comp_apply]
        push_cast
        set z := globalVec n a.copy v with hz
        have hone : z ⬝ᵥ w / (z ⬝ᵥ z) * (z ⬝ᵥ w / (z ⬝ᵥ z)) * (z ⬝ᵥ z) ≤ d2 * (w ⬝ᵥ w) := by
          obtain ⟨u, hu, hd⟩ := hclose v (hl v (by simp))
          rw [← hz] at hd
          by_cases h : z ⬝ᵥ z = 0
          · rw [h]
            simpa using mul_nonneg hd2 (dot_self_nonneg' w)
          · have hp : 0 < z ⬝ᵥ z := lt_of_le_of_ne (dot_self_nonneg' z) (Ne.symm h)
            have e1 : z ⬝ᵥ w = (z - u) ⬝ᵥ w := by rw [sub_dotProduct, hspan u hu, sub_zero]
            have e2 := dot_cauchy (z - u) w
            rw [← e1] at e2
            have e3 := e2.trans (mul_le_mul_of_nonneg_right hd (dot_self_nonneg' w))
            have e4 : z ⬝ᵥ w / (z ⬝ᵥ z) * (z ⬝ᵥ w / (z ⬝ᵥ z)) * (z ⬝ᵥ z)
                = (z ⬝ᵥ w) * (z ⬝ᵥ w) / (z ⬝ᵥ z) := by field_simp
            rw [e4, div_le_iff₀ hp]
            linarith
        linarith
    exact this _ fun v hv => hv
  have hlw : leftOver a.copy w = w - q := by rw [leftOver, hon]
  rw [hlw, sub_dotProduct, dotProduct_sub, dotProduct_sub, dotProduct_comm q w, hwq]
  linarith

/-- **C98**, what no cycle reduces: on one process, with at least two levels, if the residual of an error is
orthogonal to all coarse vectors and its norm, weighted by the inverse of the diagonal, is at most
`1 / (4 n t²)` times the energy of the error, with `n` smoothing steps, then a cycle leaves at least
`(1 - 1 / t)²` of the energy. -/
theorem C98_slow (debug timer : Bool) (p : Params) (type : Option (List Char))
    (htype : dealiiSmoother debug true type = .ok .symmetricGaussSeidel ∨
      dealiiSmoother debug true type = .ok .gaussSeidel) (dims : ℕ → ℕ)
    (own : ∀ l, List (Fin (dims l))) (hown : ∀ l, ListsAll (own l))
    (A : Matrix (Fin (dims 0)) (Fin (dims 0)) K) (hA : IsSpd A)
    (R : ∀ l, Matrix (Fin (dims (l + 1))) (Fin (dims l)) K) (hR : ∀ l, IndependentRows (R l))
    (solve : ∀ l, Matrix (Fin (dims l)) (Fin (dims l)) K → (Fin (dims l) → K) → Fin (dims l) → K)
    (hsolve : ∀ l, SolvesExactly (solve l)) (hlev : 2 ≤ p.maxLevels.getD 2)
    (hfast : p.fastAp.getD false = false) (hpre : p.isPreconditioner = some false) :
    ∃ H, (buildHierarchy debug timer (some p) (.ok (matrixHelpers debug type dims
        (fun l => [own l]) A R solve))).result = .ok H ∧
      ∀ fresh (x b xs : Fin (dims 0) → K), A.mulVec xs = b → (R 0).mulVec (A.mulVec (xs - x)) = 0 →
        ∀ t : K, 1 ≤ t →
        4 * (toUnsigned (p.nSmoothingSteps.getD 1) : K) * (t * t)
            * (∑ i, A.mulVec (xs - x) i * A.mulVec (xs - x) i / A i i) ≤ energyOf A (xs - x) →
        ∃ y, (H.vmult fresh x b).result = .ok y ∧
          (1 - 1 / t) ^ 2 * energyOf A (xs - x) ≤ energyOf A (xs - y) := by
  obtain ⟨k, kind, hk', hk'', hsw⟩ : ∃ k kind, dealiiSmoother debug true type = .ok k ∧
      k.relaxation = some kind ∧ IsSweep kind := by
    rcases htype with h | h
    · exact ⟨_, _, h, rfl, by simp [IsSweep]⟩
    · exact ⟨_, _, h, rfl, by simp [IsSweep]⟩
  obtain ⟨H, hH, hlin, hL, hp, hn⟩ := matrixHelpers_build debug timer p type k kind hk' hk''
    dims (fun l => [own l]) A hA R hR solve hsolve (by omega) hfast
  refine ⟨H, hH, ?_⟩
  intro fresh x b xs hxs horth t ht hG
  have hp' : H.isPreconditioner = false := by rw [hp, hpre]; rfl
  have hL2 : 2 ≤ H.numLevels := by omega
  refine ⟨_, C04_cycle_is_textbook H _ hlin fresh x b (Or.inr hL2), ?_⟩
  rw [hp']
  obtain ⟨d, hd⟩ : ∃ d, H.numLevels - 1 = d + 1 := ⟨H.numLevels - 2, by omega⟩
  rw [hd]
  set D := matrixData kind dims (fun l => [own l]) A R with hD
  have hen : ∀ l (e : Fin (dims l) → K), energy D (fun l => dotForm (dims l)) l e
      = energyOf (coarseMatrix dims A R l) e := fun l e =>
    dotProduct_comm ((coarseMatrix dims A R l).mulVec e) e
  have hchain := matrixData_chain kind dims (fun l => [own l]) A hA R hR (d + 2)
  have hB : ∀ l, l + 1 < d + 2 → ∀ e, energy D (fun l => dotForm (dims l)) l (e - D.B l (D.A l e))
      ≤ energy D (fun l => dotForm (dims l)) l e := by
    intro l _ e
    have herr : e - D.B l (D.A l e)
        = (sweepRows kind (own l)).foldl (errRow (coarseMatrix dims A R l)) e :=
      err_relax hsw (coarseMatrix dims A R l) (hown l) e
    rw [herr, hen, hen]
    exact (energy_sweep (coarseMatrix_spd dims A hA R hR l) _ e).1
  set S : (Fin (dims 0) → K) → Fin (dims 0) → K := fun e => (sweepRows kind (own 0)).foldl (errRow A) e with hS
  have hrich : ∀ q (y : Fin (dims 0) → K), xs - (richardson D 0 b)^[q] y = S^[q] (xs - y) := by
    intro q
    induction q with
    | zero => intro y; rfl
    | succ q ih =>
      intro y
      rw [Function.iterate_succ_apply, Function.iterate_succ_apply, ih]
      congr 1
      have : xs - richardson D 0 b y = (xs - y) - D.B 0 (D.A 0 (xs - y)) := by
        rw [richardson, map_sub (D.A 0), show D.A 0 xs = b from hxs, sub_sub]
      rw [this]
      exact err_relax hsw A (hown 0) (xs - y)
  simp only [cycle, Bool.false_eq_true, if_false]
  set x₁ := (richardson D 0 b)^[H.nSmoothingSteps] x with hx₁
  set c := cycle D H.nSmoothingSteps d 1 (D.R 0 (b - D.A 0 x₁)) 0 with hc
  set e := xs - x with he
  have he1 : xs - x₁ = S^[H.nSmoothingSteps] e := by rw [hx₁, hrich]
  have he2 : xs - (x₁ + D.P 0 c) = (xs - x₁) - D.P 0 c := by abel
  rw [hrich, he2]
  set f := (xs - x₁) - D.P 0 c with hf
  have hr : b - D.A 0 x₁ = D.A 0 (xs - x₁) := by
    rw [map_sub, show D.A 0 xs = b from hxs]
  obtain ⟨z, hz⟩ := hchain.solvable 0 (by omega) (xs - x₁)
  have hcz : energy D (fun l => dotForm (dims l)) 1 (z - c) ≤ energy D (fun l => dotForm (dims l)) 1 z := by
    have h1 := cycle_energy hchain hB H.nSmoothingSteps d 1 (by omega) (D.R 0 (D.A 0 (xs - x₁))) 0 z hz
    rw [sub_zero] at h1
    rw [hc, hr]
    exact h1
  have hEf : energyOf A f ≤ energyOf A (xs - x₁) := by
    have h1 := correction_energy hchain 0 (by omega) (xs - x₁) z c hz
    rw [hen, hen] at h1
    have h2 : energyOf A f = energyOf A (xs - x₁) + energy D (fun l => dotForm (dims l)) 1 (z - c)
      - energy D (fun l => dotForm (dims l)) 1 z := h1
    linarith
  have hPc : A.mulVec e ⬝ᵥ D.P 0 c = 0 := by
    have : A.mulVec e ⬝ᵥ (R 0).transpose.mulVec c = (R 0).mulVec (A.mulVec e) ⬝ᵥ c := by
      rw [Matrix.dotProduct_mulVec, Matrix.vecMul_transpose]
    rw [horth, zero_dotProduct] at this
    exact this
  have ht0 : 0 < t := by linarith
  set r := A.mulVec e with hrdef
  have hw1 := sweeps_work hA r t ht0 (sweepRows kind (own 0)) H.nSmoothingSteps e
  have hw2 := sweeps_work hA r t ht0 (sweepRows kind (own 0)) H.nSmoothingSteps f
  have hwork := rowWork_sweepRows hA r kind (hown 0)
  set G := ∑ i, r i * r i / A i i with hGdef
  set g := S^[H.nSmoothingSteps] f with hg
  have hsplit : r ⬝ᵥ (e - g) = r ⬝ᵥ (e - S^[H.nSmoothingSteps] e) + r ⬝ᵥ (f - g) := by
    have : e - g = (e - S^[H.nSmoothingSteps] e) + (f - g) + D.P 0 c := by
      rw [hf, he1]; abel
    rw [this, dotProduct_add, dotProduct_add, hPc, add_zero]
  refine energy_kept hA e g t (4 * (H.nSmoothingSteps : K) * G) ht ?_ ?_
  · rw [hn]
    linarith
  · change 2 * (r ⬝ᵥ (e - g)) ≤ _
    rw [hsplit]
    have h1 : t * ((H.nSmoothingSteps : K) * rowWork A r (sweepRows kind (own 0)))
        ≤ t * (H.nSmoothingSteps * (2 * G)) :=
      mul_le_mul_of_nonneg_left (mul_le_mul_of_nonneg_left hwork (Nat.cast_nonneg _)) ht0.le
    have h2 : (energyOf A e - energyOf A g) / t
        = (energyOf A e - energyOf A (xs - x₁)) / t + (energyOf A (xs - x₁) - energyOf A f) / t
          + (energyOf A f - energyOf A g) / t := by
      field_simp; ring
    have h3 : 0 ≤ (energyOf A (xs - x₁) - energyOf A f) / t :=
      div_nonneg (by linarith) ht0.le
    rw [he1] at h2 h3
    rw [h2]
    have hw1' : 2 * (r ⬝ᵥ (e - S^[H.nSmoothingSteps] e))
      ≤ t * (H.nSmoothingSteps * rowWork A r (sweepRows kind (own 0)))
        + (energyOf A e - energyOf A (S^[H.nSmoothingSteps] e)) / t := hw1
    have hw2' : 2 * (r ⬝ᵥ (f - g)) ≤ t * (H.nSmoothingSteps * rowWork A r (sweepRows kind (own 0)))
        + (energyOf A f - energyOf A g) / t := hw2
    linarith

/-- The error of the chain that is not reduced: two values, on even and odd dofs. -/
def zigzag {n : ℕ} (a b : K) : Fin n → K := fun i => if i.val % 2 = 0 then a else b

omit [LinearOrder K] [IsStrictOrderedRing K] in
theorem zigzag_agg (t : K) (N : ℕ) (k : Fin N) (a b : K) (i : Fin (2 * N + 1)) :
    (if i.val % 2 = 0 then 1 + t else 2 + t) * (looseAgg t 0 N k).matrix.mulVec (zigzag a b) i
      = zigzag (a - b + t * a) (2 * (b - a) + t * b) i * (looseAgg t 0 N k).matrix i i := by
  have h0 : zigzag a b (⟨2 * k.val, by omega⟩ : Fin (2 * N + 1)) = a := by simp [zigzag]
  have h1 : zigzag a b (⟨2 * k.val + 1, by omega⟩ : Fin (2 * N + 1)) = b := by
    have : ¬ (2 * k.val + 1) % 2 = 0 := by omega
    simp only [zigzag]
    rw [if_neg this]
  have h2 : zigzag a b (⟨2 * k.val + 2, by omega⟩ : Fin (2 * N + 1)) = a := by simp [zigzag]
  rw [show (looseAgg t 0 N k).matrix = looseMatrix _ _ _ _ from rfl, looseMatrix_mulVec, h0, h1, h2]
  simp only [looseMatrix, Matrix.of_apply, Fin.ext_iff, zigzag]
  split_ifs <;> first | (exfalso; omega) | ring

omit [LinearOrder K] [IsStrictOrderedRing K] in
theorem zigzag_sum (t : K) (N : ℕ) (a b : K) (i : Fin (2 * N + 1)) :
    (if i.val % 2 = 0 then 1 + t else 2 + t) * (looseSum t N).mulVec (zigzag a b) i
      = zigzag (a - b + t * a) (2 * (b - a) + t * b) i * looseSum t N i i := by
  rw [loose_mulVec, loose_entry t 0, ← List.sum_map_mul_left, ← List.sum_map_mul_left]
  congr 1
  apply List.map_congr_left
  intro k _
  exact zigzag_agg t N k a b i

omit [LinearOrder K] [IsStrictOrderedRing K] in
theorem zigzag_energy (t : K) (N : ℕ) (a b : K) :
    energyOf (looseSum t N) (zigzag a b)
      = N * (t * (2 * (a * a) + b * b) + 2 * ((a - b) * (a - b))) := by
  rw [energyOf, looseSum, mulVec_sum_matrices, looseAggs, List.map_map, List.map_map]
  have : ∀ k : Fin N, zigzag a b ⬝ᵥ (looseAgg t 0 N k).matrix.mulVec (zigzag a b)
      = t * (2 * (a * a) + b * b) + 2 * ((a - b) * (a - b)) := by
    intro k
    have h0 : zigzag a b (⟨2 * k.val, by omega⟩ : Fin (2 * N + 1)) = a := by simp [zigzag]
    have h1 : zigzag a b (⟨2 * k.val + 1, by omega⟩ : Fin (2 * N + 1)) = b := by
      have : ¬ (2 * k.val + 1) % 2 = 0 := by omega
      simp only [zigzag]
      rw [if_neg this]
    have h2 : zigzag a b (⟨2 * k.val + 2, by omega⟩ : Fin (2 * N + 1)) = a := by simp [zigzag]
    rw [show (looseAgg t 0 N k).matrix = looseMatrix _ _ _ _ from rfl, looseMatrix_form, h0, h1, h2]
    ring
  simp only [Function.comp_def, this]
  simp
  ring

omit [LinearOrder K] [IsStrictOrderedRing K] in
theorem loose_trace (t : K) (N : ℕ) : ∑ i, looseSum t N i i = N * (4 + 3 * t) := by
  have h : ∀ i, looseSum t N i i = ((List.finRange N).map fun k => (looseAgg t 0 N k).matrix i i).sum :=
    fun i => loose_entry t 0 N i i
  simp only [h]
  rw [sum_sum_list (List.finRange N) fun k i => (looseAgg t 0 N k).matrix i i]
  have : ∀ k : Fin N, ∑ i, (looseAgg t 0 N k).matrix i i = 4 + 3 * t := by
    intro k
    have e : ∀ i, (looseAgg t 0 N k).matrix i i
        = (if i = ⟨2 * k.val, by omega⟩ then 1 + t else 0) + (if i = ⟨2 * k.val + 1, by omega⟩ then 2 + t else 0)
          + (if i = ⟨2 * k.val + 2, by omega⟩ then 1 + t else 0) := by
      intro i
      simp only [looseAgg, looseMatrix, Matrix.of_apply, Fin.ext_iff]
      split_ifs <;> first | (exfalso; omega) | ring
    simp only [e, Finset.sum_add_distrib, Finset.sum_ite_eq', Finset.mem_univ, if_true]
    ring
  simp only [this]
  simp
  ring

/-- The residual of the error is orthogonal to the rows of the restriction matrix. -/
theorem zigzag_orthogonal (debug dynAdds : Bool) (t ε : K) (ht : 0 < t) (N : ℕ) (hN : 0 < N) :
    ∃ a, assembleAll debug dynAdds
        (fun i => if h : i < 2 * N + 1 then looseSum t N ⟨i, h⟩ ⟨i, h⟩ else 0)
        ((looseCopies t ε N).map collect) = .ok a ∧
      (a.R.block (rowsOf (looseCopies t ε N).flatten).length (2 * N + 1)).mulVec
        ((looseSum t N).mulVec (zigzag (2 * ε + (1 + ε) * t) (2 * ε - 2 * t))) = 0 := by
  have hfl : (looseCopies t ε N).flatten = (looseAggs t ε N).map AggData.copy := by simp
  obtain ⟨a, ha, h1, -⟩ := C20_rows debug dynAdds
    (fun i => if h : i < 2 * N + 1 then looseSum t N ⟨i, h⟩ ⟨i, h⟩ else 0) (looseCopies t ε N) (by
      intro cs hcs c hc
      rw [List.mem_singleton] at hcs
      subst hcs
      obtain ⟨b, hb, rfl⟩ := List.mem_map.1 hc
      obtain ⟨k, _, rfl⟩ := List.mem_map.1 hb
      exact looseCopy_wf t ε k.val)
  refine ⟨a, ha, ?_⟩
  funext p
  have hp := List.getElem?_eq_getElem p.isLt
  obtain ⟨k, hk⟩ : ∃ k : Fin N, (rowsOf (looseCopies t ε N).flatten)[p.val] = (looseCopy t ε k.val, [1, 1 + ε, 1]) := by
    have hm := List.getElem_mem p.isLt
    obtain ⟨c, hc, hv⟩ := List.mem_flatMap.1 hm
    rw [hfl] at hc
    obtain ⟨b, hb, rfl⟩ := List.mem_map.1 hc
    obtain ⟨k, _, rfl⟩ := List.mem_map.1 hb
    obtain ⟨v, hv, he⟩ := List.mem_map.1 hv
    have hv' : v = [1, 1 + ε, 1] := by simpa [looseAgg, looseCopy] using hv
    subst hv'
    refine ⟨k, ?_⟩
    exact he.symm
  rw [hk] at hp
  have hrow := h1 p.val _ _ hp
  set A := looseSum t N with hA
  have hspd := loose_spd t ht N hN
  set α := 2 * ε + (1 + ε) * t with hα
  set β := 2 * ε - 2 * t with hβ
  have hterm : ∀ i : Fin (2 * N + 1), a.R.block (rowsOf (looseCopies t ε N).flatten).length (2 * N + 1) p i
      * A.mulVec (zigzag α β) i
      = globalVec (2 * N + 1) (looseCopy t ε k.val) [1, 1 + ε, 1] i
        * zigzag (α - β + t * α) (2 * (β - α) + t * β) i := by
    intro i
    have hd : A i i ≠ 0 := (diag_pos hspd i).ne'
    have hz := zigzag_sum t N α β i
    simp only [Entries.block, Matrix.of_apply]
    rw [hrow, dif_pos i.isLt]
    change extend _ _ _ / A i i * globalVec (2 * N + 1) (looseCopy t ε k.val) [1, 1 + ε, 1] i * _ = _
    by_cases hi : i.val ∈ (looseCopy t ε k.val).dofMap
    · have hdd : extend (looseCopy t ε k.val).dofMap (looseCopy t ε k.val).diag i.val
          = if i.val % 2 = 0 then 1 + t else 2 + t := by
        simp only [looseCopy, List.mem_cons, List.not_mem_nil, or_false] at hi
        simp only [looseCopy, extend_cons, extend_nil]
        split_ifs <;> first | (exfalso; omega) | simp
      rw [hdd]
      have e1 : (if i.val % 2 = 0 then 1 + t else 2 + t) / A i i
          * globalVec (2 * N + 1) (looseCopy t ε k.val) [1, 1 + ε, 1] i * A.mulVec (zigzag α β) i
          = globalVec (2 * N + 1) (looseCopy t ε k.val) [1, 1 + ε, 1] i
            * ((if i.val % 2 = 0 then 1 + t else 2 + t) * A.mulVec (zigzag α β) i) / A i i := by ring
      rw [e1, hz, ← mul_assoc, mul_div_cancel_right₀ _ hd]
    · rw [globalVec_off _ _ hi]
      simp
  rw [Matrix.mulVec, dotProduct]
  rw [Finset.sum_congr rfl fun i _ => hterm i]
  change globalVec (2 * N + 1) (looseCopy t ε k.val) [1, 1 + ε, 1] ⬝ᵥ _ = _
  rw [loose_dot]
  have g0 : ∀ x y : K, zigzag x y (⟨2 * k.val, by omega⟩ : Fin (2 * N + 1)) = x := fun x y => by simp [zigzag]
  have g1 : ∀ x y : K, zigzag x y (⟨2 * k.val + 1, by omega⟩ : Fin (2 * N + 1)) = y := fun x y => by
    have : ¬ (2 * k.val + 1) % 2 = 0 := by omega
    simp only [zigzag]
    rw [if_neg this]
  have g2 : ∀ x y : K, zigzag x y (⟨2 * k.val + 2, by omega⟩ : Fin (2 * N + 1)) = x :=
    fun x y => by simp [zigzag]
  rw [g0, g1, g2, hα, hβ, Pi.zero_apply]
  ring

/-- The residual of the error is small. -/
theorem zigzag_small (t ε : K) (ht : 0 < t) (ht1 : t ≤ 1) (he : 0 ≤ ε) (he1 : ε ≤ 1) (N : ℕ) (hN : 0 < N) :
    ∑ i, (looseSum t N).mulVec (zigzag (2 * ε + (1 + ε) * t) (2 * ε - 2 * t)) i
        * (looseSum t N).mulVec (zigzag (2 * ε + (1 + ε) * t) (2 * ε - 2 * t)) i / looseSum t N i i
      ≤ 448 * (t * t) * N := by
  have hspd := loose_spd t ht N hN
  set A := looseSum t N with hA
  set α := 2 * ε + (1 + ε) * t with hα
  set β := 2 * ε - 2 * t with hβ
  have hpoint : ∀ i : Fin (2 * N + 1), A.mulVec (zigzag α β) i * A.mulVec (zigzag α β) i / A i i
      ≤ 64 * (t * t) * A i i := by
    intro i
    have hd : 0 < A i i := diag_pos hspd i
    have hz := zigzag_sum t N α β i
    rw [← hA] at hz
    rw [div_le_iff₀ hd]
    set w := A.mulVec (zigzag α β) i with hw
    have hεt : ε * t ≤ 1 := mul_le_one₀ he1 ht.le ht1
    have hεt0 : 0 ≤ ε * t := mul_nonneg he ht.le
    by_cases hi : i.val % 2 = 0
    · rw [if_pos hi, zigzag, if_pos hi] at hz
      have hg : α - β + t * α = t * (3 + 3 * ε + (1 + ε) * t) := by rw [hα, hβ]; ring
      rw [hg] at hz
      have h0 : 0 ≤ 3 + 3 * ε + (1 + ε) * t := by nlinarith
      have h8 : 3 + 3 * ε + (1 + ε) * t ≤ 8 := by nlinarith
      have hw0 : 0 ≤ w := by
        have : 0 ≤ (1 + t) * w := by rw [hz]; exact mul_nonneg (mul_nonneg ht.le h0) hd.le
        exact (mul_nonneg_iff_of_pos_left (by linarith)).1 this
      have hw8 : w ≤ 8 * t * A i i := by
        have h1 : t * (3 + 3 * ε + (1 + ε) * t) * A i i ≤ t * 8 * A i i :=
          mul_le_mul_of_nonneg_right (mul_le_mul_of_nonneg_left h8 ht.le) hd.le
        have h2 : 0 ≤ t * w := mul_nonneg ht.le hw0
        linarith
      have := mul_le_mul hw8 hw8 hw0 (hw0.trans hw8)
      refine this.trans (le_of_eq (by ring))
    · rw [if_neg hi, zigzag, if_neg hi] at hz
      have hg : 2 * (β - α) + t * β = - (t * (6 + 2 * t)) := by rw [hα, hβ]; ring
      rw [hg] at hz
      have hw0 : 0 ≤ - w := by
        have : 0 ≤ (2 + t) * - w := by
          rw [mul_neg, hz]
          have := mul_nonneg (mul_nonneg ht.le (by linarith : (0 : K) ≤ 6 + 2 * t)) hd.le
          linarith
        exact (mul_nonneg_iff_of_pos_left (by linarith)).1 this
      have hw8 : - w ≤ 8 * t * A i i := by
        have h1 : t * (6 + 2 * t) * A i i ≤ t * 8 * A i i :=
          mul_le_mul_of_nonneg_right (mul_le_mul_of_nonneg_left (by linarith) ht.le) hd.le
        have h2 : 0 ≤ t * - w := mul_nonneg ht.le hw0
        linarith
      have := mul_le_mul hw8 hw8 hw0 (hw0.trans hw8)
      calc w * w = - w * - w := by ring
        _ ≤ _ := this
        _ = _ := by ring
  refine (Finset.sum_le_sum fun i _ => hpoint i).trans ?_
  rw [← Finset.mul_sum, hA, loose_trace]
  have hNn : (0 : K) ≤ N := Nat.cast_nonneg N
  have h1 : (N : K) * (4 + 3 * t) ≤ N * 7 := mul_le_mul_of_nonneg_left (by linarith) hNn
  have h2 : 0 ≤ 64 * (t * t) := by positivity
  have := mul_le_mul_of_nonneg_left h1 h2
  linarith

/-- The energy of the error. -/
theorem zigzag_large (t ε : K) (ht : 0 < t) (he : 0 < ε) (N : ℕ) :
    8 * t * ε ^ 2 * N ≤ energyOf (looseSum t N) (zigzag (2 * ε + (1 + ε) * t) (2 * ε - 2 * t)) := by
  rw [zigzag_energy]
  have h1 : 2 * ε * (2 * ε) ≤ (2 * ε + (1 + ε) * t) * (2 * ε + (1 + ε) * t) := by
    have : 2 * ε ≤ 2 * ε + (1 + ε) * t := by
      have : 0 ≤ (1 + ε) * t := by positivity
      linarith
    exact mul_le_mul this this (by positivity) (by positivity)
  have h2 := mul_self_nonneg (2 * ε - 2 * t)
  have h3 := mul_self_nonneg (2 * ε + (1 + ε) * t - (2 * ε - 2 * t))
  have h4 : 8 * t * ε ^ 2 ≤ t * (2 * ((2 * ε + (1 + ε) * t) * (2 * ε + (1 + ε) * t))
      + (2 * ε - 2 * t) * (2 * ε - 2 * t)) := by
    have : 8 * ε ^ 2 ≤ 2 * ((2 * ε + (1 + ε) * t) * (2 * ε + (1 + ε) * t))
      + (2 * ε - 2 * t) * (2 * ε - 2 * t) := by linarith
    have := mul_le_mul_of_nonneg_left this ht.le
    linarith
  have h5 : 8 * t * ε ^ 2 ≤ t * (2 * ((2 * ε + (1 + ε) * t) * (2 * ε + (1 + ε) * t))
      + (2 * ε - 2 * t) * (2 * ε - 2 * t)) + 2 * ((2 * ε + (1 + ε) * t - (2 * ε - 2 * t))
        * (2 * ε + (1 + ε) * t - (2 * ε - 2 * t))) := by linarith
  have := mul_le_mul_of_nonneg_left h5 (Nat.cast_nonneg (α := K) N)
  linarith

/-- The restriction matrix of the chain has full rank. -/
theorem loose_independent (debug dynAdds : Bool) (t ε : K) (ht : 0 < t) (he : 0 ≤ ε) (N : ℕ) (hN : 0 < N) :
    ∃ a, assembleAll debug dynAdds
        (fun i => if h : i < 2 * N + 1 then looseSum t N ⟨i, h⟩ ⟨i, h⟩ else 0)
        ((looseCopies t ε N).map collect) = .ok a ∧
      IndependentRows (a.R.block (rowsOf (looseCopies t ε N).flatten).length (2 * N + 1)) := by
  have hspd := loose_spd t ht N hN
  have hfl : (looseCopies t ε N).flatten = (looseAggs t ε N).map AggData.copy := by simp
  obtain ⟨a, ha, hcoarse, _⟩ := C74_spd_partial debug dynAdds
    (fun i => if h : i < 2 * N + 1 then looseSum t N ⟨i, h⟩ ⟨i, h⟩ else 0) (looseCopies t ε N) (by
      intro cs hcs c hc
      rw [List.mem_singleton] at hcs
      subst hcs
      obtain ⟨b, hb, rfl⟩ := List.mem_map.1 hc
      obtain ⟨k, _, rfl⟩ := List.mem_map.1 hb
      exact looseCopy_wf t ε k.val) (2 * N + 1) (by
      intro c hc x hx
      rw [hfl] at hc
      obtain ⟨b, hb, rfl⟩ := List.mem_map.1 hc
      obtain ⟨k, _, rfl⟩ := List.mem_map.1 hb
      have := k.isLt
      simp only [looseAgg, looseCopy, List.mem_cons, List.not_mem_nil, or_false] at hx
      omega) (by
      intro c hc x hx
      rw [hfl] at hc
      obtain ⟨b, hb, rfl⟩ := List.mem_map.1 hc
      obtain ⟨k, _, rfl⟩ := List.mem_map.1 hb
      have hk := k.isLt
      have hxn : x < 2 * N + 1 := by
        simp only [looseAgg, looseCopy, List.mem_cons, List.not_mem_nil, or_false] at hx
        omega
      have h1 := (loose_solved t ε ht he N k).diagonal ⟨x, hxn⟩ hx
      rw [dif_pos hxn]
      refine ⟨?_, (diag_pos hspd _).ne'⟩
      rw [h1]
      exact loose_diag_ne t ε ht N k ⟨x, hxn⟩ hx) (by
      rw [hfl]
      exact loose_own t ε he N) (looseSum t N) hspd
  exact ⟨a, ha, (C74_iff _ (looseSum t N) hspd).1 hcoarse⟩

/-- The two-level cycle of the chain leaves most of the energy of one error. -/
theorem loose_slow (t ε T : K) (ht : 0 < t) (ht1 : t ≤ 1) (he : 0 < ε) (he1 : ε ≤ 1) (hT : 1 ≤ T) (p : Params)
    (hlev : p.maxLevels.getD 2 = 2) (hfast : p.fastAp.getD false = false)
    (hpre : p.isPreconditioner = some false)
    (htn : 224 * ((toUnsigned (p.nSmoothingSteps.getD 1) : K)) * (T * T) * t ≤ ε ^ 2) (N : ℕ) (hN : 0 < N)
    (debug dynAdds timer : Bool) (type : Option (List Char))
    (htype : dealiiSmoother debug true type = .ok .symmetricGaussSeidel ∨
        dealiiSmoother debug true type = .ok .gaussSeidel)
    (rows : ∀ l, List (Fin (looseDims t ε N l))) (hrows : ∀ l, ListsAll (rows l))
    (solve : ∀ l, Matrix (Fin (looseDims t ε N l)) (Fin (looseDims t ε N l)) K →
        (Fin (looseDims t ε N l) → K) → Fin (looseDims t ε N l) → K) (hsolve : ∀ l, SolvesExactly (solve l)) :
      ∃ a, assembleAll debug dynAdds
          (fun i => if h : i < 2 * N + 1 then looseSum t N ⟨i, h⟩ ⟨i, h⟩ else 0)
          ((looseCopies t ε N).map collect) = .ok a ∧
        ∃ H, (buildHierarchy debug timer (some p) (.ok (matrixHelpers debug type (looseDims t ε N)
            (fun l => [rows l]) (looseSum t N)
            (twoLevelRestriction (a.R.block (rowsOf (looseCopies t ε N).flatten).length (2 * N + 1)))
            solve))).result = .ok H ∧
          ∀ fresh (b xs : Fin (2 * N + 1) → K), (looseSum t N).mulVec xs = b →
            ∃ x y : Fin (2 * N + 1) → K, (H.vmult fresh x b).result = .ok y ∧
              0 < energyOf (looseSum t N) (xs - x) ∧
              (1 - 1 / T) ^ 2 * energyOf (looseSum t N) (xs - x) ≤ energyOf (looseSum t N) (xs - y) := by
  have hspd := loose_spd t ht N hN
  obtain ⟨a, ha, horth⟩ := zigzag_orthogonal debug dynAdds t ε ht N hN
  obtain ⟨a', ha', hind⟩ := loose_independent debug dynAdds t ε ht he.le N hN
  obtain rfl := Outcome.ok.inj (ha.symm.trans ha')
  refine ⟨a, ha, ?_⟩
  obtain ⟨H, hH, hslow⟩ := C98_slow debug timer p type htype (looseDims t ε N) rows hrows (looseSum t N) hspd
    (twoLevelRestriction (a.R.block (rowsOf (looseCopies t ε N).flatten).length (2 * N + 1))) (by
      intro l
      cases l with
      | zero => exact hind
      | succ l =>
        have h1 : IndependentRows (1 : Matrix (Fin (rowsOf (looseCopies t ε N).flatten).length)
            (Fin (rowsOf (looseCopies t ε N).flatten).length) K) := by
          intro y hy
          rwa [Matrix.transpose_one, Matrix.one_mulVec] at hy
        exact h1) solve hsolve (by omega) hfast hpre
  refine ⟨H, hH, ?_⟩
  intro fresh b xs hxs
  have hsmall := zigzag_small t ε ht ht1 he.le he1 N hN
  have hElow := zigzag_large t ε ht he N
  generalize zigzag (2 * ε + (1 + ε) * t) (2 * ε - 2 * t) = e at hsmall hElow horth
  have hex : xs - (xs - e) = e := by abel
  have hNpos : (0 : K) < N := by exact_mod_cast hN
  have hEpos : 0 < energyOf (looseSum t N) e := lt_of_lt_of_le (by positivity) hElow
  have hslow' : ∀ x : Fin (2 * N + 1) → K,
      (a.R.block (rowsOf (looseCopies t ε N).flatten).length (2 * N + 1)).mulVec
        ((looseSum t N).mulVec (xs - x)) = 0 →
      4 * (toUnsigned (p.nSmoothingSteps.getD 1) : K) * (T * T)
        * (∑ i, (looseSum t N).mulVec (xs - x) i * (looseSum t N).mulVec (xs - x) i
        / looseSum t N i i) ≤ energyOf (looseSum t N) (xs - x) →
      ∃ y : Fin (2 * N + 1) → K, (H.vmult fresh x b).result = .ok y ∧
        (1 - 1 / T) ^ 2 * energyOf (looseSum t N) (xs - x) ≤ energyOf (looseSum t N) (xs - y) :=
    fun x h1 h2 => hslow fresh x b xs hxs h1 T hT h2
  obtain ⟨y, hy, hle⟩ := hslow' (xs - e) (by rw [hex]; exact horth) (by
    rw [hex]
    refine le_trans ?_ hElow
    have hn0 : (0 : K) ≤ toUnsigned (p.nSmoothingSteps.getD 1) := Nat.cast_nonneg _
    generalize (toUnsigned (p.nSmoothingSteps.getD 1) : K) = n at htn hn0
    have h1 : 4 * n * (T * T) * (448 * (t * t) * N) ≤ 8 * t * ε ^ 2 * N := by
      have h2 : 0 ≤ 8 * t * N := by positivity
      have := mul_le_mul_of_nonneg_right htn h2
      linarith
    refine le_trans ?_ h1
    exact mul_le_mul_of_nonneg_left hsmall (by positivity))
  refine ⟨xs - e, y, hy, ?_⟩
  rw [hex] at hle ⊢
  exact ⟨hEpos, hle⟩

/-- **C98**, violation of the full claim: for every tolerance `ε`, however small, every rate `ρ < 1` and all
parameters of two-level cycles, there is a coefficient `t` such that, for every number `N` of agglomerates,
the eigenvectors are computed up to the tolerance, no diagonal element is more than twice the omitted
eigenvalues, and nevertheless for every right-hand side there is an initial guess from which a cycle leaves more
than `ρ` times the energy of the error. (With exact eigenvectors `35 / 36` is a bound for all `t` and `N`, see `C98_chain`.) -/
theorem C98_tolerance_violated (ε ρ : K) (he : 0 < ε) (he1 : ε ≤ 1) (hρ0 : 0 ≤ ρ) (hρ : ρ < 1)
    (p : Params) (hlev : p.maxLevels.getD 2 = 2) (hfast : p.fastAp.getD false = false)
    (hpre : p.isPreconditioner = some false) :
    ∃ t : K, 0 < t ∧ ∀ N : ℕ, 0 < N →
      (∀ a ∈ looseAggs t ε N, (∃ exact loose lower, 0 < lower ∧ a.SolvedUpTo exact loose (2 * ε ^ 2) lower) ∧
        1 ≤ a.omitted ∧ ∀ i, a.matrix i i ≤ 2 * a.omitted) ∧
      ∀ (debug dynAdds timer : Bool) (type : Option (List Char)),
      (dealiiSmoother debug true type = .ok .symmetricGaussSeidel ∨
        dealiiSmoother debug true type = .ok .gaussSeidel) →
      ∀ (rows : ∀ l, List (Fin (looseDims t ε N l))), (∀ l, ListsAll (rows l)) →
      ∀ (solve : ∀ l, Matrix (Fin (looseDims t ε N l)) (Fin (looseDims t ε N l)) K →
        (Fin (looseDims t ε N l) → K) → Fin (looseDims t ε N l) → K), (∀ l, SolvesExactly (solve l)) →
      ∃ a, assembleAll debug dynAdds
          (fun i => if h : i < 2 * N + 1 then looseSum t N ⟨i, h⟩ ⟨i, h⟩ else 0)
          ((looseCopies t ε N).map collect) = .ok a ∧
        ∃ H, (buildHierarchy debug timer (some p) (.ok (matrixHelpers debug type (looseDims t ε N)
            (fun l => [rows l]) (looseSum t N)
            (twoLevelRestriction (a.R.block (rowsOf (looseCopies t ε N).flatten).length (2 * N + 1)))
            solve))).result = .ok H ∧
          ∀ fresh (b xs : Fin (2 * N + 1) → K), (looseSum t N).mulVec xs = b →
            ∃ x y : Fin (2 * N + 1) → K, (H.vmult fresh x b).result = .ok y ∧
              ρ * energyOf (looseSum t N) (xs - x) < energyOf (looseSum t N) (xs - y) := by
  have hρ' : 0 < 1 - ρ := by linarith
  obtain ⟨T, hT⟩ : ∃ T, T = 4 / (1 - ρ) := ⟨_, rfl⟩
  obtain ⟨n, hn⟩ : ∃ n : K, n = (toUnsigned (p.nSmoothingSteps.getD 1) : K) := ⟨_, rfl⟩
  have hn0 : 0 ≤ n := by rw [hn]; exact Nat.cast_nonneg _
  have hT4 : 4 ≤ T := by
    rw [hT, le_div_iff₀ hρ']
    linarith
  have hTpos : 0 < T := by linarith
  have hTT : 16 ≤ T * T := by nlinarith
  have hden : (0 : K) < 224 * (n + 1) * (T * T) := by positivity
  have hden1 : (1 : K) ≤ 224 * (n + 1) * (T * T) := by
    have := mul_le_mul_of_nonneg_left hTT (by linarith : (0 : K) ≤ 224 * (n + 1))
    linarith
  obtain ⟨t, htdef⟩ : ∃ t, t = ε ^ 2 / (224 * (n + 1) * (T * T)) := ⟨_, rfl⟩
  have ht : 0 < t := by rw [htdef]; exact div_pos (by positivity) hden
  have heps : ε ^ 2 ≤ 1 := pow_le_one₀ he.le he1
  have ht1 : t ≤ 1 := by
    rw [htdef, div_le_one hden]
    linarith
  have htn : 224 * (n + 1) * (T * T) * t = ε ^ 2 := by
    rw [htdef, mul_div_cancel₀ _ hden.ne']
  refine ⟨t, ht, ?_⟩
  intro N hN
  refine ⟨?_, ?_⟩
  · intro a ha
    obtain ⟨k, _, rfl⟩ := List.mem_map.1 ha
    refine ⟨⟨_, _, t, ht, loose_solved t ε ht he.le N k⟩, ?_, ?_⟩
    · change 1 ≤ 1 + t
      linarith
    · intro i
      refine (loose_diag_le t ε ht N k i).trans ?_
      change 2 + t ≤ 2 * (1 + t)
      linarith
  intro debug dynAdds timer type htype rows hrows solve hsolve
  obtain ⟨a, ha, H, hH, hslow⟩ := loose_slow t ε T ht ht1 he he1 (by linarith) p hlev hfast hpre (by
    rw [← hn, ← htn]
    have : 0 ≤ 224 * (T * T) * t := by positivity
    linarith) N hN debug dynAdds timer type htype rows hrows solve hsolve
  refine ⟨a, ha, H, hH, ?_⟩
  intro fresh b xs hxs
  obtain ⟨x, y, hy, hE, hle⟩ := hslow fresh b xs hxs
  refine ⟨x, y, hy, lt_of_lt_of_le ?_ hle⟩
  refine mul_lt_mul_of_pos_right ?_ hE
  have h1 : 1 / T = (1 - ρ) / 4 := by rw [hT]; field_simp
  rw [h1]
  nlinarith

/-- **C98**, the same family with a small tolerance: if `4 ε² ≤ t`, then for every number `N` of agglomerates a
cycle with the default parameters multiplies the energy of the error at most by `35 / 36`. -/
theorem C98_chain (t ε : K) (ht : 0 < t) (he : 0 ≤ ε) (hte : 4 * ε ^ 2 ≤ t) (N : ℕ) (hN : 0 < N)
    (debug dynAdds timer : Bool)
    (rows : ∀ l, List (Fin (looseDims t ε N l))) (hrows : ∀ l, ListsAll (rows l))
    (solve : ∀ l, Matrix (Fin (looseDims t ε N l)) (Fin (looseDims t ε N l)) K →
      (Fin (looseDims t ε N l) → K) → Fin (looseDims t ε N l) → K)
    (hsolve : ∀ l, SolvesExactly (solve l)) :
    ∃ a, assembleAll debug dynAdds
        (fun i => if h : i < 2 * N + 1 then looseSum t N ⟨i, h⟩ ⟨i, h⟩ else 0)
        ((looseCopies t ε N).map collect) = .ok a ∧
      ∃ H, (buildHierarchy debug timer (some { isPreconditioner := some false }) (.ok (matrixHelpers debug none
          (looseDims t ε N) (fun l => [rows l]) (looseSum t N)
          (twoLevelRestriction (a.R.block (rowsOf (looseCopies t ε N).flatten).length (2 * N + 1)))
          solve))).result = .ok H ∧
        ∀ b xs : Fin (2 * N + 1) → K, (looseSum t N).mulVec xs = b → ∀ x : ℕ → Fin (2 * N + 1) → K,
          (∀ m, ∃ fresh, (H.vmult fresh (x m) b).result = .ok (x (m + 1))) →
          ∀ m, energyOf (looseSum t N) (xs - x m) ≤ (35 / 36) ^ m * energyOf (looseSum t N) (xs - x 0) := by
  have hmem : ∀ a ∈ looseAggs t ε N, ∃ k, a = looseAgg t ε N k := by
    intro a ha
    obtain ⟨k, _, rfl⟩ := List.mem_map.1 ha
    exact ⟨k, rfl⟩
  have hfl : (looseCopies t ε N).flatten = (looseAggs t ε N).map AggData.copy := by
    simp
  obtain ⟨a, ha, H, hH, hrate⟩ := C98_rate_partial debug dynAdds timer { isPreconditioner := some false } none
    (Or.inl (by cases debug <;> rfl))
    (fun i => if h : i < 2 * N + 1 then looseSum t N ⟨i, h⟩ ⟨i, h⟩ else 0)
    (looseCopies t ε N) (by
      intro cs hcs c hc
      rw [List.mem_singleton] at hcs
      subst hcs
      obtain ⟨b, hb, rfl⟩ := List.mem_map.1 hc
      obtain ⟨k, rfl⟩ := hmem b hb
      exact looseCopy_wf t ε k.val) (2 * N + 1) (by
      intro c hc x hx
      rw [hfl] at hc
      obtain ⟨b, hb, rfl⟩ := List.mem_map.1 hc
      obtain ⟨k, rfl⟩ := hmem b hb
      have := k.isLt
      simp only [looseAgg, looseCopy, List.mem_cons, List.not_mem_nil, or_false] at hx
      omega) (by rw [hfl]; exact loose_own t ε he N) (looseAggs t ε N) hfl (fun _ => [])
    (fun _ => [[1, 1 + ε, 1]]) (fun _ => 2 * ε ^ 2) (fun _ => t) (fun _ _ => ht) (by
      intro b hb
      obtain ⟨k, rfl⟩ := hmem b hb
      exact loose_solved t ε ht he N k) (by
      intro b hb i hi
      obtain ⟨k, rfl⟩ := hmem b hb
      exact loose_diag_ne t ε ht N k i hi) (looseSum t N) (loose_spd t ht N hN) (loose_sum t ε N) (by
      intro i
      exact dif_pos i.isLt) 3 (loose_perRow t N) 4 (by norm_num) (by norm_num) (by
      intro b hb i _
      obtain ⟨k, rfl⟩ := hmem b hb
      refine (loose_diag_le t ε ht N k i).trans ?_
      change 2 + t ≤ 4 * (1 + t - 2 * ε ^ 2 / t)
      have : 2 * ε ^ 2 / t ≤ 1 / 2 := by
        rw [div_le_iff₀ ht]
        linarith
      linarith) rows hrows solve hsolve rfl rfl rfl (by decide)
  refine ⟨a, ha, H, hH, ?_⟩
  intro b xs hxs x hx m
  have := hrate b xs hxs x hx m
  norm_num at this ⊢
  exact this

end

/-- The chain with any number of agglomerates, coefficient one hundredth and tolerance one twentieth. -/
example (N : ℕ) (hN : 0 < N) :=
  C98_chain (K := ℚ) (1 / 100) (1 / 20) (by norm_num) (by norm_num) (by norm_num) N hN true false false
    (fun _ => List.finRange _) (fun _ => ⟨List.nodup_finRange _, List.mem_finRange⟩)
    (fun l => exInvSolve l _) (fun l => exInvSolve_exact _ l)

/-- The tolerance one hundredth does not suffice for the rate 99/100 with all coefficients. -/
example := C98_tolerance_violated (K := ℚ) (1 / 100) (99 / 100) (by norm_num) (by norm_num) (by norm_num)
  (by norm_num) { isPreconditioner := some false } rfl rfl rfl

/-- One agglomerate of the chain whose exact eigenvector is the constant; computed was `(1, 21 / 20, 1)`. -/
example (w : Fin 3 → ℚ) (h : w 0 + 21 / 20 * w 1 + w 2 = 0) :
    1199 / 600 * (w ⬝ᵥ w) ≤ w ⬝ᵥ (chainAgg (K := ℚ) 1 0).matrix.mulVec w := by
  have := C98_omitted 3 (chainAgg (K := ℚ) 1 0) (chain_solved 1 0)
    { chainCopy (K := ℚ) 0 with eigenvectors := [[1, 21 / 20, 1]] } rfl (by norm_num [chainAgg]) (1 / 1200)
    (by norm_num) (by
      intro v hv
      have hv' : v = [1, 1, 1] := by simpa [chainAgg, chainCopy] using hv
      subst hv'
      refine ⟨_, Submodule.subset_span ⟨[1, 21 / 20, 1], by simp, rfl⟩, ?_⟩
      norm_num [dotProduct, Fin.sum_univ_succ, globalVec, chainAgg, chainCopy, extend_cons, extend_nil]) w
    (by intro i _; fin_cases i <;> simp [chainCopy]) (by
      intro v hv
      have hv' : v = [1, 21 / 20, 1] := by simpa using hv
      subst hv'
      norm_num [dotProduct, Fin.sum_univ_succ, globalVec, chainCopy, extend_cons, extend_nil]
      linarith)
  norm_num [chainAgg, chainCopy] at this ⊢
  exact this

end Mfmg
