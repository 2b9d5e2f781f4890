import Verif.Examples.LaplaceProcs
import Verif.Examples.LaplaceAlternating
import Verif.Props.ProcsRate

/-!
# The rate of convergence on several processes (C94): families of problems

Two distributions of the same difference matrix: with two or more neighbouring rows on every process the rate is
the same for every number of unknowns and processes; with one row on every process there is no such rate.
-/

set_option autoImplicit false

namespace Mfmg

open Spec

section

variable {K : Type} [Field K] [LinearOrder K] [IsStrictOrderedRing K]

/-- One smoothing step decreases the energy if the processes are coupled with a factor less than two. -/
theorem procs_strict {n : ℕ} {A : Matrix (Fin n) (Fin n) K} (hA : IsSpd A) {procs : List (List (Fin n))}
    (hprocs : ListsAll procs.flatten) {c : K} (hc : c < 2) (hw : CoupledAtMost A procs c) (e : Fin n → K)
    (he : e ≠ 0) :
    energyOf A (e - relaxVmult .symmetricGaussSeidel A procs (A.mulVec e)) < energyOf A e := by
  have h := (C94_smoother procs hprocs A hA).2 (by
    intro w hw0
    have h1 : 0 < energyOf A w := hA.2 w hw0
    have h2 := hw w
    rcases (processEnergy_nonneg hA procs w).eq_or_lt with h0 | h0
    · rw [← h0, mul_zero] at h2
      linarith
    · exact h2.trans_lt (mul_lt_mul_of_pos_right hc h0)) (A.mulVec e) 0 e rfl (Ne.symm he)
  rwa [err_smoother _ procs A _ 0 e rfl, sub_zero] at h

/-- **C94**, rows in which the diagonal dominates: if on every level but the coarsest the entries of a row beside
the diagonal add up to at most `theta < 1` times the diagonal, the rate `1 - (1 - theta) / (s² kappa)` holds for
every distribution of the rows to any number of processes. -/
theorem C94_dominated (debug timer : Bool) (p : Params) (type : Option (List Char))
    (htype : dealiiSmoother debug true type = .ok .symmetricGaussSeidel) (dims : ℕ → ℕ)
    (procs : ∀ l, List (List (Fin (dims l)))) (hprocs : ∀ l, ListsAll (procs l).flatten)
    (A : Matrix (Fin (dims 0)) (Fin (dims 0)) K) (hA : IsSpd A)
    (R : ∀ l, Matrix (Fin (dims (l + 1))) (Fin (dims l)) K) (hR : ∀ l, IndependentRows (R l))
    (s : ℕ) (hs : ∀ l, l + 1 < (p.maxLevels.getD 2).toNat → AtMostPerRow (coarseMatrix dims A R l) s)
    (theta : K) (h0 : 0 ≤ theta) (h1 : theta < 1)
    (hdom : ∀ l, l + 1 < (p.maxLevels.getD 2).toNat → RowsDominated (coarseMatrix dims A R l) theta)
    (kappa : K) (hk : 0 < kappa) (hone : 1 - theta ≤ (s : K) * s * kappa)
    (happrox : ∀ l, l + 1 < (p.maxLevels.getD 2).toNat →
      StronglyApproximates (R l) (coarseMatrix dims A R l) kappa)
    (solve : ∀ l, Matrix (Fin (dims l)) (Fin (dims l)) K → (Fin (dims l) → K) → Fin (dims l) → K)
    (hsolve : ∀ l, SolvesExactly (solve l)) (hlev : 2 ≤ p.maxLevels.getD 2)
    (hfast : p.fastAp.getD false = false) (hpre : p.isPreconditioner = some false)
    (hsteps : 0 < toUnsigned (p.nSmoothingSteps.getD 1)) :
    ∃ H, (buildHierarchy debug timer (some p)
        (.ok (matrixHelpers debug type dims procs A R solve))).result = .ok H ∧
      ∀ fresh (x b xs : Fin (dims 0) → K), A.mulVec xs = b →
        ∃ y, (H.vmult fresh x b).result = .ok y ∧
          energyOf A (xs - y) ≤ (1 - (1 - theta) / ((s : K) * s * kappa)) * energyOf A (xs - x) := by
  have e : (2 : K) - (1 + theta) = 1 - theta := by ring
  have h := C94_rate_partial debug timer p type htype dims procs hprocs A hA R hR s hs (1 + theta) (by linarith)
    (fun l hl => dominated_coupled (coarseMatrix_spd dims A hA R hR l) h0 h1.le (hdom l hl) (hprocs l)) kappa hk
    (by rw [e]; exact hone) happrox solve hsolve hlev hfast hpre hsteps
  rwa [e] at h

/-- The rows of the chain: the entries beside the diagonal add up to at most `2 / 3` of it. -/
theorem pair_dominated (n l : ℕ) : RowsDominated (pairMatrix n (2 ^ l * 1 : K)) (2 / 3) := by
  intro i
  have hp : (1 : K) ≤ 2 ^ l := one_le_pow₀ (by norm_num)
  have hrow : ∀ j, (if i = j then 0 else |pairMatrix n (2 ^ l * 1 : K) i j|)
      = (if i.val + 1 = j.val then 1 else 0) + if j.val + 1 = i.val then 1 else 0 := by
    intro j
    by_cases hij : i = j
    · subst hij
      simp
    · rw [if_neg hij]
      simp only [pairMatrix, Matrix.of_apply, if_neg hij]
      by_cases ha : i.val + 1 = j.val
      · have hb : ¬ j.val + 1 = i.val := by omega
        simp [ha, hb]
      · by_cases hb : j.val + 1 = i.val
        · simp [ha, hb]
        · simp [ha, hb]
  have hone : ∀ (P : Fin n → Prop) [DecidablePred P], (∀ j k, P j → P k → j = k) →
      (∑ j, if P j then (1 : K) else 0) ≤ 1 := by
    intro P _ hP
    by_cases h : ∃ j, P j
    · obtain ⟨j, hj⟩ := h
      rw [Finset.sum_eq_single j (fun k _ hk => if_neg fun h' => hk (hP k j h' hj))
        (fun h' => absurd (Finset.mem_univ j) h'), if_pos hj]
    · rw [Finset.sum_eq_zero fun j _ => if_neg fun h' => h ⟨j, h'⟩]
      exact zero_le_one
  rw [Finset.sum_congr rfl fun j _ => hrow j, Finset.sum_add_distrib]
  have a := hone (fun j => i.val + 1 = j.val) fun j k h1 h2 => Fin.ext (by omega)
  have b := hone (fun j => j.val + 1 = i.val) fun j k h1 h2 => Fin.ext (by omega)
  have hd : pairMatrix n (2 ^ l * 1 : K) i i = 2 ^ l * 1 + 2 := by simp [pairMatrix]
  rw [hd]
  linarith

/-- **C94**, a family of problems: the chain `I + tridiag(-1, 2, -1)` of any length that allows it, coarsened by
pairs to any number of levels and distributed in any way, level by level, to any number of processes: one
standalone cycle with the default smoother multiplies the energy of the error at most by `80 / 81`. -/
theorem C94_pairs (m L : ℕ) (hL : 2 ≤ L) (debug timer : Bool)
    (procs : ∀ l, List (List (Fin (pairDims m L l)))) (hprocs : ∀ l, ListsAll (procs l).flatten)
    (solve : ∀ l, Matrix (Fin (pairDims m L l)) (Fin (pairDims m L l)) K → (Fin (pairDims m L l) → K) →
      Fin (pairDims m L l) → K)
    (hsolve : ∀ l, SolvesExactly (solve l)) :
    ∃ H, (buildHierarchy debug timer (some { maxLevels := some L, isPreconditioner := some false })
        (.ok (matrixHelpers debug none (pairDims m L) procs (pairMatrix (pairDims m L 0) 1)
          (pairR m L) solve))).result = .ok H ∧
      ∀ fresh (x b xs : Fin (pairDims m L 0) → K), (pairMatrix (pairDims m L 0) 1).mulVec xs = b →
        ∃ y, (H.vmult fresh x b).result = .ok y ∧
          energyOf (pairMatrix (pairDims m L 0) 1) (xs - y)
            ≤ 80 / 81 * energyOf (pairMatrix (pairDims m L 0) 1) (xs - x) := by
  obtain ⟨H, hH, h⟩ := C94_dominated (K := K) debug timer
    { maxLevels := some L, isPreconditioner := some false }
    none (by cases debug <;> rfl) (pairDims m L) procs hprocs (pairMatrix (pairDims m L 0) 1)
    (pair_spd _ 1 one_pos) (pairR m L) (pairR_independent m L) 3 (by
      intro l hl
      have hl' : l + 1 < L := by simpa using hl
      rw [pair_coarse m L 1 l (by omega)]
      exact pair_perRow _ _) (2 / 3) (by norm_num) (by norm_num) (by
      intro l hl
      have hl' : l + 1 < L := by simpa using hl
      rw [pair_coarse m L 1 l (by omega)]
      exact pair_dominated _ l) 3 (by norm_num) (by norm_num) (by
      intro l hl
      have hl' : l + 1 < L := by simpa using hl
      rw [pair_coarse m L 1 l (by omega)]
      exact pair_strong m L l) solve hsolve (by simpa using hL) rfl rfl (by simp [toUnsigned])
  refine ⟨H, hH, ?_⟩
  intro fresh x b xs hxs
  obtain ⟨y, hy, hle⟩ := h fresh x b xs hxs
  refine ⟨y, hy, ?_⟩
  norm_num at hle ⊢
  exact hle

/-- **C94**, the difference matrix `tridiag(-1, 2, -1)` of any size with pairs of neighbours as coarse unknowns,
distributed to any number of processes such that every process owns two or more neighbouring rows: one standalone
cycle with the default smoother multiplies the energy of the error at most by `35 / 36`. -/
theorem C94_laplace_partial (m : ℕ) (debug timer : Bool) (procs : ∀ l, List (List (Fin (pairDims m 2 l))))
    (hprocs : ∀ l, ListsAll (procs l).flatten) (hrows : NeighbouringRows (procs 0))
    (solve : ∀ l, Matrix (Fin (pairDims m 2 l)) (Fin (pairDims m 2 l)) K → (Fin (pairDims m 2 l) → K) →
      Fin (pairDims m 2 l) → K)
    (hsolve : ∀ l, SolvesExactly (solve l)) :
    ∃ H, (buildHierarchy debug timer (some { isPreconditioner := some false })
        (.ok (matrixHelpers debug none (pairDims m 2) procs
          (pairMatrix (pairDims m 2 0) 0) (pairR m 2) solve))).result = .ok H ∧
      ∀ fresh (x b xs : Fin (pairDims m 2 0) → K), (pairMatrix (pairDims m 2 0) 0).mulVec xs = b →
        ∃ y, (H.vmult fresh x b).result = .ok y ∧
          energyOf (pairMatrix (pairDims m 2 0) 0) (xs - y)
            ≤ 35 / 36 * energyOf (pairMatrix (pairDims m 2 0) 0) (xs - x) := by
  have hz : ∀ l, l + 1 < ((({ isPreconditioner := some false } : Params)).maxLevels.getD 2).toNat → l = 0 := by
    intro l hl
    have : l + 1 < 2 := hl
    omega
  obtain ⟨H, hH, h⟩ := C94_weak_partial (K := K) debug timer { isPreconditioner := some false } none
    (by cases debug <;> rfl) (pairDims m 2) procs hprocs (pairMatrix (pairDims m 2 0) 0) (laplace_spd _) (pairR m 2)
    (pairR_independent m 2) 3 (by
      intro l hl
      obtain rfl := hz l hl
      exact pair_perRow _ _) (7 / 4) (by norm_num) (by
      intro l hl
      obtain rfl := hz l hl
      exact laplace_coupled (hprocs 0) hrows) 1 one_pos (by norm_num) (by
      intro l hl
      obtain rfl := hz l hl
      exact laplace_approximates m) solve hsolve (by decide) rfl (by decide)
  refine ⟨H, hH, fun fresh x b xs hxs => ?_⟩
  obtain ⟨y, hy, -, hle⟩ := h fresh x b xs hxs
  refine ⟨y, hy, (hle rfl).trans (le_of_eq ?_)⟩
  congr 1
  change (1 : K) - ((2 - 7 / 4) / (((3 : ℕ) : K) * ((3 : ℕ) : K) * 1)) ^ 1 = 35 / 36
  norm_num

/-! ### One row on every process -/

omit [LinearOrder K] [IsStrictOrderedRing K] in
/-- The coarse vectors do not contain the alternating vector. -/
theorem pair_alternating (m : ℕ) (y : Fin (pairDims m 2 (0 + 1)) → K) :
    ∑ i : Fin (pairDims m 2 0), (-1) ^ i.val * (pairR (K := K) m 2 0).transpose.mulVec y i = 0 := by
  have hd : pairDims m 2 0 = 2 * pairDims m 2 (0 + 1) := pairDims_fine (by norm_num)
  change (fun i : Fin (pairDims m 2 0) => (-1 : K) ^ i.val) ⬝ᵥ (pairR (K := K) m 2 0).transpose.mulVec y = 0
  rw [Matrix.dotProduct_mulVec, Matrix.vecMul_transpose]
  have : (pairR (K := K) m 2 0).mulVec (fun i : Fin (pairDims m 2 0) => (-1 : K) ^ i.val) = 0 := by
    funext i
    have h1 : ∀ a : Fin (pairDims m 2 0), pairR (K := K) m 2 0 i a = if a.val / 2 = i.val then 1 else 0 := by
      intro a
      simp [pairR]
    rw [Matrix.mulVec, dotProduct, Finset.sum_congr rfl fun a _ => by rw [h1], sum_pair hd i, pow_succ]
    simp
  rw [this, zero_dotProduct]

theorem pairDims_two (m : ℕ) : pairDims m 2 0 = 2 * m := by
  simp [pairDims, mul_comm]

theorem alternating_left' {n : ℕ} (m k : ℕ) (hn : n = 2 * m) (hm : 0 < m) (e1 : Fin n → K)
    (h1 : ∀ i, e1 i = (-1) ^ k * (-1) ^ i.val * alternatingSize K n k (i.val + 1)) (v : Fin n → K)
    (hv : ∑ i : Fin n, (-1) ^ i.val * v i = ∑ i : Fin n, (-1) ^ i.val * e1 i) :
    (1 - (k + 1) / m) * energyOf (pairMatrix n (0 : K)) (alternating K n)
      ≤ energyOf (pairMatrix n (0 : K)) v := by
  subst hn
  exact alternating_left m k hm e1 h1 v hv

theorem alternating_pos {n : ℕ} (m : ℕ) (hn : n = 2 * m) (hm : 0 < m) :
    0 < energyOf (pairMatrix n (0 : K)) (alternating K n) := by
  subst hn
  rw [alternating_energy m hm]
  have : (1 : K) ≤ m := by exact_mod_cast hm
  linarith

/-- What two levels with one row on every process leave of the alternating error. -/
theorem oneRow_left (kind : Relaxation) (m k : ℕ) (hm : 0 < m) (D : Data K fun l => Fin (pairDims m 2 l) → K)
    (hD : D = matrixData kind (pairDims m 2) (fun l => oneRowEach (pairDims m 2 l)) (pairMatrix (pairDims m 2 0) 0)
      (pairR m 2)) :
    (1 - (k + 1) / m) * energyOf (pairMatrix (pairDims m 2 0) (0 : K)) (alternating K (pairDims m 2 0))
      ≤ energyOf (pairMatrix (pairDims m 2 0) (0 : K)) (alternating K (pairDims m 2 0))
        - (pairMatrix (pairDims m 2 0) (0 : K)).mulVec (alternating K (pairDims m 2 0))
          ⬝ᵥ M D k 1 0 ((pairMatrix (pairDims m 2 0) (0 : K)).mulVec (alternating K (pairDims m 2 0))) ∧
    (1 - 2 * ((k + 1) / m)) * energyOf (pairMatrix (pairDims m 2 0) (0 : K)) (alternating K (pairDims m 2 0))
      ≤ energyOf (pairMatrix (pairDims m 2 0) (0 : K)) (alternating K (pairDims m 2 0)
        - M D k 1 0 ((pairMatrix (pairDims m 2 0) (0 : K)).mulVec (alternating K (pairDims m 2 0)))) := by
  have hA : IsSpd (pairMatrix (pairDims m 2 0) (0 : K)) := laplace_spd _
  have hR : ∀ l, IndependentRows (pairR (K := K) m 2 l) := pairR_independent m 2
  have hspd := coarseMatrix_spd (pairDims m 2) _ hA (pairR m 2) hR
  have hchain := matrixData_chain kind (pairDims m 2) (fun l => oneRowEach (pairDims m 2 l)) _ hA (pairR m 2) hR 2
  rw [← hD] at hchain
  have hB : ∀ l r, D.B l r = fun i => r i / coarseMatrix (pairDims m 2) (pairMatrix (pairDims m 2 0) 0)
      (pairR m 2) l i i := by
    intro l r
    rw [hD]
    exact relaxVmult_oneRow kind _ (fun i => (diag_pos (hspd l) i).ne') r
  have hDA : ∀ v, D.A 0 v = (pairMatrix (pairDims m 2 0) (0 : K)).mulVec v := by
    intro v
    rw [hD]
    rfl
  have hsym : Symmetric D (fun l => dotForm (pairDims m 2 l)) 2 := by
    refine ⟨hchain.form, hchain.A, ?_, hchain.RP, ?_⟩
    · intro l _ x y
      change D.B l x ⬝ᵥ y = x ⬝ᵥ D.B l y
      rw [hB, hB]
      apply Finset.sum_congr rfl
      intro i _
      ring
    · intro l _ x y
      have hi : ((coarseMatrix (pairDims m 2) (pairMatrix (pairDims m 2 0) (0 : K)) (pairR m 2) l)⁻¹).transpose
          = (coarseMatrix (pairDims m 2) (pairMatrix (pairDims m 2 0) 0) (pairR m 2) l)⁻¹ := by
        rw [Matrix.transpose_nonsing_inv, (hspd l).1]
      rw [hD]
      change (coarseMatrix (pairDims m 2) (pairMatrix (pairDims m 2 0) (0 : K)) (pairR m 2) l)⁻¹.mulVec x ⬝ᵥ y
        = x ⬝ᵥ (coarseMatrix (pairDims m 2) (pairMatrix (pairDims m 2 0) (0 : K)) (pairR m 2) l)⁻¹.mulVec y
      rw [dotProduct_comm, form_symm hi]
  set A := pairMatrix (pairDims m 2 0) (0 : K) with hAd
  set u := alternating K (pairDims m 2 0) with hu
  have hen : ∀ v, energy D (fun l => dotForm (pairDims m 2 l)) 0 v = energyOf A v := by
    intro v
    unfold energy
    rw [hDA]
    exact dotProduct_comm (A.mulVec v) v
  have hS : ∀ v i, S D 0 v i = (withEnds v i.val + withEnds v (i.val + 2)) / 2 := by
    intro v i
    have h1 : S D 0 v = v - D.B 0 (D.A 0 v) := rfl
    rw [h1, hB, hDA, ← laplace_jacobi v i]
    rfl
  have hsteps := alternating_steps (S D 0) hS k
  set e1 := (S D 0 ^ k) u with he1
  -- the correction
  have herr := error_succ D k 0 0 u
  rw [← he1] at herr
  obtain ⟨z, hz⟩ : ∃ z, z = M D k 0 (0 + 1) (D.R 0 (D.A 0 e1)) := ⟨_, rfl⟩
  rw [← hz] at herr
  obtain ⟨v, hv⟩ : ∃ v, v = e1 - D.P 0 z := ⟨_, rfl⟩
  rw [← hv, hDA] at herr
  have horth : D.R 0 (D.A 0 v) = 0 := by
    rw [hv, map_sub, map_sub, ← hchain.galerkin 0 (by norm_num)]
    obtain ⟨t, ht⟩ := hchain.solvable 0 (by norm_num) e1
    have : D.A (0 + 1) z = D.R 0 (D.A 0 e1) := by
      rw [hz, ← ht]
      exact hchain.exact 1 rfl t
    rw [this, sub_self]
  have hpz : ∑ i : Fin (pairDims m 2 0), (-1) ^ i.val * v i
      = ∑ i : Fin (pairDims m 2 0), (-1) ^ i.val * e1 i := by
    have h0 := pair_alternating m z
    have hP : D.P 0 z = (pairR (K := K) m 2 0).transpose.mulVec z := by rw [hD]; rfl
    rw [← hP] at h0
    rw [hv]
    simp only [Pi.sub_apply, mul_sub, Finset.sum_sub_distrib]
    rw [h0, sub_zero]
  have hlow := alternating_left' (K := K) m k (pairDims_two m) hm e1 hsteps v hpz
  rw [← hAd, ← hu] at hlow
  -- the energy of the remaining error
  have hform : dotForm (pairDims m 2 0) (D.A 0 ((S D 0 ^ k) v)) u = energyOf A v := by
    rw [S_pow_energy hsym 0 k (by norm_num), ← he1, ← hen v]
    have h1 : e1 = v + D.P 0 z := by rw [hv]; abel
    rw [h1, map_add, ← hchain.RP 0 (by norm_num), horth, map_zero, LinearMap.zero_apply, add_zero]
    rfl
  have hpos : 0 < energyOf A u := alternating_pos m (pairDims_two m) hm
  have hfirst : dotForm (pairDims m 2 0) (D.A 0 ((S D 0 ^ k) v)) u
      = energyOf A u - A.mulVec u ⬝ᵥ M D k 1 0 (A.mulVec u) := by
    rw [← herr, hchain.A 0 (by norm_num), hDA]
    change (u - M D k 1 0 (A.mulVec u)) ⬝ᵥ A.mulVec u = _
    rw [sub_dotProduct, dotProduct_comm (M D k 1 0 (A.mulVec u))]
    rfl
  refine ⟨?_, ?_⟩
  · rw [← hfirst, hform]
    exact hlow
  · have hc := energy_cauchy hchain 0 (by norm_num) ((S D 0 ^ k) v) u
    rw [hform, hen, hen, ← herr] at hc
    have hm0 : (0 : K) < m := Nat.cast_pos.2 hm
    obtain ⟨t, ht⟩ : ∃ t : K, t = (k + 1) / m := ⟨_, rfl⟩
    rw [← ht] at hlow ⊢
    have hE : 0 ≤ energyOf A (u - M D k 1 0 (A.mulVec u)) := by
      rw [← hen]
      exact hchain.psd 0 (by norm_num) _
    by_cases h1 : 1 - 2 * t ≤ 0
    · exact (mul_nonpos_of_nonpos_of_nonneg h1 hpos.le).trans hE
    · have ht0 : 0 ≤ t := by rw [ht]; positivity
      have h2 : 0 ≤ (1 - t) * energyOf A u := mul_nonneg (by linarith) hpos.le
      have h3 := (mul_self_le_mul_self h2 hlow).trans hc
      have h4 : (1 - t) * (1 - t) * energyOf A u ≤ energyOf A (u - M D k 1 0 (A.mulVec u)) := by
        have : (1 - t) * (1 - t) * energyOf A u * energyOf A u
            ≤ energyOf A (u - M D k 1 0 (A.mulVec u)) * energyOf A u := by
          refine le_trans (le_of_eq ?_) h3
          ring
        exact le_of_mul_le_mul_right this hpos
      refine le_trans ?_ h4
      apply mul_le_mul_of_nonneg_right _ hpos.le
      nlinarith [mul_self_nonneg t]

/-- **C94**, one row on every process: for every smoother, every number `k` of smoothing steps and every number
`m` of pairs there is an error of which two levels for the difference matrix leave at least the share
`1 - 2 (k + 1) / m` in standalone mode; as a preconditioner they return at most the share `(k + 1) / m`. -/
theorem C94_one_row (debug timer : Bool) (p : Params) (type : Option (List Char)) (k : SmootherKind)
    (kind : Relaxation) (hk : dealiiSmoother debug true type = .ok k) (hk' : k.relaxation = some kind)
    (m : ℕ) (hm : 0 < m)
    (solve : ∀ l, Matrix (Fin (pairDims m 2 l)) (Fin (pairDims m 2 l)) K → (Fin (pairDims m 2 l) → K) →
      Fin (pairDims m 2 l) → K)
    (hsolve : ∀ l, SolvesExactly (solve l)) (hlev : p.maxLevels.getD 2 = 2)
    (hfast : p.fastAp.getD false = false) :
    ∃ H, (buildHierarchy debug timer (some p) (.ok (matrixHelpers debug type (pairDims m 2)
        (fun l => oneRowEach (pairDims m 2 l)) (pairMatrix (pairDims m 2 0) 0) (pairR m 2) solve))).result = .ok H ∧
      ∃ e : Fin (pairDims m 2 0) → K, 0 < energyOf (pairMatrix (pairDims m 2 0) 0) e ∧
        (p.isPreconditioner.getD true = false → ∀ fresh (x b xs : Fin (pairDims m 2 0) → K),
          (pairMatrix (pairDims m 2 0) 0).mulVec xs = b → xs - x = e →
            ∃ y, (H.vmult fresh x b).result = .ok y ∧
              (1 - 2 * ((toUnsigned (p.nSmoothingSteps.getD 1) + 1) / m))
                * energyOf (pairMatrix (pairDims m 2 0) 0) (xs - x)
                ≤ energyOf (pairMatrix (pairDims m 2 0) 0) (xs - y)) ∧
        (p.isPreconditioner.getD true = true → ∀ fresh (x b : Fin (pairDims m 2 0) → K),
          (pairMatrix (pairDims m 2 0) 0).mulVec e = b →
            ∃ y, (H.vmult fresh x b).result = .ok y ∧
              b ⬝ᵥ y ≤ (toUnsigned (p.nSmoothingSteps.getD 1) + 1) / m
                * energyOf (pairMatrix (pairDims m 2 0) 0) e) := by
  obtain ⟨H, hH, hlin, hL, hp, hn⟩ := matrixHelpers_build debug timer p type _ _ hk hk' (pairDims m 2)
    (fun l => oneRowEach (pairDims m 2 l)) (pairMatrix (pairDims m 2 0) 0) (laplace_spd _) (pairR m 2)
    (pairR_independent m 2) solve hsolve (by omega) hfast
  have hL2 : H.numLevels = 2 := by omega
  obtain ⟨h1, h2⟩ := oneRow_left (K := K) kind m (toUnsigned (p.nSmoothingSteps.getD 1)) hm _ rfl
  refine ⟨H, hH, alternating K _, alternating_pos m (pairDims_two m) hm, ?_, ?_⟩
  · intro hpre fresh x b xs hxs hx
    refine ⟨_, vmult_sa H _ hlin (by rw [hp, hpre]) (by omega) fresh x b, ?_⟩
    rw [hn, hL2, ← sub_sub, hx]
    have : b - (matrixData kind (pairDims m 2) (fun l => oneRowEach (pairDims m 2 l))
        (pairMatrix (pairDims m 2 0) (0 : K)) (pairR m 2)).A 0 x
        = (pairMatrix (pairDims m 2 0) (0 : K)).mulVec (alternating K (pairDims m 2 0)) := by
      rw [← hx, Matrix.mulVec_sub, hxs]
      rfl
    rw [this]
    exact h2
  · intro hpre fresh x b hb
    refine ⟨_, vmult_pre H _ hlin (by rw [hp, hpre]) fresh x b, ?_⟩
    rw [hn, hL2, ← hb]
    rw [show 2 - 1 = 1 from rfl]
    linarith

/-- **C94** is violated with one row on every process: for every smoother, every number of smoothing steps and
every `q < 1` there is a size of the difference matrix, with the same number of entries per row and the same
approximation by the coarse vectors as in `C94_laplace_partial`, for which some error is multiplied by more than
`q`, in standalone mode; as a preconditioner no ratio `C` holds for all sizes. -/
theorem C94_one_row_violated [Archimedean K] (debug timer : Bool) (p : Params) (type : Option (List Char))
    (k : SmootherKind) (kind : Relaxation) (hk : dealiiSmoother debug true type = .ok k)
    (hk' : k.relaxation = some kind) (hlev : p.maxLevels.getD 2 = 2) (hfast : p.fastAp.getD false = false) :
    (p.isPreconditioner.getD true = false → ∀ q : K, q < 1 → ∃ m, 0 < m ∧
      AtMostPerRow (pairMatrix (pairDims m 2 0) (0 : K)) 3 ∧
      Approximates (pairR (K := K) m 2 0) (pairMatrix (pairDims m 2 0) (0 : K)) 1 ∧
      ∀ solve : ∀ l, Matrix (Fin (pairDims m 2 l)) (Fin (pairDims m 2 l)) K → (Fin (pairDims m 2 l) → K) →
        Fin (pairDims m 2 l) → K, (∀ l, SolvesExactly (solve l)) →
      ∃ H, (buildHierarchy debug timer (some p) (.ok (matrixHelpers debug type (pairDims m 2)
        (fun l => oneRowEach (pairDims m 2 l)) (pairMatrix (pairDims m 2 0) 0) (pairR m 2) solve))).result = .ok H ∧
      ∃ fresh x b xs, (pairMatrix (pairDims m 2 0) (0 : K)).mulVec xs = b ∧
        ∃ y, (H.vmult fresh x b).result = .ok y ∧
          q * energyOf (pairMatrix (pairDims m 2 0) 0) (xs - x)
            < energyOf (pairMatrix (pairDims m 2 0) 0) (xs - y)) ∧
    (p.isPreconditioner.getD true = true → ∀ C : K, 0 ≤ C → ∃ m, 0 < m ∧
      AtMostPerRow (pairMatrix (pairDims m 2 0) (0 : K)) 3 ∧
      Approximates (pairR (K := K) m 2 0) (pairMatrix (pairDims m 2 0) (0 : K)) 1 ∧
      ∀ solve : ∀ l, Matrix (Fin (pairDims m 2 l)) (Fin (pairDims m 2 l)) K → (Fin (pairDims m 2 l) → K) →
        Fin (pairDims m 2 l) → K, (∀ l, SolvesExactly (solve l)) →
      ∃ H, (buildHierarchy debug timer (some p) (.ok (matrixHelpers debug type (pairDims m 2)
        (fun l => oneRowEach (pairDims m 2 l)) (pairMatrix (pairDims m 2 0) 0) (pairR m 2) solve))).result = .ok H ∧
      ∃ fresh x b u, (pairMatrix (pairDims m 2 0) (0 : K)).mulVec u = b ∧
        ∃ y, (H.vmult fresh x b).result = .ok y ∧
          C * (b ⬝ᵥ y) < energyOf (pairMatrix (pairDims m 2 0) 0) u) := by
  set s : K := toUnsigned (p.nSmoothingSteps.getD 1) + 1 with hs
  have hs0 : 0 < s := by positivity
  constructor
  · intro hpre q hq
    obtain ⟨m, hm⟩ := exists_nat_gt (2 * s / (1 - q))
    have hq' : 0 < 1 - q := by linarith
    have hm0 : (0 : K) < m := lt_of_le_of_lt (by positivity) hm
    have hm' : 0 < m := Nat.cast_pos.1 hm0
    refine ⟨m, hm', pair_perRow _ _, laplace_approximates m, fun solve hsolve => ?_⟩
    obtain ⟨H, hH, e, he, h, -⟩ := C94_one_row debug timer p type k kind hk hk' m hm' solve hsolve hlev hfast
    obtain ⟨y, hy, hle⟩ := h hpre 0 (0 - e) 0 0 (Matrix.mulVec_zero _) (by simp)
    refine ⟨H, hH, 0, 0 - e, 0, 0, Matrix.mulVec_zero _, y, hy, lt_of_lt_of_le ?_ hle⟩
    rw [sub_sub_cancel]
    apply mul_lt_mul_of_pos_right _ he
    rw [← hs]
    rw [div_lt_iff₀ hq'] at hm
    have : 2 * (s / m) < 1 - q := by
      rw [← mul_div_assoc, div_lt_iff₀ hm0]
      linarith
    linarith
  · intro hpre C hC
    obtain ⟨m, hm⟩ := exists_nat_gt (C * s)
    have hm0 : (0 : K) < m := lt_of_le_of_lt (by positivity) hm
    have hm' : 0 < m := Nat.cast_pos.1 hm0
    refine ⟨m, hm', pair_perRow _ _, laplace_approximates m, fun solve hsolve => ?_⟩
    obtain ⟨H, hH, e, he, -, h⟩ := C94_one_row debug timer p type k kind hk hk' m hm' solve hsolve hlev hfast
    obtain ⟨y, hy, hle⟩ := h hpre 0 0 _ rfl
    refine ⟨H, hH, 0, 0, _, e, rfl, y, hy, ?_⟩
    refine (mul_le_mul_of_nonneg_left hle hC).trans_lt ?_
    rw [← mul_assoc, ← hs, ← mul_div_assoc]
    refine (mul_lt_mul_of_pos_right ((div_lt_one hm0).2 hm) he).trans_le (one_mul _).le

end

/-! ### Conjugate gradients -/

section

/-- One cycle of a hierarchy with symmetric Gauss-Seidel smoothing on several processes. -/
theorem procs_preconditioner (debug timer : Bool) (p : Params) (type : Option (List Char))
    (htype : dealiiSmoother debug true type = .ok .symmetricGaussSeidel) (dims : ℕ → ℕ)
    (procs : ∀ l, List (List (Fin (dims l)))) (hprocs : ∀ l, ListsAll (procs l).flatten)
    (A : Matrix (Fin (dims 0)) (Fin (dims 0)) ℝ) (hA : IsSpd A)
    (R : ∀ l, Matrix (Fin (dims (l + 1))) (Fin (dims l)) ℝ) (hR : ∀ l, IndependentRows (R l))
    (c : ℝ) (hc : c < 2)
    (hw : ∀ l, l + 1 < (p.maxLevels.getD 2).toNat → CoupledAtMost (coarseMatrix dims A R l) (procs l) c)
    (solve : ∀ l, Matrix (Fin (dims l)) (Fin (dims l)) ℝ → (Fin (dims l) → ℝ) → Fin (dims l) → ℝ)
    (hsolve : ∀ l, SolvesExactly (solve l)) (hlev : 0 < p.maxLevels.getD 2)
    (hfast : p.fastAp.getD false = false) (hpre : p.isPreconditioner.getD true = true)
    (hsteps : 0 < toUnsigned (p.nSmoothingSteps.getD 1)) :
    ∃ H, (buildHierarchy debug timer (some p)
        (.ok (matrixHelpers debug type dims procs A R solve))).result = .ok H ∧
      ∃ M : Matrix (Fin (dims 0)) (Fin (dims 0)) ℝ, IsSpd M ∧
        ∀ fresh x b, (H.vmult fresh x b).result = .ok (M.mulVec b) := by
  obtain ⟨H, hH, -, -, -, -, hM⟩ := preconditioner_of_decreasing debug timer p type _ _ htype rfl dims
    procs A hA R hR solve hsolve hlev hfast hpre hsteps
    (fun l => C75_processes_symmetric (procs l) (hprocs l) _ (coarseMatrix_spd dims A hA R hR l))
    fun l hl e he => procs_strict (coarseMatrix_spd dims A hA R hR l) (hprocs l) hc (hw l hl) e he
  exact ⟨H, hH, hM⟩

/-- **C94**, conjugate gradients preconditioned with the hierarchy on any number of processes: under the conditions
of `C94_rate_partial` every system is solved and every step reduces the energy of the error by
`((w - 1) / (w + 1))²`, up to one factor of 4 altogether, for every `w` with `2 s² kappa / (2 - c) ≤ w²`. -/
theorem C94_cg_partial (debug timer : Bool) (p : Params) (type : Option (List Char))
    (htype : dealiiSmoother debug true type = .ok .symmetricGaussSeidel) (dims : ℕ → ℕ)
    (procs : ∀ l, List (List (Fin (dims l)))) (hprocs : ∀ l, ListsAll (procs l).flatten)
    (A : Matrix (Fin (dims 0)) (Fin (dims 0)) ℝ) (hA : IsSpd A)
    (R : ∀ l, Matrix (Fin (dims (l + 1))) (Fin (dims l)) ℝ) (hR : ∀ l, IndependentRows (R l))
    (s : ℕ) (hs : ∀ l, l + 1 < (p.maxLevels.getD 2).toNat → AtMostPerRow (coarseMatrix dims A R l) s)
    (c : ℝ) (hc : c < 2)
    (hw : ∀ l, l + 1 < (p.maxLevels.getD 2).toNat → CoupledAtMost (coarseMatrix dims A R l) (procs l) c)
    (kappa : ℝ) (hk : 0 < kappa) (hone : 2 - c ≤ (s : ℝ) * s * kappa)
    (happrox : ∀ l, l + 1 < (p.maxLevels.getD 2).toNat →
      StronglyApproximates (R l) (coarseMatrix dims A R l) kappa)
    (solve : ∀ l, Matrix (Fin (dims l)) (Fin (dims l)) ℝ → (Fin (dims l) → ℝ) → Fin (dims l) → ℝ)
    (hsolve : ∀ l, SolvesExactly (solve l)) (hlev : 2 ≤ p.maxLevels.getD 2)
    (hfast : p.fastAp.getD false = false) (hpre : p.isPreconditioner.getD true = true)
    (hsteps : 0 < toUnsigned (p.nSmoothingSteps.getD 1))
    (w : ℝ) (hw1 : 1 < w) (hkw : 2 * ((s : ℝ) * s * kappa / (2 - c)) ≤ w ^ 2)
    (d : ℝ) (hd : ∀ i, A i i ≤ d) (hd0 : 0 ≤ d) :
    ∃ H, (buildHierarchy debug timer (some p)
        (.ok (matrixHelpers debug type dims procs A R solve))).result = .ok H ∧
      ∀ fresh h, SolvesEverySystem A (fun tol2 b x => driverSolve debug A H fresh tol2 b x h) ∧
        ReducesEnergy A (fun tol2 b x => driverSolve debug A H fresh tol2 b x h) 4 (((w - 1) / (w + 1)) ^ 2) ∧
        FewSteps A (fun tol2 b x => driverSolve debug A H fresh tol2 b x h) (s * d) 4
          (((w - 1) / (w + 1)) ^ 2) := by
  obtain ⟨H, hH, M, hM, hv⟩ := procs_preconditioner debug timer p type htype dims procs hprocs A hA R hR c hc hw
    solve hsolve (by omega) hfast hpre hsteps
  obtain ⟨H', hH', hequiv⟩ := C94_preconditioner_partial debug timer p type htype dims procs hprocs A hA R hR s hs c hc
    hw kappa hk hone happrox solve hsolve (by omega) hfast hpre hsteps
  obtain rfl := Outcome.ok.inj (hH.symm.trans hH')
  refine ⟨H, hH, fun fresh h => ?_⟩
  obtain ⟨h1, h2⟩ := C93_equivalent debug A hA H M hM hv w hw1 (fun f x b u hu => by
    obtain ⟨y, hy, hy1, hy2⟩ := hequiv f x b u hu
    refine ⟨y, hy, hy1.trans ?_, hy2⟩
    refine mul_le_mul_of_nonneg_right hkw ?_
    rw [hv] at hy
    rw [← Outcome.ok.inj hy]
    by_cases hb : b = 0
    · simp [hb]
    · exact (hM.2 b hb).le) fresh h
  refine ⟨C92_solves_partial debug A hA H M hM hv fresh h, h1, h2 _ (residual_le_energy hA (hs 0 (by omega)) hd) ?_⟩
  exact mul_nonneg (Nat.cast_nonneg _) hd0

/-- **C94**, conjugate gradients under the weaker approximation of C77 on every level. -/
theorem C94_cg_weak_partial (debug timer : Bool) (p : Params) (type : Option (List Char))
    (htype : dealiiSmoother debug true type = .ok .symmetricGaussSeidel) (dims : ℕ → ℕ)
    (procs : ∀ l, List (List (Fin (dims l)))) (hprocs : ∀ l, ListsAll (procs l).flatten)
    (A : Matrix (Fin (dims 0)) (Fin (dims 0)) ℝ) (hA : IsSpd A)
    (R : ∀ l, Matrix (Fin (dims (l + 1))) (Fin (dims l)) ℝ) (hR : ∀ l, IndependentRows (R l))
    (s : ℕ) (hs : ∀ l, l + 1 < (p.maxLevels.getD 2).toNat → AtMostPerRow (coarseMatrix dims A R l) s)
    (c : ℝ) (hc : c < 2)
    (hw : ∀ l, l + 1 < (p.maxLevels.getD 2).toNat → CoupledAtMost (coarseMatrix dims A R l) (procs l) c)
    (kappa : ℝ) (hk : 0 < kappa) (hone : 2 - c ≤ (s : ℝ) * s * kappa)
    (happrox : ∀ l, l + 1 < (p.maxLevels.getD 2).toNat → Approximates (R l) (coarseMatrix dims A R l) kappa)
    (solve : ∀ l, Matrix (Fin (dims l)) (Fin (dims l)) ℝ → (Fin (dims l) → ℝ) → Fin (dims l) → ℝ)
    (hsolve : ∀ l, SolvesExactly (solve l)) (hlev : 2 ≤ p.maxLevels.getD 2)
    (hfast : p.fastAp.getD false = false) (hpre : p.isPreconditioner.getD true = true)
    (hsteps : 0 < toUnsigned (p.nSmoothingSteps.getD 1))
    (w : ℝ) (hw1 : 1 < w) (hkw : ((s : ℝ) * s * kappa / (2 - c)) ^ ((p.maxLevels.getD 2).toNat - 1) ≤ w ^ 2)
    (d : ℝ) (hd : ∀ i, A i i ≤ d) (hd0 : 0 ≤ d) :
    ∃ H, (buildHierarchy debug timer (some p)
        (.ok (matrixHelpers debug type dims procs A R solve))).result = .ok H ∧
      ∀ fresh h, SolvesEverySystem A (fun tol2 b x => driverSolve debug A H fresh tol2 b x h) ∧
        ReducesEnergy A (fun tol2 b x => driverSolve debug A H fresh tol2 b x h) 4 (((w - 1) / (w + 1)) ^ 2) ∧
        FewSteps A (fun tol2 b x => driverSolve debug A H fresh tol2 b x h) (s * d) 4
          (((w - 1) / (w + 1)) ^ 2) := by
  obtain ⟨H, hH, M, hM, hv⟩ := procs_preconditioner debug timer p type htype dims procs hprocs A hA R hR c hc hw
    solve hsolve (by omega) hfast hpre hsteps
  obtain ⟨H', hH', hequiv⟩ := C94_weak_partial debug timer p type htype dims procs hprocs A hA R hR s hs c hc
    hw kappa hk hone happrox solve hsolve hlev hfast hsteps
  obtain rfl := Outcome.ok.inj (hH.symm.trans hH')
  have hpos : 0 < (s : ℝ) * s * kappa := by linarith
  have hd2 : 0 < 2 - c := by linarith
  refine ⟨H, hH, fun fresh h => ?_⟩
  obtain ⟨h1, h2⟩ := C93_equivalent debug A hA H M hM hv w hw1 (fun f x b u hu => by
    obtain ⟨y, hy, hy', -⟩ := hequiv f x b u hu
    obtain ⟨hy1, hy2⟩ := hy' hpre
    have hnn : 0 ≤ b ⬝ᵥ y := by
      rw [hv] at hy
      rw [← Outcome.ok.inj hy]
      by_cases hb : b = 0
      · simp [hb]
      · exact (hM.2 b hb).le
    refine ⟨y, hy, le_trans ?_ (mul_le_mul_of_nonneg_right hkw hnn), hy2⟩
    rw [← inv_div, inv_pow, inv_mul_le_iff₀ (by positivity)] at hy1
    exact hy1) fresh h
  refine ⟨C92_solves_partial debug A hA H M hM hv fresh h, h1, h2 _ (residual_le_energy hA (hs 0 (by omega)) hd) ?_⟩
  exact mul_nonneg (Nat.cast_nonneg _) hd0

/-- **C94**, conjugate gradients for the difference matrix of any size on any number of processes that own two or
more neighbouring rows each: every step reduces the energy of the error by `25 / 49`, up to one factor of 4
altogether. -/
theorem C94_cg_laplace_partial (m : ℕ) (debug timer : Bool) (procs : ∀ l, List (List (Fin (pairDims m 2 l))))
    (hprocs : ∀ l, ListsAll (procs l).flatten) (hrows : NeighbouringRows (procs 0))
    (solve : ∀ l, Matrix (Fin (pairDims m 2 l)) (Fin (pairDims m 2 l)) ℝ → (Fin (pairDims m 2 l) → ℝ) →
      Fin (pairDims m 2 l) → ℝ)
    (hsolve : ∀ l, SolvesExactly (solve l)) :
    ∃ H, (buildHierarchy debug timer (some {}) (.ok (matrixHelpers debug none (pairDims m 2) procs
          (pairMatrix (pairDims m 2 0) 0) (pairR m 2) solve))).result = .ok H ∧
      ∀ fresh h, SolvesEverySystem (pairMatrix (pairDims m 2 0) 0)
          (fun tol2 b x => driverSolve debug (pairMatrix (pairDims m 2 0) 0) H fresh tol2 b x h) ∧
        ReducesEnergy (pairMatrix (pairDims m 2 0) 0)
          (fun tol2 b x => driverSolve debug (pairMatrix (pairDims m 2 0) 0) H fresh tol2 b x h) 4 (25 / 49) ∧
        FewSteps (pairMatrix (pairDims m 2 0) 0)
          (fun tol2 b x => driverSolve debug (pairMatrix (pairDims m 2 0) 0) H fresh tol2 b x h) 6 4 (25 / 49) := by
  have hz : ∀ l, l + 1 < ((({} : Params)).maxLevels.getD 2).toNat → l = 0 := by
    intro l hl
    have : l + 1 < 2 := hl
    omega
  obtain ⟨H, hH, h⟩ := C94_cg_weak_partial debug timer {} none (by cases debug <;> rfl) (pairDims m 2) procs hprocs
    (pairMatrix (pairDims m 2 0) 0) (laplace_spd _) (pairR m 2) (pairR_independent m 2) 3 (by
      intro l hl
      obtain rfl := hz l hl
      exact pair_perRow _ _) (7 / 4) (by norm_num) (by
      intro l hl
      obtain rfl := hz l hl
      exact laplace_coupled (hprocs 0) hrows) 1 one_pos (by norm_num) (by
      intro l hl
      obtain rfl := hz l hl
      exact laplace_approximates m) solve hsolve (by decide) rfl rfl (by decide) 6 (by norm_num) (by
      change (((3 : ℕ) : ℝ) * ((3 : ℕ) : ℝ) * 1 / (2 - 7 / 4)) ^ 1 ≤ 6 ^ 2
      norm_num) 2 (by
      intro i
      simp [pairMatrix]) (by norm_num)
  refine ⟨H, hH, fun fresh h' => ?_⟩
  have e1 : (((6 : ℝ) - 1) / (6 + 1)) ^ 2 = 25 / 49 := by norm_num
  have e2 : ((3 : ℕ) : ℝ) * 2 = 6 := by norm_num
  have := h fresh h'
  rwa [e1, e2] at this

end

/-! ### Concrete cases -/

/-- Every process owns two neighbouring rows. -/
def exTwoRows (m : ℕ) : List (List (Fin (pairDims m 2 0))) :=
  (List.finRange m).map fun k => [⟨2 * k.val, by have := k.isLt; rw [pairDims_two]; omega⟩,
    ⟨2 * k.val + 1, by have := k.isLt; rw [pairDims_two]; omega⟩]

theorem exTwoRows_neighbours (m : ℕ) : NeighbouringRows (exTwoRows m) := by
  intro own ho
  obtain ⟨k, -, rfl⟩ := List.mem_map.1 ho
  exact ⟨2 * k.val, 2, le_refl 2, rfl⟩

theorem exTwoRows_all (m : ℕ) : ListsAll (exTwoRows m).flatten := by
  constructor
  · rw [List.nodup_flatten]
    constructor
    · intro own ho
      obtain ⟨k, -, rfl⟩ := List.mem_map.1 ho
      simp
    · rw [exTwoRows, List.pairwise_map]
      refine (List.nodup_finRange m).imp ?_
      intro a b hab
      have hab' : a.val ≠ b.val := fun h => hab (Fin.ext h)
      simp only [List.disjoint_cons_left, List.mem_cons, List.not_mem_nil, or_false, Fin.mk.injEq,
        List.disjoint_nil_left, and_true]
      omega
  · intro i
    have hi : i.val < 2 * m := i.isLt.trans_eq (pairDims_two m)
    refine List.mem_flatten.2 ⟨_, List.mem_map.2 ⟨⟨i.val / 2, by omega⟩, List.mem_finRange _, rfl⟩, ?_⟩
    simp only [List.mem_cons, Fin.ext_iff, List.not_mem_nil, or_false]
    omega

/-- Two rows on every process on the finest level, one on every process on the other. -/
def exTwoRowsProcs (m : ℕ) : ∀ l, List (List (Fin (pairDims m 2 l)))
  | 0 => exTwoRows m
  | l + 1 => oneRowEach (pairDims m 2 (l + 1))

theorem exTwoRowsProcs_all (m : ℕ) : ∀ l, ListsAll (exTwoRowsProcs m l).flatten
  | 0 => exTwoRows_all m
  | _ + 1 => oneRowEach_all _

/-- Any number of processes with two rows each. -/
example (m : ℕ) := C94_laplace_partial (K := ℚ) m true false (exTwoRowsProcs m) (exTwoRowsProcs_all m)
  (exTwoRows_neighbours m) (fun l => exInvSolve l _) (fun l => exInvSolve_exact _ l)

example (m : ℕ) := C94_cg_laplace_partial m true false (exTwoRowsProcs m) (exTwoRowsProcs_all m)
  (exTwoRows_neighbours m) (fun l => exInvSolve l _) (fun l => exInvSolve_exact _ l)

/-- Five levels of the other chain with one row on every process of every level. -/
example := C94_pairs (K := ℚ) 3 5 (by norm_num) true false (fun _ => oneRowEach _) (fun _ => oneRowEach_all _)
  (fun l => exInvSolve l _) (fun l => exInvSolve_exact _ l)

/-- The conditions of the general theorems, with this chain. -/
example := C94_dominated (K := ℚ) true false { maxLevels := some 5, isPreconditioner := some false } none rfl
  (pairDims 3 5) (fun _ => oneRowEach _) (fun _ => oneRowEach_all _)
  (pairMatrix (pairDims 3 5 0) 1) (pair_spd _ 1 one_pos) (pairR 3 5) (pairR_independent 3 5) 3 (by
    intro l hl
    have hl' : l + 1 < 5 := hl
    rw [pair_coarse 3 5 1 l (by omega)]
    exact pair_perRow _ _) (2 / 3) (by norm_num) (by norm_num) (by
    intro l hl
    have hl' : l + 1 < 5 := hl
    rw [pair_coarse 3 5 1 l (by omega)]
    exact pair_dominated _ l) 3 (by norm_num) (by norm_num) (by
    intro l hl
    have hl' : l + 1 < 5 := hl
    rw [pair_coarse 3 5 1 l (by omega)]
    exact pair_strong 3 5 l) (fun l => exInvSolve l _) (fun l => exInvSolve_exact _ l) (by decide) rfl rfl
  (by decide)

theorem exChain_coupled (l : ℕ) (hl : l + 1 < 5) :
    CoupledAtMost (coarseMatrix (pairDims 3 5) (pairMatrix (pairDims 3 5 0) (1 : ℝ)) (pairR 3 5) l)
      (oneRowEach (pairDims 3 5 l)) (1 + 2 / 3) := by
  rw [pair_coarse 3 5 1 l (by omega)]
  exact dominated_coupled (pair_spd _ _ (by positivity)) (by norm_num) (by norm_num) (pair_dominated _ l)
    (oneRowEach_all _)

/-- `2 s² kappa / (2 - c) = 162` and `w = 13`. -/
example := C94_cg_partial true false { maxLevels := some 5 } none rfl (pairDims 3 5)
  (fun _ => oneRowEach _) (fun _ => oneRowEach_all _)
  (pairMatrix (pairDims 3 5 0) 1) (pair_spd _ 1 one_pos) (pairR 3 5) (pairR_independent 3 5) 3 (by
    intro l hl
    have hl' : l + 1 < 5 := hl
    rw [pair_coarse 3 5 1 l (by omega)]
    exact pair_perRow _ _) (1 + 2 / 3) (by norm_num) exChain_coupled 3 (by norm_num) (by norm_num) (by
    intro l hl
    have hl' : l + 1 < 5 := hl
    rw [pair_coarse 3 5 1 l (by omega)]
    exact pair_strong 3 5 l) (fun l => exInvSolve l _) (fun l => exInvSolve_exact _ l) (by decide) rfl rfl
  (by decide) 13 (by norm_num) (by norm_num) 3 (by
    intro i
    simp only [pairMatrix, Matrix.of_apply, if_true]
    norm_num) (by norm_num)

/-- The same chain on its own and as a preconditioner. -/
example := C94_rate_partial true false { maxLevels := some 5, isPreconditioner := some false } none rfl
  (pairDims 3 5) (fun _ => oneRowEach _) (fun _ => oneRowEach_all _)
  (pairMatrix (pairDims 3 5 0) 1) (pair_spd _ 1 one_pos) (pairR 3 5) (pairR_independent 3 5) 3 (by
    intro l hl
    have hl' : l + 1 < 5 := hl
    rw [pair_coarse 3 5 1 l (by omega)]
    exact pair_perRow _ _) (1 + 2 / 3) (by norm_num) exChain_coupled 3 (by norm_num) (by norm_num) (by
    intro l hl
    have hl' : l + 1 < 5 := hl
    rw [pair_coarse 3 5 1 l (by omega)]
    exact pair_strong 3 5 l) (fun l => exInvSolve l _) (fun l => exInvSolve_exact _ l) (by decide) rfl rfl
  (by decide)

example := C94_preconditioner_partial true false { maxLevels := some 5 } none rfl
  (pairDims 3 5) (fun _ => oneRowEach _) (fun _ => oneRowEach_all _)
  (pairMatrix (pairDims 3 5 0) 1) (pair_spd _ 1 one_pos) (pairR 3 5) (pairR_independent 3 5) 3 (by
    intro l hl
    have hl' : l + 1 < 5 := hl
    rw [pair_coarse 3 5 1 l (by omega)]
    exact pair_perRow _ _) (1 + 2 / 3) (by norm_num) exChain_coupled 3 (by norm_num) (by norm_num) (by
    intro l hl
    have hl' : l + 1 < 5 := hl
    rw [pair_coarse 3 5 1 l (by omega)]
    exact pair_strong 3 5 l) (fun l => exInvSolve l _) (fun l => exInvSolve_exact _ l) (by decide) rfl rfl
  (by decide)

/-- The difference matrix meets the weaker condition, with either use. -/
example (m : ℕ) (pre : Bool) := C94_weak_partial (K := ℚ) true false { isPreconditioner := some pre } none rfl
  (pairDims m 2) (exTwoRowsProcs m) (exTwoRowsProcs_all m) (pairMatrix (pairDims m 2 0) 0) (laplace_spd _) (pairR m 2)
  (pairR_independent m 2) 3 (fun | 0, _ => pair_perRow _ _) (7 / 4) (by norm_num)
  (fun | 0, _ => laplace_coupled (exTwoRows_all m) (exTwoRows_neighbours m)) 1 one_pos (by norm_num)
  (fun | 0, _ => laplace_approximates m) (fun l => exInvSolve l _) (fun l => exInvSolve_exact _ l) (by decide +revert) rfl
  (by decide +revert)

example (m : ℕ) := C94_cg_weak_partial true false {} none rfl
  (pairDims m 2) (exTwoRowsProcs m) (exTwoRowsProcs_all m) (pairMatrix (pairDims m 2 0) 0) (laplace_spd _) (pairR m 2)
  (pairR_independent m 2) 3 (fun | 0, _ => pair_perRow _ _) (7 / 4) (by norm_num)
  (fun | 0, _ => laplace_coupled (exTwoRows_all m) (exTwoRows_neighbours m)) 1 one_pos (by norm_num)
  (fun | 0, _ => laplace_approximates m) (fun l => exInvSolve l _) (fun l => exInvSolve_exact _ l) (by decide) rfl rfl
  (by decide) 6 (by norm_num) (by
    change (((3 : ℕ) : ℝ) * ((3 : ℕ) : ℝ) * 1 / (2 - 7 / 4)) ^ 1 ≤ 6 ^ 2
    norm_num) 2 (by
    intro i
    simp [pairMatrix]) (by norm_num)

/-- The smoothing step with two rows on every process decreases the energy of every error. -/
example (m : ℕ) := (C94_smoother (exTwoRows m) (exTwoRows_all m) (pairMatrix (pairDims m 2 0) (0 : ℚ))
  (laplace_spd _)).2 fun w hw => by
    have h1 := laplace_coupled (K := ℚ) (exTwoRows_all m) (exTwoRows_neighbours m) w
    have h2 : 0 < energyOf (pairMatrix (pairDims m 2 0) (0 : ℚ)) w := (laplace_spd _).2 w hw
    linarith

/-- One row on every process, with the default smoother and with the Jacobi method, both modes. -/
example (m : ℕ) (hm : 0 < m) := C94_one_row (K := ℚ) true false { isPreconditioner := some false } none
  .symmetricGaussSeidel .symmetricGaussSeidel rfl rfl m hm (fun l => exInvSolve l _)
  (fun l => exInvSolve_exact _ l) rfl rfl

example := C94_one_row_violated (K := ℚ) true false { nSmoothingSteps := some 3 } (some (chars! "Jacobi"))
  .jacobi .jacobi (by decide) rfl rfl rfl

example := C94_one_row_violated (K := ℚ) true false { isPreconditioner := some false } none
  .symmetricGaussSeidel .symmetricGaussSeidel rfl rfl rfl rfl

end Mfmg
