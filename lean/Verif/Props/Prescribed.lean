import Verif.Lemmas.Prescribed
import Verif.Lemmas.LanczosZeros
import Verif.Props.Units
import Verif.Props.Deflated

/-!
# Prescribed values (C110): what cycles do with unknowns that are not coupled to the others
-/

set_option autoImplicit false

namespace Mfmg

open Spec

/-! ## The cycle -/

section

variable {K : Type} [Field K]

/-- What the cycle of a hierarchy of linear maps does on a set of unknowns that is respected by all of them. -/
theorem vmult_partOn {dims : ℕ → ℕ} (H : Hierarchy (fun l => Fin (dims l) → K))
    (D : Data K (fun l => Fin (dims l) → K)) (hH : IsLinear H D)
    (hmode : H.isPreconditioner = true ∨ 2 ≤ H.numLevels) (S : ∀ l, Set (Fin (dims l)))
    (hA : ∀ l x, D.A l (partOn (S l) x) = partOn (S l) (D.A l x))
    (hB : ∀ l r, D.B l (partOn (S l) r) = partOn (S l) (D.B l r))
    (hR : ∀ l x, D.R l (partOn (S l) x) = partOn (S (l + 1)) (D.R l x))
    (hP : ∀ l y, D.P l (partOn (S (l + 1)) y) = partOn (S l) (D.P l y))
    (hC : ∀ l r, D.C l (partOn (S l) r) = partOn (S l) (D.C l r)) :
    (∀ fresh fresh' b b' x x', AgreeOn (S 0) b b' → AgreeOn (S 0) x x' →
      ∃ y y', (H.vmult fresh x b).result = .ok y ∧ (H.vmult fresh' x' b').result = .ok y' ∧
        AgreeOn (S 0) y y') ∧
    (H.isPreconditioner = false → ∀ fresh b x, AgreeOn (S 0) (D.A 0 x) b →
      ∃ y, (H.vmult fresh x b).result = .ok y ∧ AgreeOn (S 0) y x) := by
  have hcyc : ∀ b x : Fin (dims 0) → K, cycle D H.nSmoothingSteps (H.numLevels - 1) 0
      (partOn (S 0) b) (partOn (S 0) x)
      = partOn (S 0) (cycle D H.nSmoothingSteps (H.numLevels - 1) 0 b x) := by
    intro b x
    have := cycle_transport D D (fun l => partOn (S l)) 1 H.numLevels (fun l _ x => by rw [hA, one_smul])
      (fun l _ r => by rw [one_smul, hB]) (fun l _ => hR l) (fun l _ => hP l)
      (fun l _ r => by rw [one_smul, hC]) H.nSmoothingSteps (H.numLevels - 1) 0
      (by have := hH.pos; omega) b x
    rwa [one_smul] at this
  have hpart : ∀ b b' x x' : Fin (dims 0) → K, AgreeOn (S 0) b b' → AgreeOn (S 0) x x' →
      AgreeOn (S 0) (cycle D H.nSmoothingSteps (H.numLevels - 1) 0 b x)
        (cycle D H.nSmoothingSteps (H.numLevels - 1) 0 b' x') := by
    intro b b' x x' hb hx
    rw [← partOn_eq_iff, ← hcyc, ← hcyc, (partOn_eq_iff b b').2 hb, (partOn_eq_iff x x').2 hx]
  constructor
  · intro fresh fresh' b b' x x' hb hx
    refine ⟨_, _, C04_cycle_is_textbook H D hH fresh x b hmode,
      C04_cycle_is_textbook H D hH fresh' x' b' hmode, ?_⟩
    cases H.isPreconditioner
    · exact hpart _ _ _ _ hb hx
    · exact hpart _ _ _ _ hb (fun _ _ => rfl)
  · intro hsa fresh b x hb
    refine ⟨_, C04_cycle_is_textbook H D hH fresh x b hmode, ?_⟩
    rw [hsa]
    have h2 : 2 ≤ H.numLevels := hmode.resolve_left (by rw [hsa]; simp)
    have hfix : cycle D H.nSmoothingSteps (H.numLevels - 1) 0 (D.A 0 x) x = x := by
      obtain ⟨d, hd⟩ : ∃ d, H.numLevels - 1 = d + 1 := ⟨H.numLevels - 2, by omega⟩
      rw [hd, cycle_affine, sub_self, map_zero, add_zero]
    have := hpart b (D.A 0 x) x x (fun i hi => (hb i hi).symm) (fun _ _ => rfl)
    rw [hfix] at this
    exact this

/-- The value of an unknown that is set by the last smoothing step or by the direct solver. -/
theorem vmult_alone {dims : ℕ → ℕ} (H : Hierarchy (fun l => Fin (dims l) → K))
    (D : Data K (fun l => Fin (dims l) → K)) (hH : IsLinear H D)
    (hmode : H.isPreconditioner = true ∨ 2 ≤ H.numLevels) (hs : 0 < H.nSmoothingSteps)
    (c : Fin (dims 0)) (a : K) (ha : a ≠ 0) (hA : ∀ x, D.A 0 x c = a * x c)
    (hB : ∀ r, D.B 0 r c = r c / a) (hC : ∀ r, a * D.C 0 r c = r c)
    (fresh : ∀ l, Fin (dims l) → K) (b x : Fin (dims 0) → K) :
    ∃ y, (H.vmult fresh x b).result = .ok y ∧ a * y c = b c := by
  refine ⟨_, C04_cycle_is_textbook H D hH fresh x b hmode, ?_⟩
  generalize (if H.isPreconditioner = true then (0 : Fin (dims 0) → K) else x) = x
  obtain ⟨k, hk⟩ : ∃ k, H.nSmoothingSteps = k + 1 := ⟨H.nSmoothingSteps - 1, by omega⟩
  cases hd : H.numLevels - 1 with
  | zero => exact hC b
  | succ d =>
    simp only [cycle]
    rw [hk, Function.iterate_succ_apply' (richardson D 0 b) k (_ + _)]
    simp only [richardson, Pi.add_apply, Pi.sub_apply, hB, hA]
    field_simp
    ring

variable [LinearOrder K] [IsStrictOrderedRing K]

theorem spd_diag_ne {n : ℕ} {A : Matrix (Fin n) (Fin n) K} (hA : IsSpd A) (c : Fin n) : A c c ≠ 0 := by
  have := hA.2 (Pi.single c 1) (by simp)
  rw [Matrix.mulVec_single_one, single_dotProduct, one_mul] at this
  exact this.ne'

omit [IsStrictOrderedRing K] in
/-- **C110**, blocks: unknowns `S 0` that are not coupled to the others and are not mixed with them by the
restriction matrices.  For every smoother, any number of levels and processes, what the hierarchy returns there
depends on nothing but the right-hand side and the start vector there; and in a standalone cycle values that
fulfil their equations are kept. -/
theorem C110_blocks (debug timer : Bool) (p : Params) (type : Option (List Char)) (k : SmootherKind)
    (hk : dealiiSmoother debug true type = .ok k) (dims : ℕ → ℕ)
    (procs : ∀ l, List (List (Fin (dims l)))) (graph : ∀ l, Fin (dims l) → Fin (dims l) → Bool)
    (A : Matrix (Fin (dims 0)) (Fin (dims 0)) K) (hA : IsSpd A)
    (R : ∀ l, Matrix (Fin (dims (l + 1))) (Fin (dims l)) K) (hR : ∀ l, IndependentRows (R l))
    (solve : ∀ l, Matrix (Fin (dims l)) (Fin (dims l)) K → (Fin (dims l) → K) → Fin (dims l) → K)
    (hsolve : ∀ l, SolvesExactly (solve l)) (hpos : 0 < p.maxLevels.getD 2)
    (hfast : p.fastAp.getD false = false)
    (hmode : p.isPreconditioner.getD true = true ∨ 2 ≤ p.maxLevels.getD 2)
    (S : ∀ l, Set (Fin (dims l))) (hS : NotCoupled A (S 0)) (hsep : ∀ l, Separates (R l) (S (l + 1)) (S l)) :
    ∃ H : Hierarchy (fun l => Fin (dims l) → K),
      (buildHierarchy debug timer (some p)
        (.ok (fullHelpers debug type dims procs graph A R solve))).result = .ok H ∧
      (∀ fresh fresh' b b' x x', AgreeOn (S 0) b b' → AgreeOn (S 0) x x' →
        ∃ y y', (H.vmult fresh x b).result = .ok y ∧ (H.vmult fresh' x' b').result = .ok y' ∧
          AgreeOn (S 0) y y') ∧
      (p.isPreconditioner.getD true = false → ∀ fresh b x, AgreeOn (S 0) (A.mulVec x) b →
        ∃ y, (H.vmult fresh x b).result = .ok y ∧ AgreeOn (S 0) y x) := by
  have hc := coarseMatrix_notCoupled dims A R S hS hsep
  have hdet := fun l => spd_det (coarseMatrix_spd dims A hA R hR l)
  cases hrel : k.relaxation with
  | some kind =>
    rw [fullHelpers_relaxation debug type k kind hk hrel]
    obtain ⟨H, e, h1, h2, h3, h4⟩ := matrixHelpers_build debug timer p type k kind hk hrel dims procs A hA R hR
      solve hsolve hpos hfast
    obtain ⟨g1, g2⟩ := vmult_partOn H _ h1 (by rw [h3, h2]; exact hmode.imp id (fun h => by omega)) S
      (fun l x => partOn_mulVec (separates_of_notCoupled (hc l)) x)
      (fun l r => relaxVmult_partOn (hc l) kind (procs l) r) (fun l x => partOn_mulVec (hsep l) x)
      (fun l y => partOn_mulVec (separates_transpose (hsep l)) y) (fun l r => partOn_inv (hc l) (hdet l) r)
    exact ⟨H, e, g1, fun h => g2 (h3.trans h)⟩
  | none =>
    obtain rfl : k = .ilu := by cases k <;> simp_all [SmootherKind.relaxation]
    obtain ⟨H, e, h1, h2, h3, h4⟩ := fullHelpers_build debug timer p type hk dims procs graph A hA R hR
      solve hsolve hpos hfast
    obtain ⟨g1, g2⟩ := vmult_partOn H _ h1 (by rw [h3, h2]; exact hmode.imp id (fun h => by omega)) S
      (fun l x => partOn_mulVec (separates_of_notCoupled (hc l)) x)
      (fun l r => iluVmult_partOn (hc l) (graph l) (procs l) r) (fun l x => partOn_mulVec (hsep l) x)
      (fun l y => partOn_mulVec (separates_transpose (hsep l)) y) (fun l r => partOn_inv (hc l) (hdet l) r)
    exact ⟨H, e, g1, fun h => g2 (h3.trans h)⟩

/-- **C110**, prescribed values: an unknown that occurs in no equation but its own `A c c * x c = b c` has the
value prescribed by this equation after every cycle, for every smoother, any number of levels and processes,
any restriction matrices, as a solver from any start vector and as a preconditioner.  Missing: cycles without
smoothing, see `C110_unsmoothed_violated`. -/
theorem C110_prescribed_partial (debug timer : Bool) (p : Params) (type : Option (List Char)) (k : SmootherKind)
    (hk : dealiiSmoother debug true type = .ok k) (dims : ℕ → ℕ)
    (procs : ∀ l, List (List (Fin (dims l)))) (hprocs : ListsAll (procs 0).flatten)
    (graph : ∀ l, Fin (dims l) → Fin (dims l) → Bool)
    (A : Matrix (Fin (dims 0)) (Fin (dims 0)) K) (hA : IsSpd A)
    (R : ∀ l, Matrix (Fin (dims (l + 1))) (Fin (dims l)) K) (hR : ∀ l, IndependentRows (R l))
    (solve : ∀ l, Matrix (Fin (dims l)) (Fin (dims l)) K → (Fin (dims l) → K) → Fin (dims l) → K)
    (hsolve : ∀ l, SolvesExactly (solve l)) (hpos : 0 < p.maxLevels.getD 2)
    (hfast : p.fastAp.getD false = false)
    (hmode : p.isPreconditioner.getD true = true ∨ 2 ≤ p.maxLevels.getD 2)
    (hsteps : 0 < toUnsigned (p.nSmoothingSteps.getD 1)) :
    ∃ H : Hierarchy (fun l => Fin (dims l) → K),
      (buildHierarchy debug timer (some p)
        (.ok (fullHelpers debug type dims procs graph A R solve))).result = .ok H ∧
      ∀ c, Alone A c → ∀ fresh b x, ∃ y, (H.vmult fresh x b).result = .ok y ∧ A c c * y c = b c := by
  have hinv : ∀ (c : Fin (dims 0)) (_ : Alone A c) (r : Fin (dims 0) → K), A c c * (A⁻¹.mulVec r) c = r c := by
    intro c hc r
    rw [← alone_mulVec hc, Matrix.mulVec_mulVec,
      Matrix.mul_nonsing_inv _ (isUnit_iff_ne_zero.2 (spd_det hA)), Matrix.one_mulVec]
  cases hrel : k.relaxation with
  | some kind =>
    rw [fullHelpers_relaxation debug type k kind hk hrel]
    obtain ⟨H, e, h1, h2, h3, h4⟩ := matrixHelpers_build debug timer p type k kind hk hrel dims procs A hA R hR
      solve hsolve hpos hfast
    refine ⟨H, e, fun c hc => ?_⟩
    exact vmult_alone H _ h1 (by rw [h3, h2]; exact hmode.imp id (fun h => by omega)) (by rw [h4]; exact hsteps)
      c (A c c) (spd_diag_ne hA c) (fun x => alone_mulVec hc x)
      (fun r => relaxVmult_alone hc (spd_diag_ne hA c) kind hprocs r) (hinv c hc)
  | none =>
    obtain rfl : k = .ilu := by cases k <;> simp_all [SmootherKind.relaxation]
    obtain ⟨H, e, h1, h2, h3, h4⟩ := fullHelpers_build debug timer p type hk dims procs graph A hA R hR
      solve hsolve hpos hfast
    refine ⟨H, e, fun c hc => ?_⟩
    exact vmult_alone H _ h1 (by rw [h3, h2]; exact hmode.imp id (fun h => by omega)) (by rw [h4]; exact hsteps)
      c (A c c) (spd_diag_ne hA c) (fun x => alone_mulVec hc x)
      (fun r => iluVmult_alone hc (graph 0) hprocs r) (hinv c hc)

end

/-- **C110**, blocks, for matrix-free hierarchies with Chebyshev smoothing. -/
theorem C110_chebyshev_blocks (debug timer : Bool) (p : Params) (type : Option (List Char))
    (htype : EqNoCase (type.getD (chars! "Chebyshev")) (chars! "chebyshev")) (degree : Option ℤ)
    (range maxEigenvalue : Option ℝ) (auto : ℕ) (dims : ℕ → ℕ) (dinv : ∀ l, Fin (dims l) → ℝ)
    (estimate : ∀ l, ((Fin (dims l) → ℝ) → Fin (dims l) → ℝ) → (Fin (dims l) → ℝ) → List ℝ)
    (A : Matrix (Fin (dims 0)) (Fin (dims 0)) ℝ) (hA : IsSpd A)
    (R : ∀ l, Matrix (Fin (dims (l + 1))) (Fin (dims l)) ℝ) (hR : ∀ l, IndependentRows (R l))
    (solve : ∀ l, Matrix (Fin (dims l)) (Fin (dims l)) ℝ → (Fin (dims l) → ℝ) → Fin (dims l) → ℝ)
    (hsolve : ∀ l, SolvesExactly (solve l)) (hlev : p.maxLevels.getD 2 = 2)
    (hfast : p.fastAp.getD false = false)
    (S : ∀ l, Set (Fin (dims l))) (hS : NotCoupled A (S 0)) (hsep : ∀ l, Separates (R l) (S (l + 1)) (S l)) :
    ∃ H : Hierarchy (fun l => Fin (dims l) → ℝ),
      (buildHierarchy debug timer (some p) (.ok (matrixFreeHelpers debug type degree range maxEigenvalue
        auto dims dinv estimate A R solve))).result = .ok H ∧
      (∀ fresh fresh' b b' x x', AgreeOn (S 0) b b' → AgreeOn (S 0) x x' →
        ∃ y y', (H.vmult fresh x b).result = .ok y ∧ (H.vmult fresh' x' b').result = .ok y' ∧
          AgreeOn (S 0) y y') ∧
      (p.isPreconditioner.getD true = false → ∀ fresh b x, AgreeOn (S 0) (A.mulVec x) b →
        ∃ y, (H.vmult fresh x b).result = .ok y ∧ AgreeOn (S 0) y x) := by
  have hc := coarseMatrix_notCoupled dims A R S hS hsep
  have hdet := fun l => spd_det (coarseMatrix_spd dims A hA R hR l)
  obtain ⟨H, e, h1, h2, h3, h4⟩ := matrixFreeHelpers_build debug timer p type htype degree range maxEigenvalue
    auto dims dinv estimate A hA R hR solve hsolve hlev hfast
  obtain ⟨g1, g2⟩ := vmult_partOn H _ h1 (Or.inr h2.ge) S
    (fun l x => partOn_mulVec (separates_of_notCoupled (hc l)) x)
    (fun l r => chebyshevVmult_partOn (hc l) _ auto _ (dinv l) r) (fun l x => partOn_mulVec (hsep l) x)
    (fun l y => partOn_mulVec (separates_transpose (hsep l)) y) (fun l r => partOn_inv (hc l) (hdet l) r)
  exact ⟨H, e, g1, fun h => g2 (h3.trans h)⟩

/-- An unknown whose error every smoothing step multiplies by `q` and which no coarse correction reaches. -/
theorem vmult_damped {K : Type} [Field K] {dims : ℕ → ℕ} (H : Hierarchy (fun l => Fin (dims l) → K))
    (D : Data K (fun l => Fin (dims l) → K)) (hH : IsLinear H D) (hlev : H.numLevels = 2)
    (c : Fin (dims 0)) (a t : K) (ha : a ≠ 0) (hA : ∀ x, D.A 0 x c = a * x c)
    (hB : ∀ r, D.B 0 r c = t * (r c / a)) (hP : ∀ z, D.P 0 z c = 0)
    (fresh : ∀ l, Fin (dims l) → K) (b x : Fin (dims 0) → K) :
    ∃ y, (H.vmult fresh x b).result = .ok y ∧
      y c - b c / a = (1 - t) ^ (2 * H.nSmoothingSteps)
        * ((if H.isPreconditioner then 0 else x c) - b c / a) := by
  refine ⟨_, C04_cycle_is_textbook H D hH fresh x b (Or.inr hlev.ge), ?_⟩
  have hx : (if H.isPreconditioner = true then (0 : K) else x c)
      = (if H.isPreconditioner = true then (0 : Fin (dims 0) → K) else x) c := by
    split_ifs <;> rfl
  rw [hx]
  generalize (if H.isPreconditioner = true then (0 : Fin (dims 0) → K) else x) = x
  have hit : ∀ n (x : Fin (dims 0) → K), ((richardson D 0 b)^[n] x) c - b c / a
      = (1 - t) ^ n * (x c - b c / a) := by
    intro n
    induction n with
    | zero => intro x; simp
    | succ n ih =>
      intro x
      rw [Function.iterate_succ_apply', pow_succ', mul_assoc, ← ih]
      simp only [richardson, Pi.add_apply, Pi.sub_apply, hB, hA]
      field_simp
      ring
  rw [hlev]
  simp only [cycle]
  rw [hit, Pi.add_apply, hP, add_zero, hit, two_mul, pow_add, mul_assoc]

/-- **C110**, prescribed values with Chebyshev smoothing: in a matrix-free hierarchy with the default degree a
wrong value of a constrained dof (diagonal entry known exactly, not reached by the coarse level) is still wrong
after the cycle, whatever the number of smoothing steps, unless the interval of the smoother is centred at 1; in
particular the preconditioner does not return `b c / A c c`.  The relaxation smoothers set it exactly
(`C110_prescribed_partial`). -/
theorem C110_chebyshev_violated (debug timer : Bool) (p : Params) (type : Option (List Char))
    (htype : EqNoCase (type.getD (chars! "Chebyshev")) (chars! "chebyshev"))
    (range maxEigenvalue : Option ℝ) (auto : ℕ) (dims : ℕ → ℕ) (dinv : ∀ l, Fin (dims l) → ℝ)
    (estimate : ∀ l, ((Fin (dims l) → ℝ) → Fin (dims l) → ℝ) → (Fin (dims l) → ℝ) → List ℝ)
    (A : Matrix (Fin (dims 0)) (Fin (dims 0)) ℝ) (hA : IsSpd A)
    (R : ∀ l, Matrix (Fin (dims (l + 1))) (Fin (dims l)) ℝ) (hR : ∀ l, IndependentRows (R l))
    (solve : ∀ l, Matrix (Fin (dims l)) (Fin (dims l)) ℝ → (Fin (dims l) → ℝ) → Fin (dims l) → ℝ)
    (hsolve : ∀ l, SolvesExactly (solve l)) (hlev : p.maxLevels.getD 2 = 2)
    (hfast : p.fastAp.getD false = false) (c : Fin (dims 0)) (hc : Alone A c) (hdinv : dinv 0 c * A c c = 1)
    (hRc : ∀ j, R 0 j c = 0) (lo hi : ℝ)
    (hint : chebyshevInterval (ChebyshevData.settings ⟨none, range, maxEigenvalue⟩)
      (estimate 0 A.mulVec (dinv 0)) = (lo, hi)) (hcentre : (hi + lo) / 2 ≠ 1) :
    ∃ H : Hierarchy (fun l => Fin (dims l) → ℝ),
      (buildHierarchy debug timer (some p) (.ok (matrixFreeHelpers debug type none range maxEigenvalue
        auto dims dinv estimate A R solve))).result = .ok H ∧
      ∀ fresh b x, (if p.isPreconditioner.getD true then 0 else A c c * x c) ≠ b c →
        ∃ y, (H.vmult fresh x b).result = .ok y ∧ A c c * y c ≠ b c := by
  obtain ⟨H, e, h1, h2, h3, h4⟩ := matrixFreeHelpers_build debug timer p type htype none range maxEigenvalue
    auto dims dinv estimate A hA R hR solve hsolve hlev hfast
  refine ⟨H, e, fun fresh b x hx => ?_⟩
  have ha := spd_diag_ne hA c
  have hd : dinv 0 c = 1 / A c c := by
    field_simp
    exact hdinv
  obtain ⟨y, hy, hval⟩ := vmult_damped H _ h1 h2 c (A c c) (1 / ((hi + lo) / 2)) ha
    (fun x => alone_mulVec hc x)
    (by
      intro r
      change chebyshevVmult (ChebyshevData.settings ⟨none, range, maxEigenvalue⟩) auto
        (estimate 0 A.mulVec (dinv 0)) (coarseMatrix dims A R 0).mulVec (dinv 0) r c = _
      simp only [chebyshevVmult, hint]
      have hdeg : (ChebyshevData.settings (⟨none, range, maxEigenvalue⟩ : ChebyshevData ℝ)).degree = 1 := rfl
      have hno : ¬ (1 : ℕ) = 2 ^ 32 - 1 := by norm_num
      rw [hdeg, if_neg hno, if_pos (Or.inl (by norm_num))]
      simp only [Pi.smul_apply, smul_eq_mul, hd]
      ring)
    (by
      intro z
      change ((R 0).transpose.mulVec z) c = 0
      simp only [Matrix.mulVec, dotProduct, Matrix.transpose_apply]
      exact Finset.sum_eq_zero fun j _ => by rw [hRc, zero_mul])
    fresh b x
  refine ⟨y, hy, fun hbad => ?_⟩
  have hyc : y c - b c / A c c = 0 := by
    rw [← hbad]
    field_simp
    ring
  rw [hyc] at hval
  rcases mul_eq_zero.1 hval.symm with h | h
  · have h0 := sub_eq_zero.1 (eq_zero_of_pow_eq_zero h)
    rw [eq_comm, div_eq_one_iff_eq (fun h => by rw [h, div_zero] at h0; exact zero_ne_one h0)] at h0
    exact hcentre h0.symm
  · apply hx
    rw [h3] at h
    have h' := sub_eq_zero.1 h
    split_ifs at h' ⊢
    · rw [eq_comm, div_eq_zero_iff] at h'
      exact (h'.resolve_right ha).symm
    · rw [h']
      field_simp

/-! ## The restriction matrix -/

/-- **C110**, Lanczos: every vector returned for a local eigenproblem, with and without deflation, vanishes on
the constrained dofs, whatever LAPACK answers, if the equations of the constrained dofs hold no other dofs.
A returned vector may also be a default-constructed one, if fewer vectors are computed than wanted. -/
theorem C110_lanczos (debug : Bool) (dstev : List ℝ → List ℝ → List ℝ × List ℝ)
    (sortPerm : List ℝ → List ℕ) (noise : ℕ → ℕ → ℝ) (size : ℕ) (M : ℕ → ℕ → ℝ) (constrained : ℕ → Bool)
    (draw : ℕ → ℝ) (emptyVec : EuclideanSpace ℝ (Fin size)) (n : ℕ) (tolerance : ℝ) (o : LanczosOptions)
    (hM : ∀ i j, i < size → j < size → constrained i = true → constrained j = false → M i j = 0)
    (es : List ℝ) (ys : List (EuclideanSpace ℝ (Fin size)))
    (h : localLanczos debug dstev sortPerm noise size M constrained draw emptyVec n tolerance o = .ok (es, ys)) :
    ∀ y ∈ ys, y = emptyVec ∨ ∀ i : Fin size, constrained i = true → y i = 0 := by
  unfold localLanczos at h
  simp only [Outcome.bind_eq_ok] at h
  obtain ⟨r, hr, _, -, es', -, h⟩ := h
  simp only [Outcome.ok.injEq, Prod.mk.injEq] at h
  obtain ⟨rfl, rfl⟩ := h
  refine lanczosSolve_mem (freeVectors size constrained) ?_ ?_ ?_ hr
  · intro x hx i hi
    rw [matOp_apply]
    refine Finset.sum_eq_zero fun j _ => ?_
    cases hj : constrained j with
    | true => rw [hx j hj, mul_zero]
    | false => rw [hM i j i.2 j.2 hi hj, zero_mul]
  · intro c x hx i hi
    change (1 + noise c i) * x i = 0
    rw [hx i hi, mul_zero]
  · intro i hi
    change (setInitialGuess constrained draw size 0 0).getD i 0 = 0
    rw [List.getD_eq_getElem?_getD, C39_guess_constrained constrained draw size i i.2 hi]
    rfl

section

variable {K : Type} [Field K]

theorem localMatrixBased_length {debug : Bool} {type : Option (List Char)} {n size : ℕ} {A : ℕ → ℕ → K}
    {constrained : List ℕ} {S : EigenSolvers K} (htype : type.getD (chars! "arpack") ∈ eigensolverNames)
    (h1 : EigenContract size S.arpack) (h2 : EigenContract size S.lanczos) (h3 : EigenContract size S.anasazi)
    (h4 : EigenContract size S.lapack) {es : List K} {vs : List (List K)} {diag : List K}
    (h : localMatrixBased debug type n size A constrained S = .ok (es, vs, diag)) : vs.length ≤ es.length := by
  have hit : ∀ (r r' : List K × List (List K)), r.1.length = r.2.length →
      takeIterative debug n r (List.replicate n 0) = .ok r' → r'.2.length ≤ r'.1.length := by
    intro r r' hr h
    simp only [takeIterative, copyInto, Outcome.bind_eq_ok] at h
    obtain ⟨_, -, es, he, h⟩ := h
    split_ifs at he
    simp only [Outcome.ok.injEq] at he h
    subst he h
    simp only [List.length_append]
    omega
  unfold localMatrixBased at h
  obtain ⟨r, hr, h⟩ := Outcome.bind_eq_ok.1 h
  simp only [Outcome.ok.injEq, Prod.mk.injEq] at h
  obtain ⟨rfl, rfl, rfl⟩ := h
  rw [List.length_map]
  generalize type.getD (chars! "arpack") = name at htype hr
  unfold solveMatrixBased at hr
  dsimp only at hr
  split_ifs at hr with c1 c2 c3 c4
  · simp only [Outcome.ok.injEq] at hr
    subst hr
    exact (h1 _).1.ge
  · exact hit _ _ (h2 _).1 hr
  · exact hit _ _ (h3 _).1 hr
  · unfold takeLapack at hr
    split_ifs at hr with c
    simp only [Outcome.ok.injEq] at hr
    subst hr
    simp only [List.length_take]
    have := (h4 (shiftedMatrix size A constrained)).1
    omega
  · simp only [eigensolverNames, List.mem_cons, List.not_mem_nil, or_false] at htype
    tauto

/-- **C110**, matrix-based agglomerates: the restriction matrix of all processes vanishes at a dof that is
constrained in every agglomerate it belongs to, provided no eigenvalue found is the one given to constrained
dofs.  Missing: the other case, see `C110_unsmoothed_violated`. -/
theorem C110_restriction_partial (debug dynAdds : Bool) (gdiag : ℕ → K) (css : List (List (CopyData K)))
    (hcs : ∀ cs ∈ css, ∀ d ∈ cs, d.WellFormed) (x : ℕ)
    (hx : ∀ cs ∈ css, ∀ d ∈ cs, x ∈ d.dofMap → ConstrainedIn x d) :
    ∃ a, assembleAll debug dynAdds gdiag (css.map collect) = .ok a ∧ ∀ q, a.R q x = 0 := by
  obtain ⟨a, h, h1, h2⟩ := C20_rows debug dynAdds gdiag css hcs
  refine ⟨a, h, fun q => ?_⟩
  by_cases hq : (rowsOf css.flatten).length ≤ q
  · exact h2 q hq x
  obtain ⟨⟨d, v⟩, hdv⟩ : ∃ dv, (rowsOf css.flatten)[q]? = some dv :=
    ⟨_, List.getElem?_eq_getElem (by omega)⟩
  rw [h1 q d v hdv x]
  have hmem := List.mem_of_getElem? hdv
  unfold rowsOf at hmem
  obtain ⟨d', hd', hv'⟩ := List.mem_flatMap.1 hmem
  obtain ⟨v', hv, heq⟩ := List.mem_map.1 hv'
  simp only [Prod.mk.injEq] at heq
  obtain ⟨rfl, rfl⟩ := heq
  obtain ⟨cs, hcs', hdc⟩ := List.mem_flatten.1 hd'
  have hwf := hcs cs hcs' d' hdc
  have hzero : extend d'.dofMap v' x = 0 := by
    by_cases hxd : x ∈ d'.dofMap
    · obtain ⟨debug', type, n, i, A, constrained, S, ht, c1, c2, c3, c4, hrun, hi, hcon, hrow, hne⟩ :=
        hx cs hcs' d' hdc hxd
      obtain ⟨k, hk⟩ := List.getElem?_of_mem hv
      have hkl : k < d'.eigenvectors.length := (List.getElem?_eq_some_iff.1 hk).1
      have hlen := localMatrixBased_length ht c1 c2 c3 c4 hrun
      obtain ⟨m, hm⟩ : ∃ m, d'.eigenvalues[k]? = some m := ⟨_, List.getElem?_eq_getElem (by omega)⟩
      have hil : i < d'.dofMap.length := (List.getElem?_eq_some_iff.1 hi).1
      have := C40_constrained_rows debug' type ht n d'.dofMap.length A constrained S c1 c2 c3 c4 _ _ _ hrun
        k m v' hm hk i hil hcon hrow
      have hvi := this.resolve_right (hne m (List.mem_of_getElem? hm))
      rw [extend_getElem hwf.nodup (hwf.vec_length v' hv) hi]
      exact hvi
    · exact extend_not_mem hxd
  rw [hzero, mul_zero]

end

/-! ## Cycles without smoothing -/

/-- An eigensolver that knows the matrix `200 I`. -/
noncomputable def exBoth (M : ℕ → ℕ → ℝ) : List ℝ × List (List ℝ) :=
  open Classical in
  if ∀ i j, i < 2 → j < 2 → M i j = if i = j then 200 else 0 then ([200], [[1, 1]]) else ([], [])

theorem exBoth_contract : EigenContract 2 exBoth := by
  intro M
  unfold exBoth
  split_ifs with h
  · refine ⟨rfl, ?_⟩
    intro k l v hl hv
    cases k with
    | zero =>
      simp only [List.getElem?_cons_zero, Option.some.injEq] at hl hv
      subst hl hv
      refine ⟨rfl, ?_⟩
      intro i hi
      have h0 := h i 0 hi (by norm_num)
      have h1 := h i 1 hi (by norm_num)
      simp only [matVec, List.range_succ, List.range_zero, List.nil_append, List.map_append, List.map_cons,
        List.map_nil, List.sum_append, List.sum_cons, List.sum_nil, h0, h1]
      rcases (by omega : i = 0 ∨ i = 1) with rfl | rfl <;> norm_num
    | succ k => simp at hl
  · exact ⟨rfl, by simp⟩

theorem twoDofs_shifted (a : ℝ) (i j : ℕ) (hi : i < 2) (hj : j < 2) :
    shiftedMatrix 2 (twoDofs a (400 - 3 * a)) [1] i j = if i = j then 200 else 0 := by
  rw [C40_shifted 2 _ _ i j hi]
  have hsum : ((List.range 2).map fun k => twoDofs a (400 - 3 * a) k k).sum = 400 - 2 * a := by
    simp [twoDofs, List.range_succ]
    ring
  rw [hsum]
  rcases (by omega : i = 0 ∨ i = 1) with rfl | rfl
  · by_cases h : 0 = j
    · subst h
      simp only [if_true]
      rw [if_neg (by simp)]
      simp only [twoDofs, if_true]
      push_cast
      ring
    · rw [if_neg h, if_neg h]
      simp only [twoDofs, if_neg h]
  · by_cases h : 1 = j
    · subst h
      simp
    · rw [if_neg h, if_neg h]
      simp only [twoDofs, if_neg h]

theorem twoDofs_local (debug : Bool) (a : ℝ) :
    localMatrixBased debug none 1 2 (twoDofs a (400 - 3 * a)) [1] ⟨exBoth, exBoth, exBoth, exBoth⟩
      = .ok ([a], [[1, 1]], [a, 400 - 3 * a]) := by
  have h : exBoth (shiftedMatrix 2 (twoDofs a (400 - 3 * a)) [1]) = ([200], [[1, 1]]) := by
    unfold exBoth
    exact if_pos (twoDofs_shifted a)
  have hd : diagElements 2 (twoDofs a (400 - 3 * a)) = [a, 400 - 3 * a] := by
    simp [diagElements, twoDofs, List.range_succ]
  have hav : averageDiagonal 2 (twoDofs a (400 - 3 * a)) = 200 - a := by
    rw [averageDiagonal, hd]
    simp
    ring
  simp only [localMatrixBased, solveMatrixBased, Option.getD_none, if_true, Outcome.ok_bind, h, hd, hav,
    List.map_cons, List.map_nil]
  norm_num

theorem unsmoothed_value {a : ℝ} {H : Hierarchy (fun l => Fin (twoLevels 2 1 l) → ℝ)}
    {D : Data ℝ (fun l => Fin (twoLevels 2 1 l) → ℝ)} (hH : IsLinear H D) (hl : H.numLevels = 2)
    (hp : H.isPreconditioner = false) (hs : H.nSmoothingSteps = 0)
    (ha' : a < 400 / 3) (hR : D.R 0 = exSumRow.mulVecLin) (hP : D.P 0 = exSumRow.transpose.mulVecLin)
    (hC : D.C 1 = (galerkin exSumRow (Matrix.of fun i j : Fin 2 => twoDofs a (400 - 3 * a) i j))⁻¹.mulVecLin)
    (fresh : ∀ l, Fin (twoLevels 2 1 l) → ℝ) (b : Fin (twoLevels 2 1 0) → ℝ) (hb : b (0 : Fin 2) ≠ 0)
    (hb' : b (1 : Fin 2) = 0) :
    ∃ y : Fin (twoLevels 2 1 0) → ℝ, (H.vmult fresh 0 b).result = .ok y ∧ y (1 : Fin 2) ≠ 0 := by
  refine ⟨_, C04_cycle_is_textbook H D hH fresh _ _ (Or.inr hl.ge), ?_⟩
  rw [hl, hs, hp]
  have hcyc : cycle D 0 (2 - 1) 0 b (if false = true then 0 else 0) = D.P 0 (D.C 1 (D.R 0 b)) := by
    simp [cycle]
  rw [hcyc, hR, hP, hC]
  obtain ⟨G, hG⟩ : ∃ G, G = galerkin exSumRow (Matrix.of fun i j : Fin 2 => twoDofs a (400 - 3 * a) i j) :=
    ⟨_, rfl⟩
  rw [← hG]
  have hG00 : G 0 0 = 400 - 2 * a := by
    rw [hG]
    simp [galerkin, Matrix.mul_apply, Fin.sum_univ_two, exSumRow, twoDofs]
    ring
  have hdet : G.det ≠ 0 := by
    rw [Matrix.det_fin_one, hG00]
    linarith
  obtain ⟨z, hz⟩ : ∃ z : Fin 1 → ℝ, z = G⁻¹.mulVec (exSumRow.mulVec b) := ⟨_, rfl⟩
  have hGz : G.mulVec z = exSumRow.mulVec b := by
    rw [hz, Matrix.mulVec_mulVec, Matrix.mul_nonsing_inv _ (isUnit_iff_ne_zero.2 hdet), Matrix.one_mulVec]
  have h0 := congrFun hGz 0
  have hsum : exSumRow.mulVec b 0 = b (0 : Fin 2) + b (1 : Fin 2) := by
    simp only [Matrix.mulVec, dotProduct, exSumRow, Matrix.of_apply, one_mul]
    exact Fin.sum_univ_two _
  rw [hsum, hb', add_zero] at h0
  simp only [Matrix.mulVec, dotProduct, Fin.sum_univ_one] at h0
  change exSumRow.transpose.mulVec (G⁻¹.mulVec (exSumRow.mulVec b)) 1 ≠ 0
  rw [← hz]
  simp only [Matrix.mulVec, dotProduct, Fin.sum_univ_one, Matrix.transpose_apply, exSumRow, Matrix.of_apply]
  intro h
  have : z 0 = 0 := by linarith
  rw [this, mul_zero] at h0
  exact hb h0.symm

/-- **C110**, cycles without smoothing: two dofs that are not coupled, with diagonal entries `a` and
`400 - 3 a`, the second one constrained.  To the eigensolver both dofs look the same (the matrix passed is
`200 I`); it may return the vector `(1, 1)`, the restriction matrix gets this row, and a standalone cycle without
smoothing steps changes the prescribed value 0 of the second dof to something else. -/
theorem C110_unsmoothed_violated (debug timer : Bool) (a : ℝ) (ha : 0 < a) (ha' : a < 400 / 3)
    (type : Option (List Char)) (k : SmootherKind) (hk : dealiiSmoother debug true type = .ok k)
    (procs : ∀ l, List (List (Fin (twoLevels 2 1 l))))
    (graph : ∀ l, Fin (twoLevels 2 1 l) → Fin (twoLevels 2 1 l) → Bool)
    (solve : ∀ l, Matrix (Fin (twoLevels 2 1 l)) (Fin (twoLevels 2 1 l)) ℝ → (Fin (twoLevels 2 1 l) → ℝ) →
      Fin (twoLevels 2 1 l) → ℝ) (hsolve : ∀ l, SolvesExactly (solve l)) :
    ∃ (S : EigenSolvers ℝ) (m : Assembled ℝ) (H : Hierarchy (fun l => Fin (twoLevels 2 1 l) → ℝ)),
      EigenContract 2 S.arpack ∧
      localMatrixBased debug none 1 2 (twoDofs a (400 - 3 * a)) [1] S
        = .ok ([a], [[1, 1]], [a, 400 - 3 * a]) ∧
      assembleAll debug true (fun x => [a, 400 - 3 * a].getD x 1)
        ([[⟨[a], [[1, 1]], [a, 400 - 3 * a], [0, 1]⟩]].map collect) = .ok m ∧
      (buildHierarchy debug timer (some { isPreconditioner := some false, nSmoothingSteps := some 0 })
        (.ok (fullHelpers debug type (twoLevels 2 1) procs graph
          (Matrix.of fun i j : Fin 2 => twoDofs a (400 - 3 * a) i j)
          (twoLevelRestriction (Matrix.of fun (i : Fin 1) (j : Fin 2) => m.R i j)) solve))).result = .ok H ∧
      ∀ fresh (b : Fin (twoLevels 2 1 0) → ℝ), b (0 : Fin 2) ≠ 0 → b (1 : Fin 2) = 0 →
        ∃ y : Fin (twoLevels 2 1 0) → ℝ, (H.vmult fresh 0 b).result = .ok y ∧ y (1 : Fin 2) ≠ 0 := by
  have hb : 0 < 400 - 3 * a := by linarith
  obtain ⟨m, hm, hrows, -⟩ := C20_rows debug true (fun x => [a, 400 - 3 * a].getD x 1)
    [[(⟨[a], [[1, 1]], [a, 400 - 3 * a], [0, 1]⟩ : CopyData ℝ)]] (by
      intro cs hcs c hc
      simp only [List.mem_singleton] at hcs hc
      subst hcs
      simp only [List.mem_singleton] at hc
      subst hc
      exact ⟨by simp, rfl, by simp⟩)
  have hR : (Matrix.of fun (i : Fin 1) (j : Fin 2) => m.R i j) = exSumRow := by
    ext i j
    have := hrows 0 _ _ rfl j
    obtain rfl := Fin.eq_zero i
    change m.R 0 j = 1
    rw [this]
    fin_cases j
    · simp [extend]
      exact ha.ne'
    · simp [extend, List.lookup]
      exact hb.ne'
  have hA : IsSpd (Matrix.of fun i j : Fin 2 => twoDofs a (400 - 3 * a) i j) := by
    constructor
    · ext i j
      fin_cases i <;> fin_cases j <;> rfl
    · intro v hv
      have h01 : v 0 ≠ 0 ∨ v 1 ≠ 0 := by
        by_contra h
        push Not at h
        apply hv
        funext i
        fin_cases i
        · exact h.1
        · exact h.2
      simp only [Matrix.mulVec, dotProduct, Fin.sum_univ_two, Matrix.of_apply, twoDofs]
      norm_num
      rcases h01 with h | h
      · have := mul_pos ha (mul_self_pos.2 h)
        have := mul_nonneg hb.le (mul_self_nonneg (v 1))
        linarith
      · have := mul_pos hb (mul_self_pos.2 h)
        have := mul_nonneg ha.le (mul_self_nonneg (v 0))
        linarith
  have hfin := fun {H : Hierarchy (fun l => Fin (twoLevels 2 1 l) → ℝ)} {D} (hH : IsLinear H D) hl hp hs h1 h2 h3 =>
    unsmoothed_value (a := a) hH hl hp hs ha' h1 h2 h3
  cases hrel : k.relaxation with
  | some kind =>
    obtain ⟨H, e, h1, h2, h3, h4⟩ := matrixHelpers_build debug timer
      { isPreconditioner := some false, nSmoothingSteps := some 0 } type k kind hk hrel (twoLevels 2 1) procs _ hA
      (twoLevelRestriction exSumRow) (twoLevelRestriction_independent exSumRow_independent)
      solve hsolve (by decide) rfl
    exact ⟨⟨exBoth, exBoth, exBoth, exBoth⟩, m, H, exBoth_contract, twoDofs_local debug a, hm, by rw [hR, fullHelpers_relaxation debug type k kind hk hrel]; exact e,
      hfin h1 h2 h3 h4 rfl rfl rfl⟩
  | none =>
    obtain rfl : k = .ilu := by cases k <;> simp_all [SmootherKind.relaxation]
    obtain ⟨H, e, h1, h2, h3, h4⟩ := fullHelpers_build debug timer
      { isPreconditioner := some false, nSmoothingSteps := some 0 } type hk (twoLevels 2 1) procs graph _ hA
      (twoLevelRestriction exSumRow) (twoLevelRestriction_independent exSumRow_independent)
      solve hsolve (by decide) rfl
    exact ⟨⟨exBoth, exBoth, exBoth, exBoth⟩, m, H, exBoth_contract, twoDofs_local debug a, hm, by rw [hR]; exact e,
      hfin h1 h2 h3 h4 rfl rfl rfl⟩

/-! ## Examples -/

/-- Two coupled unknowns and one with a prescribed value. -/
noncomputable def exWithBoundary : Matrix (Fin 3) (Fin 3) ℝ := signMatrix ![1, -1, 0] (1 / 2)

theorem exWithBoundary_spd : IsSpd exWithBoundary :=
  signMatrix_spd (by intro i; fin_cases i <;> simp) (by norm_num) (by norm_num)

theorem exWithBoundary_alone : Alone exWithBoundary 2 := by
  intro j hj
  fin_cases j
  · simp [exWithBoundary, signMatrix]
  · simp [exWithBoundary, signMatrix]
  · exact absurd rfl hj

theorem exWithBoundary_diag : exWithBoundary 2 2 = 1 := by simp [exWithBoundary, signMatrix]

/-- The sum of the coupled unknowns. -/
def exInnerRow : Matrix (Fin 1) (Fin 3) ℝ := Matrix.of fun _ j => if j = 2 then 0 else 1

theorem exInnerRow_independent : IndependentRows exInnerRow := by
  intro y hy
  have h0 : ∑ k : Fin 1, (1 : ℝ) * y k = 0 := congrFun hy (0 : Fin 3)
  rw [Fin.sum_univ_one, one_mul] at h0
  funext k
  rw [Fin.eq_zero k]
  exact h0

/-- The prescribed unknown on the fine level, none on the coarse level. -/
def exPrescribed : ∀ l, Set (Fin (twoLevels 3 1 l))
  | 0 => {(2 : Fin 3)}
  | _ + 1 => ∅

theorem exPrescribed_separates (l : ℕ) :
    Separates (twoLevelRestriction exInnerRow l) (exPrescribed (l + 1)) (exPrescribed l) := by
  cases l with
  | zero =>
    have : Separates exInnerRow ∅ {(2 : Fin 3)} := by
      intro j x h
      constructor
      · intro h'
        cases h'
      · rintro rfl
        exact absurd (by simp [exInnerRow]) h
    exact this
  | succ l =>
    intro j x _
    constructor <;> intro h <;> cases h

theorem exPrescribed_notCoupled : NotCoupled exWithBoundary (exPrescribed 0) := by
  have : NotCoupled exWithBoundary {(2 : Fin 3)} := by
    rintro i rfl j hj
    exact exWithBoundary_alone j hj
  exact this

/-- Two processes. -/
def exBoundaryProcs : ∀ l, List (List (Fin (twoLevels 3 1 l)))
  | 0 => [[(0 : Fin 3), (2 : Fin 3)], [(1 : Fin 3)]]
  | _ + 1 => [[(0 : Fin 1)]]

theorem exBoundaryProcs_all : ListsAll (exBoundaryProcs 0).flatten := by
  have : ListsAll [(0 : Fin 3), 2, 1] := ⟨by decide, by decide⟩
  exact this

/-- Standalone cycles with incomplete factorisation. -/
example : ∃ H : Hierarchy (fun l => Fin (twoLevels 3 1 l) → ℝ),
    (buildHierarchy true false (some { isPreconditioner := some false })
      (.ok (fullHelpers true (some (chars! "ILU")) (twoLevels 3 1) exBoundaryProcs (fun _ _ _ => true)
        exWithBoundary (twoLevelRestriction exInnerRow) (fun l => exInvSolve l (twoLevels 3 1))))).result = .ok H ∧
    ∀ fresh b x, AgreeOn (exPrescribed 0) (exWithBoundary.mulVec x) b →
      ∃ y, (H.vmult fresh x b).result = .ok y ∧ AgreeOn (exPrescribed 0) y x := by
  obtain ⟨H, h, -, h2⟩ := C110_blocks true false { isPreconditioner := some false } (some (chars! "ILU")) _ rfl
    (twoLevels 3 1) exBoundaryProcs (fun _ _ _ => true) exWithBoundary exWithBoundary_spd
    (twoLevelRestriction exInnerRow) (twoLevelRestriction_independent exInnerRow_independent) _
    (fun l => exInvSolve_exact _ l) (by decide) rfl (Or.inr (by decide)) exPrescribed exPrescribed_notCoupled
    exPrescribed_separates
  exact ⟨H, h, h2 rfl⟩

/-- The default smoother, as a preconditioner on two processes: the prescribed value comes out. -/
example : ∃ H : Hierarchy (fun l => Fin (twoLevels 3 1 l) → ℝ),
    (buildHierarchy true false (some {})
      (.ok (fullHelpers true none (twoLevels 3 1) exBoundaryProcs (fun _ _ _ => true)
        exWithBoundary (twoLevelRestriction exInnerRow) (fun l => exInvSolve l (twoLevels 3 1))))).result = .ok H ∧
    ∀ fresh b x, ∃ y, (H.vmult fresh x b).result = .ok y ∧ y (2 : Fin 3) = b (2 : Fin 3) := by
  obtain ⟨H, h, h2⟩ := C110_prescribed_partial true false {} none _ rfl
    (twoLevels 3 1) exBoundaryProcs exBoundaryProcs_all (fun _ _ _ => true) exWithBoundary exWithBoundary_spd
    (twoLevelRestriction exInnerRow) (twoLevelRestriction_independent exInnerRow_independent) _
    (fun l => exInvSolve_exact _ l) (by decide) rfl (Or.inr (by decide)) (by decide)
  refine ⟨H, h, fun fresh b x => ?_⟩
  obtain ⟨y, hy, hv⟩ := h2 (2 : Fin 3) exWithBoundary_alone fresh b x
  refine ⟨y, hy, ?_⟩
  have h1 : (exWithBoundary : Matrix (Fin (twoLevels 3 1 0)) (Fin (twoLevels 3 1 0)) ℝ) (2 : Fin 3) (2 : Fin 3) = 1 :=
    exWithBoundary_diag
  rw [h1, one_mul] at hv
  exact hv

/-- Chebyshev smoothing of degree 3 keeps the prescribed value. -/
example : ∃ H : Hierarchy (fun l => Fin (twoLevels 3 1 l) → ℝ),
    (buildHierarchy true false (some { isPreconditioner := some false })
      (.ok (matrixFreeHelpers true none (some 3) none none 0 (twoLevels 3 1) (fun _ _ => 1)
        (fun _ _ _ => [1 / 2, 3 / 2]) exWithBoundary (twoLevelRestriction exInnerRow)
        (fun l => exInvSolve l (twoLevels 3 1))))).result = .ok H ∧
    ∀ fresh b x, AgreeOn (exPrescribed 0) (exWithBoundary.mulVec x) b →
      ∃ y, (H.vmult fresh x b).result = .ok y ∧ AgreeOn (exPrescribed 0) y x := by
  obtain ⟨H, h, -, h2⟩ := C110_chebyshev_blocks true false { isPreconditioner := some false } none exName (some 3)
    none none 0 (twoLevels 3 1) (fun _ _ => 1) (fun _ _ _ => [1 / 2, 3 / 2]) exWithBoundary exWithBoundary_spd
    (twoLevelRestriction exInnerRow) (twoLevelRestriction_independent exInnerRow_independent) _
    (fun l => exInvSolve_exact _ l) rfl rfl exPrescribed exPrescribed_notCoupled exPrescribed_separates
  exact ⟨H, h, h2 rfl⟩

/-- Chebyshev smoothing of the default degree does not set it. -/
example : ∃ H : Hierarchy (fun l => Fin (twoLevels 3 1 l) → ℝ),
    (buildHierarchy true false (some {})
      (.ok (matrixFreeHelpers true none none none none 0 (twoLevels 3 1) (fun _ _ => 1)
        (fun _ _ _ => [1 / 2, 3 / 2]) exWithBoundary (twoLevelRestriction exInnerRow)
        (fun l => exInvSolve l (twoLevels 3 1))))).result = .ok H ∧
    ∀ fresh (b x : Fin (twoLevels 3 1 0) → ℝ), (0 : ℝ) ≠ b (2 : Fin 3) → ∃ y, (H.vmult fresh x b).result = .ok y ∧
      exWithBoundary 2 2 * y (2 : Fin 3) ≠ b (2 : Fin 3) := by
  exact C110_chebyshev_violated true false {} none exName none none 0 (twoLevels 3 1) (fun _ _ => 1)
    (fun _ _ _ => [1 / 2, 3 / 2]) exWithBoundary exWithBoundary_spd
    (twoLevelRestriction exInnerRow) (twoLevelRestriction_independent exInnerRow_independent) _
    (fun l => exInvSolve_exact _ l) rfl rfl (2 : Fin 3) exWithBoundary_alone
    (by rw [one_mul]; exact exWithBoundary_diag)
    (by
      have : ∀ j, exInnerRow j 2 = 0 := fun j => by simp [exInnerRow]
      exact this) (1 / 2) (9 / 5)
    (by
      simp only [chebyshevInterval, ChebyshevData.settings]
      norm_num) (by norm_num)

/-- The identity on two dofs, the second one constrained. -/
example (dstev : List ℝ → List ℝ → List ℝ × List ℝ) (hd : DstevContract dstev) (sortPerm : List ℝ → List ℕ)
    (noise : ℕ → ℕ → ℝ) (emptyVec : EuclideanSpace ℝ (Fin 2)) :
    ∃ es y, localLanczos false dstev sortPerm noise 2 (fun i j => if i = j then 1 else 0) (fun i => i == 1)
      (fun _ => 1 / 2) emptyVec 1 0 {} = .ok (es, [y]) ∧ (y = emptyVec ∨ y 1 = 0) := by
  obtain ⟨p, hp⟩ : ∃ p, p = localLanczosParams 0 {} := ⟨_, rfl⟩
  have hid : matOp 2 (fun i j => if i = j then 1 else 0) = LinearMap.id := by
    refine LinearMap.ext fun x => ?_
    ext i
    rw [matOp_apply, Fin.sum_univ_two]
    fin_cases i <;> simp
  obtain ⟨g, hg⟩ : ∃ g, g = libraryGuess 2 (fun i => i == 1) (fun _ => (1 / 2 : ℝ)) := ⟨_, rfl⟩
  have hg0 : g ≠ 0 := by
    intro h0
    obtain ⟨m, hm⟩ := (libraryGuess_apply (size := 2) (constrained := fun i => i == 1) (fun _ => (1 / 2 : ℝ)) 0).2 rfl
    rw [← hg, h0] at hm
    have : (0 : ℝ) = 1 / 2 := hm
    norm_num at this
  obtain ⟨r, ys, hr⟩ := exOneStep false (LinearMap.id : EuclideanSpace ℝ (Fin 2) →ₗ[ℝ] EuclideanSpace ℝ (Fin 2))
    (fun _ _ => rfl) g hg0 1 (by simp) dstev hd 5e-12 p
    (by rw [hp]; exact ⟨by norm_num [localLanczosParams], by norm_num [localLanczosParams]⟩)
    (by rw [hp]; exact le_trans (by norm_num) (le_max_right (0 : ℝ) 1e-4))
    (by rw [hp]; norm_num [localLanczosParams])
  obtain ⟨-, h2, h3, -⟩ := lanczos_run_facts false LinearMap.id ⊤ (fun x hx => hx)
    (fun _ _ _ _ => rfl) dstev hd 5e-12 1 one_pos p (by rw [hp]; norm_num [localLanczosParams]) g trivial r ys hr
  obtain ⟨θ, hθ⟩ := List.length_eq_one_iff.1 h2
  obtain ⟨y, rfl⟩ := List.length_eq_one_iff.1 h3
  have hr' : solveLanczos false (deflatedVmult (matOp 2 (fun i j => if i = j then 1 else 0)) [])
      (calcTridiagEpairs Real.sqrt 5e-12 dstev) 1 p g = .ok (r, [y]) := by
    rw [hid]
    exact hr
  have hd0 : deflate [] g = g := rfl
  have hrun : localLanczos false dstev sortPerm noise 2 (fun i j => if i = j then 1 else 0) (fun i => i == 1)
      (fun _ => 1 / 2) emptyVec 1 0 {} = .ok ([θ], [y]) := by
    unfold localLanczos lanczosSolve
    simp only [← hp, ← hg]
    simp [cycleLoop, hd0, hr', savePairs, hθ, finishPairs, Outcome.assert, copyInto]
  refine ⟨[θ], y, hrun, ?_⟩
  rcases C110_lanczos false dstev sortPerm noise 2 _ (fun i => i == 1) _ emptyVec 1 0 {} (by
      intro i j hi hj h1 h2
      rw [if_neg]
      rintro rfl
      rw [h1] at h2
      cases h2) [θ] [y] hrun y (by simp) with h | h
  · exact Or.inl h
  · exact Or.inr (h 1 rfl)

/-- One agglomerate with a constrained dof in other units: the eigensolver finds the vector of the free dof. -/
example : ConstrainedIn (K := ℚ) 7 ⟨[2], [[1, 0]], [2, 4], [3, 7]⟩ :=
  ⟨true, none, 1, 1, twoDofs 2 4, [1],
    ⟨fun M => if M 0 0 = 5 ∧ M 1 0 = 0 then ([5], [[1, 0]]) else ([], []), fun _ => ([], []), fun _ => ([], []),
      fun _ => ([], [])⟩,
    by decide, by
      intro M
      dsimp only
      split_ifs with h
      · refine ⟨rfl, ?_⟩
        intro k l v hl hv
        cases k with
        | zero =>
          simp only [List.getElem?_cons_zero, Option.some.injEq] at hl hv
          subst hl hv
          refine ⟨rfl, ?_⟩
          intro i hi
          simp only [List.length_cons, List.length_nil] at hi
          rcases (by omega : i = 0 ∨ i = 1) with rfl | rfl
          · simp [matVec, List.range_succ, h.1]
          · simp [matVec, List.range_succ, h.2]
        | succ k => simp at hl
      · exact ⟨rfl, by simp⟩,
    fun M => ⟨rfl, by simp⟩, fun M => ⟨rfl, by simp⟩, fun M => ⟨rfl, by simp⟩, by decide +kernel, rfl, by simp,
    by
      intro j hj
      simp [twoDofs, Ne.symm hj],
    by decide +kernel⟩

example : ∃ m, assembleAll true true (fun x => if x = 3 then 2 else (4 : ℚ))
    ([[⟨[2], [[1, 0]], [2, 4], [3, 7]⟩]].map collect) = .ok m ∧ m.R 0 7 = 0 ∧ m.R 0 3 = 1 :=
  ⟨_, rfl, by decide +kernel, by decide +kernel⟩

example : ∃ (S : EigenSolvers ℝ) (m : Assembled ℝ) (H : Hierarchy (fun l => Fin (twoLevels 2 1 l) → ℝ)),
    EigenContract 2 S.arpack ∧
    localMatrixBased true none 1 2 (twoDofs 100 (400 - 3 * 100)) [1] S
      = .ok ([100], [[1, 1]], [100, 400 - 3 * 100]) ∧
    assembleAll true true (fun x => [100, 400 - 3 * (100 : ℝ)].getD x 1)
      ([[⟨[100], [[1, 1]], [100, 400 - 3 * 100], [0, 1]⟩]].map collect) = .ok m ∧
    (buildHierarchy true false (some { isPreconditioner := some false, nSmoothingSteps := some 0 })
      (.ok (fullHelpers true none (twoLevels 2 1) (fun _ => []) (fun _ _ _ => true)
        (Matrix.of fun i j : Fin 2 => twoDofs 100 (400 - 3 * 100) i j)
        (twoLevelRestriction (Matrix.of fun (i : Fin 1) (j : Fin 2) => m.R i j))
        (fun l => exInvSolve l (twoLevels 2 1))))).result = .ok H ∧
    ∀ fresh (b : Fin (twoLevels 2 1 0) → ℝ), b (0 : Fin 2) ≠ 0 → b (1 : Fin 2) = 0 →
      ∃ y : Fin (twoLevels 2 1 0) → ℝ, (H.vmult fresh 0 b).result = .ok y ∧ y (1 : Fin 2) ≠ 0 :=
  C110_unsmoothed_violated true false 100 (by norm_num) (by norm_num) none _ rfl _ _ _
    (fun l => exInvSolve_exact _ l)

end Mfmg
