import Verif.Spec.OneSided
import Verif.Lemmas.CgCoarse

/-!
# Lemmas: iterations with a symmetric, non-negative error propagation
-/

set_option autoImplicit false

namespace Mfmg

open Spec

section sequences

variable {K : Type} [Field K] [LinearOrder K] [IsStrictOrderedRing K] {n : ℕ}

omit [LinearOrder K] [IsStrictOrderedRing K] in
/-- The energy product of two members depends on the sum of their numbers only. -/
theorem moment_shift {A : Matrix (Fin n) (Fin n) K} {E : (Fin n → K) → Fin n → K}
    (hsym : ∀ u v, E u ⬝ᵥ A.mulVec v = u ⬝ᵥ A.mulVec (E v)) {e : ℕ → Fin n → K}
    (he : ∀ m, e (m + 1) = E (e m)) (m k j : ℕ) :
    e (m + j) ⬝ᵥ A.mulVec (e k) = e m ⬝ᵥ A.mulVec (e (k + j)) := by
  induction j generalizing k with
  | zero => rfl
  | succ j ih =>
    rw [← Nat.add_assoc, he, hsym, ← he, ih, show k + 1 + j = k + (j + 1) by omega]

omit [IsStrictOrderedRing K] in
theorem moment_nonneg {A : Matrix (Fin n) (Fin n) K} (hA : IsSpd A) {E : (Fin n → K) → Fin n → K}
    (hsym : ∀ u v, E u ⬝ᵥ A.mulVec v = u ⬝ᵥ A.mulVec (E v)) (hnn : ∀ u, 0 ≤ E u ⬝ᵥ A.mulVec u)
    {e : ℕ → Fin n → K} (he : ∀ m, e (m + 1) = E (e m)) : NeverOvershoots A e := by
  intro m k
  have h0 : e m ⬝ᵥ A.mulVec (e k) = e (m + k) ⬝ᵥ A.mulVec (e 0) := by
    rw [moment_shift hsym he, Nat.zero_add]
  rw [h0]
  obtain ⟨i, hi | hi⟩ := Nat.even_or_odd' (m + k)
  · rw [hi, two_mul, moment_shift hsym he, Nat.zero_add]
    by_cases h : e i = 0
    · simp [h]
    · exact (hA.2 _ h).le
  · rw [hi, show 2 * i + 1 = (i + 1) + i by omega, moment_shift hsym he, Nat.zero_add, he]
    exact hnn _

theorem rates_sorted {A : Matrix (Fin n) (Fin n) K} (hA : IsSpd A) {E : (Fin n → K) → Fin n → K}
    (hsym : ∀ u v, E u ⬝ᵥ A.mulVec v = u ⬝ᵥ A.mulVec (E v))
    {e : ℕ → Fin n → K} (he : ∀ m, e (m + 1) = E (e m)) : RatesNeverImprove A e := by
  intro m
  have h := spd_cauchy hA (e m) (e (m + 2))
  rw [← moment_shift hsym he m (m + 1) 1] at h
  rw [pow_two]
  exact h

/-- The energy product of what has been added with the sum of all that has been added before. -/
theorem increments_nonneg {A : Matrix (Fin n) (Fin n) K} {x : ℕ → Fin n → K} (hx : x 0 = 0)
    (hd : NeverOvershoots A fun m => x (m + 1) - x m) (m k : ℕ) :
    0 ≤ (x (m + 1) - x m) ⬝ᵥ A.mulVec (x k) := by
  induction k with
  | zero => simp [hx]
  | succ k ih =>
    have h := hd m k
    have e : x (k + 1) = (x (k + 1) - x k) + x k := by abel
    rw [e, Matrix.mulVec_add, dotProduct_add]
    exact add_nonneg h ih

theorem energies_grow {A : Matrix (Fin n) (Fin n) K} (hA : IsSpd A) {x : ℕ → Fin n → K} (hx : x 0 = 0)
    (hd : NeverOvershoots A fun m => x (m + 1) - x m) (m : ℕ) :
    energyOf A (x m) ≤ energyOf A (x (m + 1)) := by
  have h1 := increments_nonneg hx hd m m
  have h2 := increments_nonneg hx hd m (m + 1)
  unfold energyOf
  rw [sub_dotProduct] at h1 h2
  rw [form_symm hA.1 (x (m + 1)) (x m)] at h1
  linarith

end sequences

section hierarchy

variable {K : Type} [Field K] [LinearOrder K] [IsStrictOrderedRing K]

omit [IsStrictOrderedRing K] in
theorem variational_matrixData (kind : Relaxation) {dims : ℕ → ℕ} (procs : ∀ l, List (List (Fin (dims l))))
    {A : Matrix (Fin (dims 0)) (Fin (dims 0)) K} (hA : IsSpd A)
    {R : ∀ l, Matrix (Fin (dims (l + 1))) (Fin (dims l)) K} (hR : ∀ l, IndependentRows (R l)) (L : ℕ)
    (hL : 0 < L) : Variational (matrixData kind dims procs A R) (fun l => dotForm (dims l)) L := by
  have hchain := matrixData_chain kind dims procs A hA R hR L
  refine ⟨hchain.galerkin, hchain.psd 0 hL, hchain.solvable, ?_⟩
  intro l hl x
  refine le_of_eq ?_
  rw [← hchain.A l (by omega), hchain.exact l hl]
  rfl

omit [IsStrictOrderedRing K] in
theorem symmetric_matrixData {kind : Relaxation} {dims : ℕ → ℕ} {procs : ∀ l, List (List (Fin (dims l)))}
    {A : Matrix (Fin (dims 0)) (Fin (dims 0)) K} (hA : IsSpd A)
    {R : ∀ l, Matrix (Fin (dims (l + 1))) (Fin (dims l)) K} (hR : ∀ l, IndependentRows (R l))
    (hsymm : ∀ l x y, relaxVmult kind (coarseMatrix dims A R l) (procs l) x ⬝ᵥ y
      = x ⬝ᵥ relaxVmult kind (coarseMatrix dims A R l) (procs l) y) (L : ℕ) :
    Symmetric (matrixData kind dims procs A R) (fun l => dotForm (dims l)) L := by
  have hspd := coarseMatrix_spd dims A hA R hR
  refine symmetric_withCoarse hA hR hsymm (matrixData kind dims procs A R).C ?_ L
  intro l x y
  have hi : ((coarseMatrix dims A R l)⁻¹).transpose = (coarseMatrix dims A R l)⁻¹ := by
    rw [Matrix.transpose_nonsing_inv, (hspd l).1]
  change (coarseMatrix dims A R l)⁻¹.mulVec x ⬝ᵥ y = x ⬝ᵥ (coarseMatrix dims A R l)⁻¹.mulVec y
  rw [dotProduct_comm, form_symm hi]

/-- The error propagation of a cycle with a symmetric smoother. -/
theorem cycle_propagation (debug timer : Bool) (p : Params) (type : Option (List Char)) (k : SmootherKind)
    (kind : Relaxation) (hk : dealiiSmoother debug true type = .ok k) (hk' : k.relaxation = some kind)
    (dims : ℕ → ℕ) (procs : ∀ l, List (List (Fin (dims l))))
    (A : Matrix (Fin (dims 0)) (Fin (dims 0)) K) (hA : IsSpd A)
    (R : ∀ l, Matrix (Fin (dims (l + 1))) (Fin (dims l)) K) (hR : ∀ l, IndependentRows (R l))
    (solve : ∀ l, Matrix (Fin (dims l)) (Fin (dims l)) K → (Fin (dims l) → K) → Fin (dims l) → K)
    (hsolve : ∀ l, SolvesExactly (solve l)) (hlev : 2 ≤ p.maxLevels.getD 2)
    (hfast : p.fastAp.getD false = false) (hpre : p.isPreconditioner = some false)
    (hsymm : ∀ l x y, relaxVmult kind (coarseMatrix dims A R l) (procs l) x ⬝ᵥ y
      = x ⬝ᵥ relaxVmult kind (coarseMatrix dims A R l) (procs l) y) :
    ∃ H, (buildHierarchy debug timer (some p)
        (.ok (matrixHelpers debug type dims procs A R solve))).result = .ok H ∧
      ∃ E : (Fin (dims 0) → K) →ₗ[K] (Fin (dims 0) → K),
        (∀ b xs, A.mulVec xs = b → ∀ fresh x y, (H.vmult fresh x b).result = .ok y → xs - y = E (xs - x)) ∧
        (∀ u v, E u ⬝ᵥ A.mulVec v = u ⬝ᵥ A.mulVec (E v)) ∧ (∀ u, 0 ≤ E u ⬝ᵥ A.mulVec u) ∧
        ((∀ l : ℕ, l + 1 < (p.maxLevels.getD 2).toNat → ∀ e : Fin (dims l) → K, e ≠ 0 →
          energyOf (coarseMatrix dims A R l)
            (e - relaxVmult kind (coarseMatrix dims A R l) (procs l) ((coarseMatrix dims A R l).mulVec e))
            < energyOf (coarseMatrix dims A R l) e) →
          ∀ u, E u ⬝ᵥ A.mulVec u ≤ energyOf A u ∧ energyOf A (E u) ≤ E u ⬝ᵥ A.mulVec u) := by
  obtain ⟨H, hH, hlin, hL, hp, hn⟩ := matrixHelpers_build debug timer p type k kind hk hk' dims
    procs A hA R hR solve hsolve (by omega) hfast
  refine ⟨H, hH, ?_⟩
  have hp' : H.isPreconditioner = false := by rw [hp, hpre]; rfl
  have hL2 : 2 ≤ H.numLevels := by omega
  have hsym := symmetric_matrixData hA hR hsymm H.numLevels
  have hvar := variational_matrixData kind procs hA hR H.numLevels (by omega)
  set D := matrixData kind dims procs A R with hD
  obtain ⟨T, hT⟩ : ∃ T, T = M D H.nSmoothingSteps (H.numLevels - 1) 0 := ⟨_, rfl⟩
  have hself : ∀ x y, T x ⬝ᵥ y = x ⬝ᵥ T y := by
    intro x y
    rw [hT]
    exact M_selfAdjoint hsym _ _ 0 (by omega) x y
  have hup : ∀ x, T (A.mulVec x) ⬝ᵥ A.mulVec x ≤ energyOf A x := by
    intro x
    rw [hT]
    have := M_upper hsym hvar H.nSmoothingSteps (H.numLevels - 1) 0 (by omega) x
    rw [energyOf, dotProduct_comm x]
    exact this
  refine ⟨LinearMap.id - T.comp (D.A 0), ?_, ?_, ?_, ?_⟩
  · intro b xs hxs fresh x y hy
    rw [vmult_sa H D hlin hp' hL2, ← hT] at hy
    rw [← Outcome.ok.inj hy, ← hxs]
    change xs - (x + T (D.A 0 xs - D.A 0 x)) = (xs - x) - T (D.A 0 (xs - x))
    rw [map_sub (D.A 0), sub_sub]
  · intro u v
    change (u - T (A.mulVec u)) ⬝ᵥ A.mulVec v = u ⬝ᵥ A.mulVec (v - T (A.mulVec v))
    rw [sub_dotProduct, Matrix.mulVec_sub, dotProduct_sub, hself, form_symm hA.1 u (T (A.mulVec v)),
      dotProduct_comm (T (A.mulVec v))]
  · intro u
    change 0 ≤ (u - T (A.mulVec u)) ⬝ᵥ A.mulVec u
    rw [sub_dotProduct, sub_nonneg]
    exact hup u
  · intro hdec u
    have hB : ∀ l, l + 1 < H.numLevels → SmootherConvergent D (fun l => dotForm (dims l)) l := by
      intro l hl y
      by_cases hy : y = 0
      · simp [hy]
      · exact (smoother_strict hA hR hsymm l (hdec l (by omega)) y hy).le
    have hC : ∀ l, l + 1 = H.numLevels → ∀ x, 0 ≤ dotForm (dims l) (D.C l x) x := by
      intro l _ x
      have hs := coarseMatrix_spd dims A hA R hR l
      set w := (coarseMatrix dims A R l)⁻¹.mulVec x with hw
      have hwx : (coarseMatrix dims A R l).mulVec w = x := mulVec_inv (spd_det hs) x
      change 0 ≤ w ⬝ᵥ x
      rw [← hwx]
      by_cases h0 : w = 0
      · simp [h0]
      · exact (hs.2 w h0).le
    have hM : ∀ r, 0 ≤ T r ⬝ᵥ r := by
      intro r
      rw [hT]
      exact M_nonneg hsym _ _ 0 (by omega) hB hC r
    have hle : energyOf A (u - T (A.mulVec u)) ≤ energyOf A u - T (A.mulVec u) ⬝ᵥ A.mulVec u := by
      have h := energy_error_le_aux hsym hvar H.nSmoothingSteps (H.numLevels - 1) 0 (by omega) u (by
        intro r
        have := hM r
        rw [hT] at this
        exact this)
      rw [← hT] at h
      rw [energyOf, energyOf, dotProduct_comm (u - T (A.mulVec u)), dotProduct_comm u]
      exact h
    change (u - T (A.mulVec u)) ⬝ᵥ A.mulVec u ≤ energyOf A u ∧
      energyOf A (u - T (A.mulVec u)) ≤ (u - T (A.mulVec u)) ⬝ᵥ A.mulVec u
    rw [sub_dotProduct]
    exact ⟨sub_le_self _ (hM _), hle⟩

end hierarchy

end Mfmg
