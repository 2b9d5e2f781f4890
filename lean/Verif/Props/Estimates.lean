import Verif.Spec.Estimates
import Verif.Props.OneSided
import Verif.Props.MultiLevel

/-!
# C125: the error can be estimated from what is computed

Full claim: the error of an iterate can be bounded from below and from above by quantities that are known without knowing
the solution: by what the following cycles gain, and, with every smoother, by the following corrections.
-/

set_option autoImplicit false

namespace Mfmg

open Spec

section

variable {K : Type} [Field K] [LinearOrder K] [IsStrictOrderedRing K] {n : ℕ}

omit [LinearOrder K] [IsStrictOrderedRing K] in
theorem gain_eq {A : Matrix (Fin n) (Fin n) K} (hA : A.transpose = A) {b xs : Fin n → K} (hxs : A.mulVec xs = b)
    (x y : Fin n → K) : gainOf A b x y = energyOf A (xs - x) - energyOf A (xs - y) := by
  have e : y - x = (xs - x) - (xs - y) := by abel
  rw [gainOf, ← hxs, ← Matrix.mulVec_sub, ← Matrix.mulVec_sub, e]
  obtain ⟨u, hu⟩ : ∃ u, u = xs - x := ⟨_, rfl⟩
  obtain ⟨v, hv⟩ : ∃ v, v = xs - y := ⟨_, rfl⟩
  rw [← hu, ← hv, dotProduct_add, sub_dotProduct, sub_dotProduct, form_symm hA v u]
  unfold energyOf
  ring

omit [LinearOrder K] [IsStrictOrderedRing K] in
theorem gains_eq {A : Matrix (Fin n) (Fin n) K} (hA : A.transpose = A) {b xs : Fin n → K} (hxs : A.mulVec xs = b)
    (x : ℕ → Fin n → K) (m k : ℕ) :
    gainsOf A b x m k = energyOf A (xs - x m) - energyOf A (xs - x (m + k)) := by
  induction k with
  | zero => simp [gainsOf]
  | succ k ih =>
    have h : gainsOf A b x m (k + 1) = gainsOf A b x m k + gainOf A b (x (m + k)) (x (m + k + 1)) := by
      simp [gainsOf, List.range_succ]
    rw [h, ih, gain_eq hA hxs, Nat.add_assoc m k 1]
    ring

/-- **C125.** One process, Gauss-Seidel in one or both directions, any number of levels: what a cycle gains is positive
unless the iterate is the solution, and the gains of any number of cycles never exceed the energy of the error of the
iterate they start from.  So they can be used to bound it from below, and to recognise the solution. -/
theorem C125_gain (debug timer : Bool) (p : Params) (type : Option (List Char))
    (htype : dealiiSmoother debug true type = .ok .symmetricGaussSeidel ∨
      dealiiSmoother debug true type = .ok .gaussSeidel) (dims : ℕ → ℕ)
    (own : ∀ l, List (Fin (dims l))) (hown : ∀ l, ListsAll (own l))
    (A : Matrix (Fin (dims 0)) (Fin (dims 0)) K) (hA : IsSpd A)
    (R : ∀ l, Matrix (Fin (dims (l + 1))) (Fin (dims l)) K) (hR : ∀ l, IndependentRows (R l))
    (solve : ∀ l, Matrix (Fin (dims l)) (Fin (dims l)) K → (Fin (dims l) → K) → Fin (dims l) → K)
    (hsolve : ∀ l, SolvesExactly (solve l)) (hlev : 2 ≤ p.maxLevels.getD 2)
    (hfast : p.fastAp.getD false = false) (hpre : p.isPreconditioner = some false)
    (hsteps : 0 < toUnsigned (p.nSmoothingSteps.getD 1)) :
    ∃ H, (buildHierarchy debug timer (some p)
        (.ok (matrixHelpers debug type dims (fun l => [own l]) A R solve))).result = .ok H ∧
      ∀ b xs, A.mulVec xs = b → ∀ x : ℕ → Fin (dims 0) → K,
        (∀ m, ∃ fresh, (H.vmult fresh (x m) b).result = .ok (x (m + 1))) →
        (∀ m, x m ≠ xs → 0 < gainOf A b (x m) (x (m + 1))) ∧
        ∀ m k, gainsOf A b x m k ≤ energyOf A (xs - x m) := by
  obtain ⟨H, hH, h⟩ := C75_cycle_partial debug timer p type htype dims own hown A hA R hR solve hsolve hlev hfast hpre
    hsteps
  refine ⟨H, hH, ?_⟩
  intro b xs hxs x hx
  refine ⟨?_, ?_⟩
  · intro m hm
    obtain ⟨fresh, hf⟩ := hx m
    obtain ⟨y, hy, hlt⟩ := h fresh (x m) b xs hxs hm
    rw [hf] at hy
    rw [← Outcome.ok.inj hy] at hlt
    rw [gain_eq hA.1 hxs]
    linarith
  · intro m k
    rw [gains_eq hA.1 hxs]
    linarith [energyOf_nonneg hA (xs - x (m + k))]

/-- **C125**, also from above: if the restriction matrices approximate as in C84, the gains of `k` cycles are the energy of
the error up to the `k`-th power of the rate.  The rate depends neither on the number of unknowns nor on the number of
levels. -/
theorem C125_both_sides (debug timer : Bool) (p : Params) (type : Option (List Char))
    (htype : dealiiSmoother debug true type = .ok .symmetricGaussSeidel ∨
      dealiiSmoother debug true type = .ok .gaussSeidel) (dims : ℕ → ℕ)
    (own : ∀ l, List (Fin (dims l))) (hown : ∀ l, ListsAll (own l))
    (A : Matrix (Fin (dims 0)) (Fin (dims 0)) K) (hA : IsSpd A)
    (R : ∀ l, Matrix (Fin (dims (l + 1))) (Fin (dims l)) K) (hR : ∀ l, IndependentRows (R l))
    (s : ℕ) (hs : ∀ l, l + 1 < (p.maxLevels.getD 2).toNat → AtMostPerRow (coarseMatrix dims A R l) s)
    (kappa : K) (hk : 0 < kappa) (hone : 1 ≤ (s : K) * s * kappa)
    (happrox : ∀ l, l + 1 < (p.maxLevels.getD 2).toNat →
      StronglyApproximates (R l) (coarseMatrix dims A R l) kappa)
    (solve : ∀ l, Matrix (Fin (dims l)) (Fin (dims l)) K → (Fin (dims l) → K) → Fin (dims l) → K)
    (hsolve : ∀ l, SolvesExactly (solve l)) (hlev : 2 ≤ p.maxLevels.getD 2)
    (hfast : p.fastAp.getD false = false) (hpre : p.isPreconditioner = some false)
    (hsteps : 0 < toUnsigned (p.nSmoothingSteps.getD 1)) :
    ∃ H, (buildHierarchy debug timer (some p)
        (.ok (matrixHelpers debug type dims (fun l => [own l]) A R solve))).result = .ok H ∧
      ∀ b xs, A.mulVec xs = b → ∀ x : ℕ → Fin (dims 0) → K,
        (∀ m, ∃ fresh, (H.vmult fresh (x m) b).result = .ok (x (m + 1))) →
        ∀ m k, (1 - (1 - 1 / ((s : K) * s * kappa)) ^ k) * energyOf A (xs - x m) ≤ gainsOf A b x m k ∧
          gainsOf A b x m k ≤ energyOf A (xs - x m) := by
  obtain ⟨H, hH, h⟩ := C84_rate debug timer p type htype dims own hown A hA R hR s hs kappa hk hone happrox solve hsolve
    hlev hfast hpre hsteps
  refine ⟨H, hH, ?_⟩
  intro b xs hxs x hx m k
  have h1 := (h b xs hxs).2 (fun i => x (m + i)) (fun i => hx (m + i)) k
  rw [gains_eq hA.1 hxs]
  simp only [Nat.add_zero] at h1
  constructor
  · linarith
  · linarith [energyOf_nonneg hA (xs - x (m + k))]

theorem corrections_of_propagation {n : ℕ} {A : Matrix (Fin n) (Fin n) K} (hA : IsSpd A)
    (E : (Fin n → K) →ₗ[K] (Fin n → K)) (hsym : ∀ u v, E u ⬝ᵥ A.mulVec v = u ⬝ᵥ A.mulVec (E v)) (xs : Fin n → K)
    (x : ℕ → Fin n → K) (he : ∀ m, xs - x (m + 1) = E (xs - x m)) : CorrectionsBound A xs x := by
  intro m
  obtain ⟨e, hem⟩ : ∃ e, e = xs - x m := ⟨_, rfl⟩
  have h1 : x (m + 1) - x m = e - E e := by
    rw [hem, ← he]
    abel
  have h2 : x (m + 2) - x (m + 1) = E e - E (E e) := by
    rw [hem, ← he m, ← he (m + 1)]
    abel
  rw [h1, h2, ← hem]
  have h3 := spd_cauchy hA e ((e - E e) - (E e - E (E e)))
  have h4 : e ⬝ᵥ A.mulVec ((e - E e) - (E e - E (E e))) = energyOf A (e - E e) := by
    unfold energyOf
    simp only [Matrix.mulVec_sub, dotProduct_sub, sub_dotProduct]
    rw [hsym e e, hsym e (E e)]
  rw [h4] at h3
  rw [pow_two]
  exact h3

/-- **C125**, without knowing a rate: two or more levels, symmetric Gauss-Seidel or Jacobi smoothing, any number of steps
and processes: two corrections bound the error from below.  (Partial: not with Gauss-Seidel in one direction, see
`C125_corrections_violated`.) -/
theorem C125_corrections_partial (debug timer : Bool) (p : Params) (type : Option (List Char))
    (htype : dealiiSmoother debug true type = .ok .symmetricGaussSeidel ∨
      dealiiSmoother debug true type = .ok .jacobi) (dims : ℕ → ℕ)
    (procs : ∀ l, List (List (Fin (dims l)))) (hprocs : ∀ l, ListsAll (procs l).flatten)
    (A : Matrix (Fin (dims 0)) (Fin (dims 0)) K) (hA : IsSpd A)
    (R : ∀ l, Matrix (Fin (dims (l + 1))) (Fin (dims l)) K) (hR : ∀ l, IndependentRows (R l))
    (solve : ∀ l, Matrix (Fin (dims l)) (Fin (dims l)) K → (Fin (dims l) → K) → Fin (dims l) → K)
    (hsolve : ∀ l, SolvesExactly (solve l)) (hlev : 2 ≤ p.maxLevels.getD 2)
    (hfast : p.fastAp.getD false = false) (hpre : p.isPreconditioner = some false) :
    ∃ H, (buildHierarchy debug timer (some p)
        (.ok (matrixHelpers debug type dims procs A R solve))).result = .ok H ∧
      ∀ b xs, A.mulVec xs = b → ∀ x : ℕ → Fin (dims 0) → K,
        (∀ m, ∃ fresh, (H.vmult fresh (x m) b).result = .ok (x (m + 1))) → CorrectionsBound A xs x := by
  have hspd := coarseMatrix_spd dims A hA R hR
  obtain ⟨k, kind, hk, hk', hsymm⟩ : ∃ k kind, dealiiSmoother debug true type = .ok k ∧
      k.relaxation = some kind ∧ ∀ l x y, relaxVmult kind (coarseMatrix dims A R l) (procs l) x ⬝ᵥ y
        = x ⬝ᵥ relaxVmult kind (coarseMatrix dims A R l) (procs l) y := by
    rcases htype with h | h
    · exact ⟨_, _, h, rfl, fun l => C75_processes_symmetric (procs l) (hprocs l) _ (hspd l)⟩
    · exact ⟨_, _, h, rfl, fun l => jacobi_symmetric (procs l) (hprocs l) _⟩
  obtain ⟨H, hH, E, hE, hsym, -⟩ := cycle_propagation debug timer p type k kind hk hk' dims procs A hA R hR
    solve hsolve hlev hfast hpre hsymm
  refine ⟨H, hH, ?_⟩
  intro b xs hxs x hx
  refine corrections_of_propagation hA E hsym xs x fun m => ?_
  obtain ⟨fresh, hf⟩ := hx m
  exact hE b xs hxs fresh _ _ hf

end

section violated

/-- With Gauss-Seidel in one direction the corrections can exceed what the bound allows: for the two springs and every
first guess whose error is a multiple of `(-4, 1)`. -/
theorem C125_corrections_violated (debug timer : Bool) (type : Option (List Char))
    (htype : dealiiSmoother debug true type = .ok .gaussSeidel)
    (solve : ∀ m, Matrix (Fin m) (Fin m) ℚ → (Fin m → ℚ) → Fin m → ℚ) (hsolve : ∀ m, SolvesExactly (solve m))
    (b xs : Fin 2 → ℚ) (hxs : twoSprings.mulVec xs = b) (x : ℕ → Fin 2 → ℚ)
    (hx : ∀ m, TwoLevelGives debug timer { isPreconditioner := some false } type [[0, 1]] solve twoSprings onesPair
      (x m) b (x (m + 1))) (t : ℚ) (ht : t ≠ 0) (h0 : xs - x 0 = ![-4 * t, t]) :
    ¬ CorrectionsBound twoSprings xs x := by
  intro h
  have h3 := h 0
  have h1 := twoSprings_cycle debug timer type htype solve hsolve b xs hxs _ _ (hx 0)
  have h2 := twoSprings_cycle debug timer type htype solve hsolve b xs hxs _ _ (hx 1)
  rw [show x 1 = x (0 + 1) from rfl, h1, h0] at h2
  rw [h0] at h1
  have e1 : x (0 + 1) - x 0 = (xs - x 0) - (xs - x (0 + 1)) := by abel
  have e2 : x (0 + 2) - x (0 + 1) = (xs - x (0 + 1)) - (xs - x (1 + 1)) := by
    rw [show x (0 + 2) = x (1 + 1) from rfl]
    abel
  rw [e1, e2, h1, h2, h0] at h3
  simp only [energyOf, twoSprings_form] at h3
  simp at h3
  have hpos : 0 < t ^ 4 := by positivity
  nlinarith

/-- Two unknowns whose coupling is `c`. -/
def coupledPair (c : ℚ) : Matrix (Fin 2) (Fin 2) ℚ := !![1, c; c, 1]

/-- The first of the two unknowns. -/
def firstOfPair : Matrix (Fin 1) (Fin 2) ℚ := !![1, 0]

theorem coupledPair_form (c : ℚ) (u v : Fin 2 → ℚ) :
    u ⬝ᵥ (coupledPair c).mulVec v = u 0 * v 0 + c * (u 0 * v 1) + c * (u 1 * v 0) + u 1 * v 1 := by
  simp [coupledPair, Matrix.mulVec, dotProduct, Fin.sum_univ_two]
  ring

theorem coupledPair_spd {c : ℚ} (h0 : 0 < c) (h1 : c < 1) : IsSpd (coupledPair c) := by
  refine ⟨by ext i j; fin_cases i <;> fin_cases j <;> rfl, ?_⟩
  intro v hv
  have e : v ⬝ᵥ (coupledPair c).mulVec v = c * (v 0 + v 1) ^ 2 + (1 - c) * (v 0 ^ 2 + v 1 ^ 2) := by
    rw [coupledPair_form]
    ring
  rw [e]
  have hne : 0 < v 0 ^ 2 + v 1 ^ 2 := by
    by_contra h
    have h0 : v 0 = 0 := by nlinarith [sq_nonneg (v 0), sq_nonneg (v 1)]
    have h1 : v 1 = 0 := by nlinarith [sq_nonneg (v 0), sq_nonneg (v 1)]
    exact hv (by ext i; fin_cases i <;> assumption)
  have h2 : 0 < (1 - c) * (v 0 ^ 2 + v 1 ^ 2) := mul_pos (by linarith) hne
  have h3 : 0 ≤ c * (v 0 + v 1) ^ 2 := by positivity
  linarith

theorem firstOfPair_independent : IndependentRows firstOfPair := by
  intro y hy
  have := congrFun hy 0
  simp [firstOfPair, Matrix.mulVec, dotProduct] at this
  ext i
  fin_cases i
  exact this

theorem coupledPair_row0 (c a d : ℚ) : errRow (coupledPair c) ![a, d] 0 = ![-(c * d), d] := by
  ext i
  fin_cases i <;> simp [errRow, coupledPair, Matrix.vecHead, Matrix.vecTail, mul_comm]

theorem coupledPair_row1 (c a d : ℚ) : errRow (coupledPair c) ![a, d] 1 = ![a, -(c * a)] := by
  ext i
  fin_cases i <;> simp [errRow, coupledPair, Matrix.vecHead, Matrix.vecTail, mul_comm]

theorem coupledPair_sweep (c t : ℚ) :
    ![-(c * t), t] - relaxVmult .symmetricGaussSeidel (coupledPair c) [[0, 1]] ((coupledPair c).mulVec ![-(c * t), t])
      = ![-(c * (c ^ 2 * t)), c ^ 2 * t] := by
  have h : ![-(c * t), t] - relaxVmult .symmetricGaussSeidel (coupledPair c) [[0, 1]]
        ((coupledPair c).mulVec ![-(c * t), t])
      = (sweepRows .symmetricGaussSeidel [0, 1]).foldl (errRow (coupledPair c)) ![-(c * t), t] :=
    err_relax (by simp [IsSweep]) (coupledPair c) (⟨by decide, by decide⟩ : ListsAll ([0, 1] : List (Fin 2))) _
  rw [h]
  simp only [sweepRows, List.reverse_cons, List.reverse_nil, List.nil_append, List.cons_append, List.foldl_cons,
    List.foldl_nil, coupledPair_row0, coupledPair_row1]
  ext i
  fin_cases i
  · change -(c * -(c * -(c * t))) = -(c * (c ^ 2 * t))
    ring
  · change -(c * -(c * t)) = c ^ 2 * t
    ring

theorem coupledPair_corrected {c : ℚ} (h0 : 0 < c) (h1 : c < 1) (t : ℚ) :
    corrected (coupledPair c) firstOfPair ![-(c * t), t] = ![-(c * t), t] := by
  rw [corrected_eq (coupledPair_spd h0 h1) firstOfPair_independent _ (z := ![0]) (by
    ext i
    fin_cases i
    simp [galerkin, firstOfPair, coupledPair, Matrix.mulVec, dotProduct, Matrix.mul_apply, Fin.sum_univ_two])]
  ext i
  fin_cases i <;> simp [firstOfPair, Matrix.mulVec, dotProduct]

/-- A small correction does not mean a small error: whatever the factor, there are two-level hierarchies (with symmetric
Gauss-Seidel smoothing, so that the cycles converge) and first guesses from which the error exceeds the correction by more
than this factor in every cycle.  So the corrections give no bound from above without knowledge of the rate. -/
theorem C125_upper_violated (debug timer : Bool) (type : Option (List Char))
    (htype : dealiiSmoother debug true type = .ok .symmetricGaussSeidel)
    (solve : ∀ m, Matrix (Fin m) (Fin m) ℚ → (Fin m → ℚ) → Fin m → ℚ) (hsolve : ∀ m, SolvesExactly (solve m))
    (factor : ℚ) :
    ∃ A : Matrix (Fin 2) (Fin 2) ℚ, IsSpd A ∧ ∃ R : Matrix (Fin 1) (Fin 2) ℚ, IndependentRows R ∧
      ∀ b xs, A.mulVec xs = b → ∃ x₀, ∀ x : ℕ → Fin 2 → ℚ, x 0 = x₀ →
        (∀ m, TwoLevelGives debug timer { isPreconditioner := some false } type [[0, 1]] solve A R (x m) b (x (m + 1))) →
        ∀ m, factor * energyOf A (x (m + 1) - x m) < energyOf A (xs - x m) := by
  obtain ⟨N, hN⟩ := exists_nat_gt (16 * |factor|)
  have hN0 : (0 : ℚ) < N := lt_of_le_of_lt (by positivity) hN
  obtain ⟨c, hc⟩ : ∃ c : ℚ, c = 1 - 1 / (N + 1) := ⟨_, rfl⟩
  have hd0 : (0 : ℚ) < 1 / (N + 1) := by positivity
  have hd1 : (1 : ℚ) / (N + 1) < 1 := by
    rw [div_lt_one (by linarith)]
    linarith
  have h0 : 0 < c := by linarith
  have h1 : c < 1 := by linarith
  have hspd := coupledPair_spd h0 h1
  refine ⟨coupledPair c, hspd, firstOfPair, firstOfPair_independent, ?_⟩
  intro b xs hxs
  refine ⟨xs - ![-(c * 1), 1], ?_⟩
  intro x hx0 hx
  have hstep : ∀ (m : ℕ) (t : ℚ), xs - x m = ![-(c * t), t] → xs - x (m + 1) = ![-(c * (c ^ 4 * t)), c ^ 4 * t] := by
    intro m t ht
    obtain ⟨y', h2, h3⟩ := twoLevelGives_err debug timer { isPreconditioner := some false } type _ _ htype rfl [[0, 1]]
      solve hsolve hspd firstOfPair_independent rfl rfl (x m) b xs hxs (x m) rfl
    rw [twoLevelGives_unique (hx m) h2, h3, ht]
    change (![-(c * t), t] - relaxVmult .symmetricGaussSeidel (coupledPair c) [[0, 1]]
      ((coupledPair c).mulVec ![-(c * t), t]) |> fun w => corrected (coupledPair c) firstOfPair w -
        relaxVmult .symmetricGaussSeidel (coupledPair c) [[0, 1]]
          ((coupledPair c).mulVec (corrected (coupledPair c) firstOfPair w))) = _
    simp only [coupledPair_sweep, coupledPair_corrected h0 h1]
    rw [show c ^ 2 * (c ^ 2 * t) = c ^ 4 * t by ring]
  have hall : ∀ m, ∃ t : ℚ, t ≠ 0 ∧ xs - x m = ![-(c * t), t] := by
    intro m
    induction m with
    | zero => exact ⟨1, one_ne_zero, by rw [hx0]; abel⟩
    | succ m ih =>
      obtain ⟨t, ht, h⟩ := ih
      exact ⟨c ^ 4 * t, mul_ne_zero (by positivity) ht, hstep m t h⟩
  intro m
  obtain ⟨t, ht, h⟩ := hall m
  have e1 : x (m + 1) - x m = (xs - x m) - (xs - x (m + 1)) := by abel
  rw [e1, hstep m t h, h]
  simp only [energyOf, coupledPair_form]
  simp
  have hpos : 0 < t ^ 2 * (1 - c ^ 2) := by
    have : c ^ 2 < 1 := by nlinarith
    have : 0 < t ^ 2 := by positivity
    nlinarith
  have hsmall : factor * (1 - c ^ 4) ^ 2 < 1 := by
    have hq : 0 ≤ 1 - c ^ 4 := by nlinarith [pow_pos h0 2, pow_pos h0 3, pow_pos h0 4]
    have hq1 : 1 - c ^ 4 ≤ 4 * (1 - c) := by nlinarith [pow_pos h0 2, pow_pos h0 3, sq_nonneg (1 - c), sq_nonneg (1 - c ^ 2)]
    have hq2 : (1 - c ^ 4) ^ 2 ≤ (4 * (1 - c)) ^ 2 := pow_le_pow_left₀ hq hq1 2
    have hq3 : (4 * (1 - c)) ^ 2 ≤ 16 * (1 / (N + 1)) := by
      rw [hc]
      nlinarith
    have hq4 : |factor| * (16 * (1 / (N + 1))) < 1 := by
      rw [show |factor| * (16 * (1 / ((N : ℚ) + 1))) = 16 * |factor| / (N + 1) by ring, div_lt_one (by linarith)]
      linarith
    calc factor * (1 - c ^ 4) ^ 2 ≤ |factor| * (1 - c ^ 4) ^ 2 :=
          mul_le_mul_of_nonneg_right (le_abs_self _) (by positivity)
      _ ≤ |factor| * (16 * (1 / (N + 1))) := mul_le_mul_of_nonneg_left (hq2.trans hq3) (abs_nonneg _)
      _ < 1 := hq4
  nlinarith [mul_lt_mul_of_pos_right hsmall hpos]

end violated

section examples

/-- Five levels for a chain. -/
example := C125_gain (K := ℚ) true false { maxLevels := some 5, isPreconditioner := some false }
  (some (chars! "Gauss-Seidel")) (Or.inr rfl) (pairDims 3 5)
  (fun _ => List.finRange _) (fun _ => ⟨List.nodup_finRange _, List.mem_finRange⟩)
  (pairMatrix (pairDims 3 5 0) 1) (pair_spd _ 1 one_pos) (pairR 3 5) (pairR_independent 3 5)
  (fun l => exInvSolve l _) (fun l => exInvSolve_exact _ l) (by decide) rfl rfl (by decide)

/-- The gains of five cycles are the energy of the error up to a factor that is known. -/
example := C125_both_sides (K := ℚ) true false { maxLevels := some 5, isPreconditioner := some false } none (Or.inl rfl)
  (pairDims 3 5) (fun _ => List.finRange _) (fun _ => ⟨List.nodup_finRange _, List.mem_finRange⟩)
  (pairMatrix (pairDims 3 5 0) 1) (pair_spd _ 1 one_pos) (pairR 3 5) (pairR_independent 3 5) 3 (by
    intro l hl
    have hl' : l + 1 < 5 := hl
    rw [pair_coarse 3 5 1 l (by omega)]
    exact pair_perRow _ _) 3 (by norm_num) (by norm_num) (by
    intro l hl
    have hl' : l + 1 < 5 := hl
    rw [pair_coarse 3 5 1 l (by omega)]
    exact pair_strong 3 5 l) (fun l => exInvSolve l _) (fun l => exInvSolve_exact _ l) (by decide) rfl rfl
  (by decide)

/-- The chain with Jacobi smoothing. -/
example := C125_corrections_partial true false { maxLevels := some 5, isPreconditioner := some false }
  (some (chars! "Jacobi")) (Or.inr rfl) (pairDims 3 5)
  (fun _ => [List.finRange _]) (fun _ => by simpa using ⟨List.nodup_finRange _, List.mem_finRange⟩)
  (pairMatrix (pairDims 3 5 0) (1 : ℝ)) (pair_spd _ 1 one_pos) (pairR 3 5) (pairR_independent 3 5)
  (fun _ N b => N⁻¹.mulVec b) (fun _ _ b h => mulVec_inv h b) (by decide) rfl rfl

/-- There are cycles that start from every error, for instance from `(-4, 1)`. -/
example : ∃ x : ℕ → Fin 2 → ℚ, ¬ CorrectionsBound twoSprings 0 x := by
  have hex : ∀ x : Fin 2 → ℚ, ∃ y, TwoLevelGives true true { isPreconditioner := some false }
      (some (chars! "Gauss-Seidel")) [[0, 1]] exInverse twoSprings onesPair x 0 y := by
    intro x
    obtain ⟨y, h, -⟩ := twoLevelGives_err true true { isPreconditioner := some false }
      (some (chars! "Gauss-Seidel")) _ _ rfl rfl [[0, 1]] exInverse exInverse_exact twoSprings_spd onesPair_independent
      rfl rfl x 0 0 (Matrix.mulVec_zero _) x rfl
    exact ⟨y, h⟩
  choose f hf using hex
  refine ⟨fun m => f^[m] ![4, -1], C125_corrections_violated true true (some (chars! "Gauss-Seidel")) rfl exInverse
    exInverse_exact 0 0 (Matrix.mulVec_zero _) _ (fun m => ?_) 1 one_ne_zero (by
      ext i
      fin_cases i <;> simp)⟩
  rw [Function.iterate_succ_apply']
  exact hf _

example := C125_upper_violated true false none rfl exInverse exInverse_exact 1000

end examples

end Mfmg
