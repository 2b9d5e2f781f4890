import Verif.Lemmas.InexactCoarse
import Mathlib.LinearAlgebra.Matrix.Notation

/-!
# C115: the coarse problem need not be solved exactly
-/

set_option autoImplicit false

namespace Mfmg

open Spec

section

variable {K : Type} [Field K] [LinearOrder K] [IsStrictOrderedRing K] {dims : ℕ → ℕ}

/-- Sweeps do not increase the energy, and decrease it unless the error is zero. -/
theorem sweep_energy {kind : Relaxation} (hs : IsSweep kind) {n : ℕ} {own : List (Fin n)} (hown : ListsAll own)
    {M : Matrix (Fin n) (Fin n) K} (hM : IsSpd M) (e : Fin n → K) :
    energyOf M (e - relaxVmult kind M [own] (M.mulVec e)) ≤ energyOf M e ∧
      (e ≠ 0 → energyOf M (e - relaxVmult kind M [own] (M.mulVec e)) < energyOf M e) := by
  rw [err_relax hs M hown e]
  refine ⟨(energy_sweep hM _ _).1, fun he => energy_sweep_lt hM _ ?_ e he⟩
  intro i
  cases kind
  · exact List.mem_append.2 (Or.inl (hown.2 i))
  · exact hown.2 i
  · exact absurd rfl hs

/-- **C115**, any number of levels, standalone or as a preconditioner, (symmetric) Gauss-Seidel smoothing on one
process: if the coarse solver leaves at most the part `δ` of the error in the energy, the result of an application
differs from that with an exact coarse solver by at most the part `δ` of the initial error.

Missing: accuracy of the residual instead of the energy, see `C115_residual_violated`. -/
theorem C115_close_partial (debug timer : Bool) (p : Params) (type : Option (List Char))
    (htype : dealiiSmoother debug true type = .ok .symmetricGaussSeidel ∨
      dealiiSmoother debug true type = .ok .gaussSeidel) (own : ∀ l, List (Fin (dims l))) (hown : ∀ l, ListsAll (own l))
    (A : Matrix (Fin (dims 0)) (Fin (dims 0)) K) (hA : IsSpd A)
    (R : ∀ l, Matrix (Fin (dims (l + 1))) (Fin (dims l)) K) (hR : ∀ l, IndependentRows (R l))
    (solve solve' : ∀ l, Matrix (Fin (dims l)) (Fin (dims l)) K → (Fin (dims l) → K) → Fin (dims l) → K)
    (hsolve : ∀ l, SolvesExactly (solve l)) (δ : K) (hsolve' : ∀ l, AccurateTo δ (solve' l))
    (hpos : 0 < p.maxLevels.getD 2) (hlev : p.isPreconditioner.getD true = true ∨ 2 ≤ p.maxLevels.getD 2)
    (hfast : p.fastAp.getD false = false) (x b xs : Fin (dims 0) → K) (hxs : A.mulVec xs = b) :
    ∃ y y', CycleGives debug timer p type dims (fun l => [own l]) A R solve x b y ∧
      CycleGives debug timer p type dims (fun l => [own l]) A R solve' x b y' ∧
      energyOf A (y' - y) ≤ δ * δ * energyOf A (xs - if p.isPreconditioner.getD true then 0 else x) := by
  obtain ⟨k, kind, hk, hk', hs⟩ : ∃ k kind, dealiiSmoother debug true type = .ok k ∧
      k.relaxation = some kind ∧ IsSweep kind := by
    rcases htype with h | h
    · exact ⟨_, _, h, rfl, by simp [IsSweep]⟩
    · exact ⟨_, _, h, rfl, by simp [IsSweep]⟩
  have hspd := coarseMatrix_spd dims A hA R hR
  refine ⟨_, _, cycleBy_gives debug timer p type k kind hk hk' dims _ A R solve hpos hfast x b,
    cycleBy_gives debug timer p type k kind hk hk' dims _ A R solve' hpos hfast x b, ?_⟩
  rw [energyOf_sub_comm A xs, ← hxs]
  refine cycleBy_close hA hR (fun l e => (sweep_energy hs (hown l) (hspd l) e).1) _ _ _ ?_
    (fun l e => hsolve' l _ (hspd l) e) _ 0 xs _ ?_
  · intro l e
    exact mulVec_injective (hspd l) (hsolve l _ _ (spd_det (hspd l)))
  · intro h
    rcases hlev with h' | h'
    · rw [if_pos h']
    · omega

/-- **C115**: a rate `c` of the cycles with an exact coarse solver becomes at most `c + δ`, whatever the number of
levels.  Missing: as above. -/
theorem C115_rate_partial (debug timer : Bool) (p : Params) (type : Option (List Char))
    (htype : dealiiSmoother debug true type = .ok .symmetricGaussSeidel ∨
      dealiiSmoother debug true type = .ok .gaussSeidel) (own : ∀ l, List (Fin (dims l))) (hown : ∀ l, ListsAll (own l))
    (A : Matrix (Fin (dims 0)) (Fin (dims 0)) K) (hA : IsSpd A)
    (R : ∀ l, Matrix (Fin (dims (l + 1))) (Fin (dims l)) K) (hR : ∀ l, IndependentRows (R l))
    (solve solve' : ∀ l, Matrix (Fin (dims l)) (Fin (dims l)) K → (Fin (dims l) → K) → Fin (dims l) → K)
    (hsolve : ∀ l, SolvesExactly (solve l)) (δ : K) (hδ : 0 ≤ δ) (hsolve' : ∀ l, AccurateTo δ (solve' l))
    (hlev : 2 ≤ p.maxLevels.getD 2) (hfast : p.fastAp.getD false = false) (hpre : p.isPreconditioner = some false)
    (c : K) (hc : 0 ≤ c)
    (h : ReducesBy A (CycleGives debug timer p type dims (fun l => [own l]) A R solve) (c * c)) :
    ReducesBy A (CycleGives debug timer p type dims (fun l => [own l]) A R solve') ((c + δ) * (c + δ)) := by
  intro x b xs hxs
  obtain ⟨y, y', h1, h2, h3⟩ := C115_close_partial debug timer p type htype own hown A hA R hR solve solve' hsolve δ hsolve'
    (by omega) (Or.inr hlev) hfast x b xs hxs
  obtain ⟨y₁, h4, h5⟩ := h x b xs hxs
  obtain rfl : y₁ = y := by
    obtain ⟨H, e1, e2⟩ := h1
    obtain ⟨H', e3, e4⟩ := h4
    obtain rfl := Outcome.ok.inj (e1.symm.trans e3)
    exact Outcome.ok.inj ((e4 fun _ => 0).symm.trans (e2 fun _ => 0))
  refine ⟨y', h2, ?_⟩
  have h6 : xs - y' = (xs - y₁) + (y₁ - y') := by abel
  rw [h6]
  refine energyOf_triangle hA hc hδ (energyOf_nonneg hA _) h5 ?_
  rw [energyOf_sub_comm]
  simpa [hpre] using h3

/-- **C115**: a coarse solver that does not increase the energy of the error does not make the cycle increase it, and
with at least one smoothing step the error decreases unless it is zero. -/
theorem C115_decreases (debug timer : Bool) (p : Params) (type : Option (List Char))
    (htype : dealiiSmoother debug true type = .ok .symmetricGaussSeidel ∨
      dealiiSmoother debug true type = .ok .gaussSeidel) (own : ∀ l, List (Fin (dims l))) (hown : ∀ l, ListsAll (own l))
    (A : Matrix (Fin (dims 0)) (Fin (dims 0)) K) (hA : IsSpd A)
    (R : ∀ l, Matrix (Fin (dims (l + 1))) (Fin (dims l)) K) (hR : ∀ l, IndependentRows (R l))
    (solve : ∀ l, Matrix (Fin (dims l)) (Fin (dims l)) K → (Fin (dims l) → K) → Fin (dims l) → K)
    (hsolve : ∀ l, AccurateTo 1 (solve l)) (hlev : 2 ≤ p.maxLevels.getD 2)
    (hfast : p.fastAp.getD false = false) (x x₀ b xs : Fin (dims 0) → K) (hxs : A.mulVec xs = b)
    (hx₀ : x₀ = if p.isPreconditioner.getD true then 0 else x) :
    ∃ y, CycleGives debug timer p type dims (fun l => [own l]) A R solve x b y ∧
      energyOf A (xs - y) ≤ energyOf A (xs - x₀) ∧
      (0 < toUnsigned (p.nSmoothingSteps.getD 1) → x₀ ≠ xs → energyOf A (xs - y) < energyOf A (xs - x₀)) := by
  obtain ⟨k, kind, hk, hk', hs⟩ : ∃ k kind, dealiiSmoother debug true type = .ok k ∧
      k.relaxation = some kind ∧ IsSweep kind := by
    rcases htype with h | h
    · exact ⟨_, _, h, rfl, by simp [IsSweep]⟩
    · exact ⟨_, _, h, rfl, by simp [IsSweep]⟩
  have hspd := coarseMatrix_spd dims A hA R hR
  have hC : ∀ l e, energyOf (coarseMatrix dims A R l)
      (solve l (coarseMatrix dims A R l) ((coarseMatrix dims A R l).mulVec e) - e)
        ≤ energyOf (coarseMatrix dims A R l) e := by
    intro l e
    simpa using hsolve l _ (hspd l) e
  refine ⟨_, cycleBy_gives debug timer p type k kind hk hk' dims _ A R solve (by omega) hfast x b, ?_⟩
  rw [energyOf_sub_comm A xs, energyOf_sub_comm A xs, ← hxs, ← hx₀]
  refine ⟨cycleBy_le hA hR (fun l e => (sweep_energy hs (hown l) (hspd l) e).1) _ _ hC _ 0 xs _ (by omega), ?_⟩
  intro hn hx
  obtain ⟨d, hd⟩ : ∃ d, (p.maxLevels.getD 2).toNat - 1 = d + 1 := ⟨(p.maxLevels.getD 2).toNat - 2, by omega⟩
  rw [hd]
  exact cycleBy_lt hA hR (fun l e => (sweep_energy hs (hown l) (hspd l) e).1) _ hn _ hC d 0
    (fun e => (sweep_energy hs (hown 0) (hspd 0) e).2) xs x₀ hx

end

/-! ### The size of the residual says nothing -/

/-- A solver whose residual is the right-hand side in reverse order, times `δ`. -/
noncomputable def turnedSolve (δ : ℚ) {n : ℕ} (M : Matrix (Fin n) (Fin n) ℚ) (b : Fin n → ℚ) : Fin n → ℚ :=
  M⁻¹.mulVec (b + δ • fun i => b i.rev)

theorem turnedSolve_residual (δ : ℚ) (n : ℕ) : ResidualAccurateTo δ (turnedSolve δ (n := n)) := by
  intro M hM b
  have h : b - M.mulVec (turnedSolve δ M b) = -(δ • fun i => b i.rev) := by
    rw [turnedSolve, mulVec_inv (spd_det hM)]
    abel
  rw [h, neg_dotProduct_neg, smul_dotProduct, dotProduct_smul]
  have h2 : (fun i => b (Fin.rev i)) ⬝ᵥ (fun i => b (Fin.rev i)) = b ⬝ᵥ b :=
    Equiv.sum_comp Fin.revPerm fun i => b i * b i
  rw [h2, smul_eq_mul, smul_eq_mul, mul_assoc]

/-- Two unknowns with the units `1` and `1 / s`. -/
def stretched (s : ℚ) : Matrix (Fin 2) (Fin 2) ℚ := !![1, s / 2; s / 2, s * s]

theorem stretched_spd {s : ℚ} (hs : 0 < s) : IsSpd (stretched s) := by
  refine ⟨by ext i j; fin_cases i <;> fin_cases j <;> rfl, ?_⟩
  intro v hv
  have h : v ⬝ᵥ (stretched s).mulVec v = (v 0 + s * v 1 / 2) ^ 2 + 3 / 4 * (s * v 1) ^ 2 := by
    simp [stretched, Matrix.mulVec, dotProduct, Fin.sum_univ_two]
    ring
  rw [h]
  by_cases h1 : v 1 = 0
  · have h0 : v 0 ≠ 0 := by
      intro h0
      exact hv (by ext i; fin_cases i <;> assumption)
    rw [h1]
    have := sq_pos_of_ne_zero h0
    nlinarith
  · have := sq_pos_of_ne_zero (mul_ne_zero hs.ne' h1)
    have := sq_nonneg (v 0 + s * v 1 / 2)
    linarith

theorem stretched_sweep {s : ℚ} (hs : 0 < s) (e : Fin 2 → ℚ) :
    e - relaxVmult .symmetricGaussSeidel (stretched s) [[0, 1]] ((stretched s).mulVec e) = ![-(s * e 1) / 8, e 1 / 4] := by
  have h : e - relaxVmult .symmetricGaussSeidel (stretched s) [[0, 1]] ((stretched s).mulVec e)
      = (sweepRows .symmetricGaussSeidel [0, 1]).foldl (errRow (stretched s)) e :=
    err_relax (by simp [IsSweep]) (stretched s) (⟨by decide, by decide⟩ : ListsAll ([0, 1] : List (Fin 2))) e
  rw [h]
  simp only [sweepRows, List.reverse_cons, List.reverse_nil, List.nil_append, List.cons_append, List.foldl_cons,
    List.foldl_nil]
  have := hs.ne'
  ext i
  fin_cases i <;>
    simp [errRow, stretched, Matrix.mulVec, dotProduct, Fin.sum_univ_two, Pi.single_apply] <;> field_simp <;> ring

/-- The full claim is violated if the accuracy is that of the residual, which iterative coarse solvers control: however
small the residual is (`δ`), there is a problem and a solver for which a cycle multiplies the error by any given
number `c`. -/
theorem C115_residual_violated (debug timer : Bool) (type : Option (List Char))
    (htype : dealiiSmoother debug true type = .ok .symmetricGaussSeidel) (δ c : ℚ) (hδ : 0 < δ) (hc : 0 < c) :
    ∃ (A : Matrix (Fin 2) (Fin 2) ℚ) (R : Matrix (Fin 2) (Fin 2) ℚ)
      (solve : ℕ → Matrix (Fin 2) (Fin 2) ℚ → (Fin 2 → ℚ) → Fin 2 → ℚ) (x b xs y : Fin 2 → ℚ),
      IsSpd A ∧ IndependentRows R ∧ (∀ l, ResidualAccurateTo δ (solve l)) ∧ A.mulVec xs = b ∧ x ≠ xs ∧
      CycleGives debug timer { isPreconditioner := some false } type (fun _ => 2) (fun _ => [[0, 1]]) A (fun _ => R)
        solve x b y ∧ y - xs = c • (x - xs) ∧ energyOf A (xs - y) = c * c * energyOf A (xs - x) := by
  obtain ⟨s, hs, hs'⟩ : ∃ s : ℚ, 0 < s ∧ s * δ / 32 = c := ⟨32 * c / δ, by positivity, by field_simp⟩
  have hspd := stretched_spd hs
  have hR : ∀ l : ℕ, IndependentRows ((fun _ => 1 : ∀ _ : ℕ, Matrix (Fin 2) (Fin 2) ℚ) l) := by
    intro l y hy
    simpa using hy
  have hown : ListsAll ([0, 1] : List (Fin 2)) := ⟨by decide, by decide⟩
  have hsw : IsSweep .symmetricGaussSeidel := by simp [IsSweep]
  have hgal : ∀ l, coarseMatrix (fun _ => 2) (stretched s) (fun _ => 1) l = stretched s := by
    intro l
    induction l with
    | zero => rfl
    | succ l ih =>
      change galerkin 1 (coarseMatrix (fun _ => 2) (stretched s) (fun _ => 1) l) = _
      rw [ih, galerkin, Matrix.transpose_one, Matrix.one_mul, Matrix.mul_one]
  have hgives := cycleBy_gives debug timer { isPreconditioner := some false } type _ _ htype rfl (fun _ => 2)
    (fun _ => [[0, 1]]) (stretched s) (fun _ => 1) (fun _ => turnedSolve δ) (by decide) rfl ![-1 / 2, 1 / s] 0
  obtain ⟨y, hy⟩ : ∃ y, y = cycleBy .symmetricGaussSeidel (fun _ => 2) (fun _ => [[0, 1]])
      (coarseMatrix (fun _ => 2) (stretched s) (fun _ => 1)) (fun _ => 1)
      (fun l => turnedSolve δ (coarseMatrix (fun _ => 2) (stretched s) (fun _ => 1) l)) 1 1 0
      (0 : Fin 2 → ℚ) (![-1 / 2, 1 / s] : Fin 2 → ℚ) := ⟨_, rfl⟩
  have hres : y = c • (![-1 / 2, 1 / s] : Fin 2 → ℚ) := by
    obtain ⟨w, z, hw, hz, -, hstep, -⟩ := cycleBy_level (kind := .symmetricGaussSeidel) (dims := fun _ => 2)
      (procs := fun _ => [[0, 1]]) (A := stretched s) hspd (R := fun _ => 1) hR
      (fun l e => (sweep_energy hsw hown (coarseMatrix_spd _ _ hspd _ hR l) e).1) 1 0 0
      (fun l => turnedSolve δ (coarseMatrix (fun _ => 2) (stretched s) (fun _ => 1) l)) 0 ![-1 / 2, 1 / s]
    rw [Matrix.mulVec_zero, sub_zero, ← hy] at hstep
    rw [hstep]
    have hw' : w = ![-1 / 8, 1 / (4 * s)] := by
      rw [hw]
      refine (stretched_sweep hs _).trans ?_
      ext i
      fin_cases i <;> simp <;> field_simp
    have hz' : (coarseMatrix (fun _ => 2) (stretched s) (fun _ => 1) (0 + 1)).mulVec z = ![0, 3 * s / 16] := by
      rw [hz, hw']
      change (1 : Matrix (Fin 2) (Fin 2) ℚ).mulVec ((stretched s).mulVec _) = _
      rw [Matrix.one_mulVec]
      ext i
      fin_cases i <;> simp [stretched, Matrix.mulVec, dotProduct, Fin.sum_univ_two] <;> field_simp <;> norm_num
    have hsolve : turnedSolve δ (stretched s) ![0, 3 * s / 16] = ![-1 / 8 + δ * s / 4, 1 / (4 * s) - δ / 8] := by
      apply mulVec_injective hspd
      rw [turnedSolve, mulVec_inv (spd_det hspd)]
      ext i
      fin_cases i <;> simp [stretched, Matrix.mulVec, dotProduct, Fin.sum_univ_two, Fin.rev] <;> field_simp <;> ring
    rw [hz']
    have hu : ∀ u : Fin 2 → ℚ, u = turnedSolve δ (coarseMatrix (fun _ => 2) (stretched s) (fun _ => 1) (0 + 1)) ![0, 3 * s / 16] →
        w - (1 : Matrix (Fin 2) (Fin 2) ℚ).transpose.mulVec u = ![-(δ * s / 4), δ / 8] := by
      intro u hu
      rw [hu, hgal, hsolve, hw', Matrix.transpose_one, Matrix.one_mulVec]
      ext i
      fin_cases i <;> simp
    refine (congrArg (fun v : Fin 2 → ℚ => v - relaxVmult .symmetricGaussSeidel (stretched s) [[0, 1]]
      ((stretched s).mulVec v)) (hu _ rfl)).trans ?_
    rw [stretched_sweep hs, ← hs']
    ext i
    fin_cases i <;> simp <;> field_simp <;> norm_num
  refine ⟨stretched s, 1, fun _ => turnedSolve δ, ![-1 / 2, 1 / s], 0, 0, y, hspd, hR 0, fun _ => turnedSolve_residual δ 2,
    Matrix.mulVec_zero _, ?_, ?_, ?_, ?_⟩
  · intro h
    have := congrFun h 0
    norm_num at this
  · rw [hy]
    exact hgives
  · rw [sub_zero, sub_zero, hres]
  · rw [zero_sub, zero_sub, energyOf_neg, energyOf_neg, hres, energyOf, Matrix.mulVec_smul, smul_dotProduct,
      dotProduct_smul, smul_eq_mul, smul_eq_mul, mul_assoc]
    rfl

section examples

/-- One symmetric Gauss-Seidel sweep as the coarse solver. -/
def sweepSolve {n : ℕ} (M : Matrix (Fin n) (Fin n) ℚ) (b : Fin n → ℚ) : Fin n → ℚ :=
  relaxVmult .symmetricGaussSeidel M [List.finRange n] b

theorem sweepSolve_accurate (n : ℕ) : AccurateTo 1 (sweepSolve (n := n)) := by
  intro M hM e
  rw [energyOf_sub_comm, mul_one, one_mul]
  exact (sweep_energy (by simp [IsSweep]) ⟨List.nodup_finRange n, List.mem_finRange⟩ hM e).1

/-- A nonlinear solver: the solution, cut off when it has large energy. -/
noncomputable def roughSolve {n : ℕ} (M : Matrix (Fin n) (Fin n) ℚ) (b : Fin n → ℚ) : Fin n → ℚ :=
  if energyOf M (M⁻¹.mulVec b) < 1 then M⁻¹.mulVec b else (9 / 10 : ℚ) • M⁻¹.mulVec b

theorem roughSolve_accurate (n : ℕ) : AccurateTo (1 / 10) (roughSolve (n := n)) := by
  intro M hM e
  have h : M⁻¹.mulVec (M.mulVec e) = e := mulVec_injective hM (mulVec_inv (spd_det hM) _)
  have h0 := energyOf_nonneg hM e
  rw [roughSolve, h]
  split_ifs
  · rw [sub_self, energyOf, zero_dotProduct]
    linarith
  · have h1 : (9 / 10 : ℚ) • e - e = (-(1 / 10) : ℚ) • e := by
      ext i
      simp only [Pi.sub_apply, Pi.smul_apply, smul_eq_mul]
      ring
    rw [h1, energyOf, Matrix.mulVec_smul, smul_dotProduct, dotProduct_smul, smul_eq_mul, smul_eq_mul]
    change -(1 / 10) * (-(1 / 10) * energyOf M e) ≤ _
    linarith

/-- Three levels with two, one and one unknown. -/
def shrinkDims (l : ℕ) : ℕ := if l = 0 then 2 else 1

/-- Sums. -/
def shrinkRows (l : ℕ) : Matrix (Fin (shrinkDims (l + 1))) (Fin (shrinkDims l)) ℚ := fun _ _ => 1

theorem shrinkRows_independent (l : ℕ) : IndependentRows (shrinkRows l) := by
  intro y hy
  have h : 0 < shrinkDims l := by unfold shrinkDims; split_ifs <;> decide
  have h1 := congrFun hy ⟨0, h⟩
  have h2 : ∑ i : Fin 1, (fun i : Fin 1 => 1 * y i) i = 0 := h1
  rw [Fin.sum_univ_one, one_mul] at h2
  ext i
  obtain rfl : i = (0 : Fin 1) := Subsingleton.elim (α := Fin 1) _ _
  exact h2

example (x b xs : Fin 2 → ℚ) (h : (stretched 3).mulVec xs = b) :=
  C115_close_partial (dims := shrinkDims) true true { maxLevels := some 3 } none (Or.inl rfl) (fun _ => List.finRange _)
    (fun _ => ⟨List.nodup_finRange _, List.mem_finRange⟩) (stretched 3) (stretched_spd (by norm_num)) shrinkRows
    shrinkRows_independent (fun _ M b => M⁻¹.mulVec b) (fun _ => roughSolve) (fun _ _ b h => mulVec_inv h b) (1 / 10)
    (fun _ => roughSolve_accurate _) (by decide) (Or.inl rfl) rfl x b xs h

example (h : ReducesBy (stretched 3) (CycleGives true true { maxLevels := some 3, isPreconditioner := some false } none
      shrinkDims (fun _ => [List.finRange _]) (stretched 3) shrinkRows (fun _ M b => M⁻¹.mulVec b)) ((1 / 2) * (1 / 2))) :=
  C115_rate_partial (dims := shrinkDims) true true { maxLevels := some 3, isPreconditioner := some false } none (Or.inl rfl)
    (fun _ => List.finRange _) (fun _ => ⟨List.nodup_finRange _, List.mem_finRange⟩) (stretched 3)
    (stretched_spd (by norm_num)) shrinkRows shrinkRows_independent (fun _ M b => M⁻¹.mulVec b) (fun _ => roughSolve)
    (fun _ _ b h => mulVec_inv h b) (1 / 10) (by norm_num) (fun _ => roughSolve_accurate _) (by decide) rfl rfl (1 / 2)
    (by norm_num) h

example (x b xs : Fin 2 → ℚ) (h : (stretched 3).mulVec xs = b) :=
  C115_decreases (dims := shrinkDims) true true { maxLevels := some 3, isPreconditioner := some false } none (Or.inl rfl)
    (fun _ => List.finRange _) (fun _ => ⟨List.nodup_finRange _, List.mem_finRange⟩) (stretched 3)
    (stretched_spd (by norm_num)) shrinkRows shrinkRows_independent (fun _ => sweepSolve) (fun _ => sweepSolve_accurate _)
    (by decide) rfl x x b xs h rfl

example := C115_residual_violated true true none rfl (1 / 1000000) 10 (by norm_num) (by norm_num)

end examples

end Mfmg
