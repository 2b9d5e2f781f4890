import Verif.Lemmas.RelaxationProcs

/-!
# Convergence with the default smoother on several processes (C75)
-/

set_option autoImplicit false

namespace Mfmg

open Spec

section

variable {K : Type} [Field K] [LinearOrder K] [IsStrictOrderedRing K]

/-- **C75**, one smoothing step of symmetric Gauss-Seidel (the default) on any number of processes: it
decreases the energy of the error if the coupling between the processes is weak. -/
theorem C75_processes_smoother_partial {n : ℕ} (procs : List (List (Fin n)))
    (hprocs : ListsAll procs.flatten) (A : Matrix (Fin n) (Fin n) K) (hA : IsSpd A)
    (hw : WeaklyCoupled A procs) (b x xs : Fin n → K) (hxs : A.mulVec xs = b) (hx : x ≠ xs) :
    energyOf A (xs - dealiiSmootherApply .symmetricGaussSeidel procs (matrixOp A) b x)
      < energyOf A (xs - x) := by
  rw [err_smoother .symmetricGaussSeidel procs A b x xs hxs]
  exact sgs_decreases hA hprocs hw _ (sub_ne_zero.2 (Ne.symm hx))

/-- **C75**: the coupling is weak if the processes can be coloured with two colours such that no row of a
process is coupled to a row of another process of the same colour (strips, for example). -/
theorem C75_two_colours {n : ℕ} (procs : List (List (Fin n))) (hprocs : ListsAll procs.flatten)
    (A : Matrix (Fin n) (Fin n) K) (hA : IsSpd A) (colour : Fin n → Bool)
    (hsame : ∀ own ∈ procs, ∀ i ∈ own, ∀ j ∈ own, colour i = colour j)
    (hfree : ∀ own ∈ procs, ∀ i ∈ own, ∀ j, j ∉ own → colour i = colour j → A i j = 0) :
    WeaklyCoupled A procs := weaklyCoupled_of_colour hA hprocs colour hsame hfree

/-- Every smoother that decreases the energy on all levels makes a cycle that does. -/
theorem cycle_decreases (debug timer : Bool) (p : Params) (type : Option (List Char)) (k : SmootherKind)
    (kind : Relaxation) (hk : dealiiSmoother debug true type = .ok k) (hk' : k.relaxation = some kind)
    (dims : ℕ → ℕ) (procs : ∀ l, List (List (Fin (dims l))))
    (A : Matrix (Fin (dims 0)) (Fin (dims 0)) K) (hA : IsSpd A)
    (R : ∀ l, Matrix (Fin (dims (l + 1))) (Fin (dims l)) K) (hR : ∀ l, IndependentRows (R l))
    (solve : ∀ l, Matrix (Fin (dims l)) (Fin (dims l)) K → (Fin (dims l) → K) → Fin (dims l) → K)
    (hsolve : ∀ l, SolvesExactly (solve l)) (hlev : 2 ≤ p.maxLevels.getD 2)
    (hfast : p.fastAp.getD false = false) (hpre : p.isPreconditioner = some false)
    (hsteps : 0 < toUnsigned (p.nSmoothingSteps.getD 1))
    (hdec : ∀ l : ℕ, l + 1 < (p.maxLevels.getD 2).toNat → ∀ e : Fin (dims l) → K, e ≠ 0 →
      energyOf (coarseMatrix dims A R l)
        (e - relaxVmult kind (coarseMatrix dims A R l) (procs l) ((coarseMatrix dims A R l).mulVec e))
        < energyOf (coarseMatrix dims A R l) e) :
    ∃ H, (buildHierarchy debug timer (some p)
        (.ok (matrixHelpers debug type dims procs A R solve))).result = .ok H ∧
      IsLinear H (matrixData kind dims procs A R) ∧ H.isPreconditioner = false ∧ 2 ≤ H.numLevels ∧
      ∀ fresh (x b xs : Fin (dims 0) → K), A.mulVec xs = b → x ≠ xs →
        ∃ y, (H.vmult fresh x b).result = .ok y ∧
          energyOf A (xs - y) < energyOf A (xs - x) := by
  obtain ⟨H, hH, hlin, hL, hp, hn⟩ := matrixHelpers_build debug timer p type k kind hk hk' dims
    procs A hA R hR solve hsolve (by omega) hfast
  have hp' : H.isPreconditioner = false := by rw [hp, hpre]; rfl
  have hL2 : 2 ≤ H.numLevels := by omega
  refine ⟨H, hH, hlin, hp', hL2, ?_⟩
  intro fresh x b xs hxs hx
  refine ⟨_, C04_cycle_is_textbook H _ hlin fresh x b (Or.inr hL2), ?_⟩
  rw [hp']
  set D := matrixData kind dims procs A R with hD
  have hen : ∀ l (e : Fin (dims l) → K), energy D (fun l => dotForm (dims l)) l e
      = energyOf (coarseMatrix dims A R l) e := fun l e =>
    dotProduct_comm ((coarseMatrix dims A R l).mulVec e) e
  have hchain := matrixData_chain kind dims procs A hA R hR H.numLevels
  have hlt := cycle_energy_lt hchain (by
      intro l hl e
      rw [← hD, hen, hen]
      by_cases he : e = 0
      · subst he
        rw [map_zero, map_zero, sub_zero]
      · exact (hdec l (by omega) e he).le)
    H.nSmoothingSteps (by omega) (H.numLevels - 1) 0 (by omega) (by omega) (by
      intro e he
      rw [← hD, hen, hen]
      refine hdec 0 (by omega) e ?_
      rintro rfl
      exact he (map_zero _))
    b x xs hxs (by
      intro h
      exact hx (mulVec_injective hA (h.trans hxs.symm)))
  rw [hen, hen] at hlt
  exact hlt

/-- **C75**, the whole cycle on any number of processes: with symmetric Gauss-Seidel smoothing (also by
default), two or more levels, at least one smoothing step, restriction matrices of full rank and weak coupling
on every level but the coarsest, every standalone cycle decreases the energy of the error.  Missing: strong
coupling (see `C75_cycle_violated`) and the other smoothers. -/
theorem C75_processes_cycle_partial (debug timer : Bool) (p : Params) (type : Option (List Char))
    (htype : dealiiSmoother debug true type = .ok .symmetricGaussSeidel) (dims : ℕ → ℕ)
    (procs : ∀ l, List (List (Fin (dims l)))) (hprocs : ∀ l, ListsAll (procs l).flatten)
    (A : Matrix (Fin (dims 0)) (Fin (dims 0)) K) (hA : IsSpd A)
    (R : ∀ l, Matrix (Fin (dims (l + 1))) (Fin (dims l)) K) (hR : ∀ l, IndependentRows (R l))
    (hweak : ∀ l : ℕ, l + 1 < (p.maxLevels.getD 2).toNat →
      WeaklyCoupled (coarseMatrix dims A R l) (procs l))
    (solve : ∀ l, Matrix (Fin (dims l)) (Fin (dims l)) K → (Fin (dims l) → K) → Fin (dims l) → K)
    (hsolve : ∀ l, SolvesExactly (solve l)) (hlev : 2 ≤ p.maxLevels.getD 2)
    (hfast : p.fastAp.getD false = false) (hpre : p.isPreconditioner = some false)
    (hsteps : 0 < toUnsigned (p.nSmoothingSteps.getD 1)) :
    ∃ H, (buildHierarchy debug timer (some p)
        (.ok (matrixHelpers debug type dims procs A R solve))).result = .ok H ∧
      ∀ fresh (x b xs : Fin (dims 0) → K), A.mulVec xs = b → x ≠ xs →
        ∃ y, (H.vmult fresh x b).result = .ok y ∧
          energyOf A (xs - y) < energyOf A (xs - x) := by
  obtain ⟨H, hH, _, _, _, h⟩ := cycle_decreases debug timer p type _ _ htype rfl dims procs A hA R hR solve
    hsolve hlev hfast hpre hsteps fun l hl e he =>
      sgs_decreases (coarseMatrix_spd dims A hA R hR l) (hprocs l) (hweak l hl) e he
  exact ⟨H, hH, h⟩

/-- **C75**, one or two processes: with symmetric Gauss-Seidel smoothing (also by default) every standalone
cycle decreases the energy of the error of every symmetric positive definite problem, however the rows of
every level are divided among the two processes.  From three processes on this fails
(`C75_cycle_violated`). -/
theorem C75_two_processes_partial (debug timer : Bool) (p : Params) (type : Option (List Char))
    (htype : dealiiSmoother debug true type = .ok .symmetricGaussSeidel) (dims : ℕ → ℕ)
    (procs : ∀ l, List (List (Fin (dims l)))) (hprocs : ∀ l, ListsAll (procs l).flatten)
    (htwo : ∀ l, (procs l).length ≤ 2)
    (A : Matrix (Fin (dims 0)) (Fin (dims 0)) K) (hA : IsSpd A)
    (R : ∀ l, Matrix (Fin (dims (l + 1))) (Fin (dims l)) K) (hR : ∀ l, IndependentRows (R l))
    (solve : ∀ l, Matrix (Fin (dims l)) (Fin (dims l)) K → (Fin (dims l) → K) → Fin (dims l) → K)
    (hsolve : ∀ l, SolvesExactly (solve l)) (hlev : 2 ≤ p.maxLevels.getD 2)
    (hfast : p.fastAp.getD false = false) (hpre : p.isPreconditioner = some false)
    (hsteps : 0 < toUnsigned (p.nSmoothingSteps.getD 1)) :
    ∃ H, (buildHierarchy debug timer (some p)
        (.ok (matrixHelpers debug type dims procs A R solve))).result = .ok H ∧
      ∀ fresh (x b xs : Fin (dims 0) → K), A.mulVec xs = b → x ≠ xs →
        ∃ y, (H.vmult fresh x b).result = .ok y ∧
          energyOf A (xs - y) < energyOf A (xs - x) :=
  C75_processes_cycle_partial debug timer p type htype dims procs hprocs A hA R hR
    (fun l _ => weaklyCoupled_two (coarseMatrix_spd dims A hA R hR l) (hprocs l) (htwo l)) solve hsolve
    hlev hfast hpre hsteps

/-- **C75**: symmetric Gauss-Seidel is symmetric on any number of processes. -/
theorem C75_processes_symmetric {n : ℕ} (procs : List (List (Fin n))) (hprocs : ListsAll procs.flatten)
    (A : Matrix (Fin n) (Fin n) K) (hA : IsSpd A) (r s : Fin n → K) :
    relaxVmult .symmetricGaussSeidel A procs r ⬝ᵥ s
      = r ⬝ᵥ relaxVmult .symmetricGaussSeidel A procs s := by
  rw [dot_procs hprocs, dotProduct_comm r, dot_procs hprocs]
  congr 1
  apply List.map_congr_left
  intro own ho
  rw [restrict_relaxVmult _ A hprocs r ho, restrict_relaxVmult _ A hprocs s ho]
  have hnd := procs_nodup hprocs ho
  set B := ownMatrix A own with hB
  have hspd : IsSpd B := ownMatrix_spd hA own
  have e : ∀ r, localVmult .symmetricGaussSeidel A own r
      = B⁻¹.mulVec r - (own ++ own.reverse).foldl (errRow B) (B⁻¹.mulVec r) := by
    intro r
    have h := err_sweep B r (B⁻¹.mulVec r) (mulVec_inv (spd_det hspd) r) (own ++ own.reverse) 0
    rw [sub_zero] at h
    rw [← h, localVmult, sweep_own A hnd r _ (by simp)]
    abel
  have hp : (own ++ own.reverse).reverse = own ++ own.reverse := by simp
  rw [e, e]
  set u := B⁻¹.mulVec r with hu
  set v := B⁻¹.mulVec s with hv
  have hur : B.mulVec u = r := mulVec_inv (spd_det hspd) r
  have hvs : B.mulVec v = s := mulVec_inv (spd_det hspd) s
  rw [← hur, ← hvs, sub_dotProduct, sub_dotProduct, errSweep_symm hspd.1, hp, form_symm hspd.1 u v,
    form_symm hspd.1 u]

/-- **C75**, used as a preconditioner on any number of processes: with symmetric Gauss-Seidel smoothing (also
by default), at least one smoothing step, restriction matrices of full rank and weak coupling on every level
but the coarsest, one cycle is a symmetric positive definite linear map. -/
theorem C75_processes_preconditioner_partial (debug timer : Bool) (p : Params) (type : Option (List Char))
    (htype : dealiiSmoother debug true type = .ok .symmetricGaussSeidel) (dims : ℕ → ℕ)
    (procs : ∀ l, List (List (Fin (dims l)))) (hprocs : ∀ l, ListsAll (procs l).flatten)
    (A : Matrix (Fin (dims 0)) (Fin (dims 0)) K) (hA : IsSpd A)
    (R : ∀ l, Matrix (Fin (dims (l + 1))) (Fin (dims l)) K) (hR : ∀ l, IndependentRows (R l))
    (hweak : ∀ l : ℕ, l + 1 < (p.maxLevels.getD 2).toNat →
      WeaklyCoupled (coarseMatrix dims A R l) (procs l))
    (solve : ∀ l, Matrix (Fin (dims l)) (Fin (dims l)) K → (Fin (dims l) → K) → Fin (dims l) → K)
    (hsolve : ∀ l, SolvesExactly (solve l)) (hlev : 0 < p.maxLevels.getD 2)
    (hfast : p.fastAp.getD false = false) (hpre : p.isPreconditioner.getD true = true)
    (hsteps : 0 < toUnsigned (p.nSmoothingSteps.getD 1)) :
    ∃ H, (buildHierarchy debug timer (some p)
        (.ok (matrixHelpers debug type dims procs A R solve))).result = .ok H ∧
      ∃ M : Matrix (Fin (dims 0)) (Fin (dims 0)) K, IsSpd M ∧
        ∀ fresh x b, (H.vmult fresh x b).result = .ok (M.mulVec b) := by
  obtain ⟨H, hH, hlin, hL, hp, hn⟩ := matrixHelpers_build debug timer p type _ _ htype rfl dims
    procs A hA R hR solve hsolve hlev hfast
  refine ⟨H, hH, ?_⟩
  have hp' : H.isPreconditioner = true := by rw [hp, hpre]
  set D := matrixData .symmetricGaussSeidel dims procs A R with hD
  set φ : Forms K (fun l => Fin (dims l) → K) := fun l => dotForm (dims l) with hφ
  have hchain := matrixData_chain .symmetricGaussSeidel dims procs A hA R hR H.numLevels
  have hspd := coarseMatrix_spd dims A hA R hR
  have hsym : Symmetric D φ H.numLevels := by
    refine ⟨hchain.form, hchain.A, ?_, hchain.RP, ?_⟩
    · intro l _ x y
      exact C75_processes_symmetric (procs l) (hprocs l) _ (hspd l) x y
    · intro l _ x y
      have hi : ((coarseMatrix dims A R l)⁻¹).transpose = (coarseMatrix dims A R l)⁻¹ := by
        rw [Matrix.transpose_nonsing_inv, (hspd l).1]
      change (coarseMatrix dims A R l)⁻¹.mulVec x ⬝ᵥ y = x ⬝ᵥ (coarseMatrix dims A R l)⁻¹.mulVec y
      rw [dotProduct_comm, form_symm hi]
  have hB : ∀ l, l + 1 < H.numLevels → SmootherStrictlyConvergent D φ l := by
    intro l hl x hx
    set w := D.B l x with hw
    have h1 : φ l (2 • w - D.B l (D.A l w)) x = 2 * (w ⬝ᵥ x) - w ⬝ᵥ (coarseMatrix dims A R l).mulVec w := by
      rw [map_sub, LinearMap.sub_apply, hsym.B l hl, ← hw, map_nsmul, LinearMap.smul_apply]
      change 2 • (w ⬝ᵥ x) - (coarseMatrix dims A R l).mulVec w ⬝ᵥ w = _
      rw [dotProduct_comm w ((coarseMatrix dims A R l).mulVec w), two_nsmul, two_mul]
    rw [h1]
    have h2 := sgs_gain (hspd l) (hprocs l) (hweak l (by omega)) x hx
    exact sub_pos.2 h2
  have hC : ∀ l, l + 1 = H.numLevels → ∀ x, x ≠ 0 → 0 < φ l (D.C l x) x := by
    intro l _ x hx
    set u := (coarseMatrix dims A R l)⁻¹.mulVec x with hu
    have hux : (coarseMatrix dims A R l).mulVec u = x := mulVec_inv (spd_det (hspd l)) x
    have hu0 : u ≠ 0 := by
      intro h
      rw [h, Matrix.mulVec_zero] at hux
      exact hx hux.symm
    have := (hspd l).2 u hu0
    rw [hux] at this
    exact this
  refine ⟨LinearMap.toMatrix' (M D H.nSmoothingSteps (H.numLevels - 1) 0), ?_, ?_⟩
  · refine ⟨?_, ?_⟩
    · ext i j
      obtain ⟨mb, mc, h1, h2, h3⟩ := C05_preconditioner_symmetric H D hlin hp' φ hsym 0
        (Pi.single i 1) (Pi.single j 1)
      have h1' := h1 0
      have h2' := h2 0
      rw [vmult_pre H D hlin hp'] at h1' h2'
      rw [← Outcome.ok.inj h1', ← Outcome.ok.inj h2'] at h3
      have h4 : M D H.nSmoothingSteps (H.numLevels - 1) 0 (Pi.single i 1) ⬝ᵥ Pi.single j 1
          = Pi.single i 1 ⬝ᵥ M D H.nSmoothingSteps (H.numLevels - 1) 0 (Pi.single j 1) := h3
      rw [Matrix.transpose_apply, LinearMap.toMatrix'_apply, LinearMap.toMatrix'_apply]
      simpa using h4
    · intro v hv
      obtain ⟨mb, h1, h2⟩ := C52_preconditioner_positive_definite H D hlin hp' φ hsym (by omega) hB hC
        0 v hv
      have h3 := h1 0
      rw [vmult_pre H D hlin hp'] at h3
      rw [LinearMap.toMatrix'_mulVec, Outcome.ok.inj h3, dotProduct_comm]
      exact h2
  · intro fresh x b
    rw [vmult_pre H D hlin hp', LinearMap.toMatrix'_mulVec]

end

/-- **C75**, rate of convergence on one or two processes. -/
theorem C75_two_processes_rate_partial (debug timer : Bool) (p : Params) (type : Option (List Char))
    (htype : dealiiSmoother debug true type = .ok .symmetricGaussSeidel) (dims : ℕ → ℕ)
    (procs : ∀ l, List (List (Fin (dims l)))) (hprocs : ∀ l, ListsAll (procs l).flatten)
    (htwo : ∀ l, (procs l).length ≤ 2)
    (A : Matrix (Fin (dims 0)) (Fin (dims 0)) ℝ) (hA : IsSpd A)
    (R : ∀ l, Matrix (Fin (dims (l + 1))) (Fin (dims l)) ℝ) (hR : ∀ l, IndependentRows (R l))
    (solve : ∀ l, Matrix (Fin (dims l)) (Fin (dims l)) ℝ → (Fin (dims l) → ℝ) → Fin (dims l) → ℝ)
    (hsolve : ∀ l, SolvesExactly (solve l)) (hlev : 2 ≤ p.maxLevels.getD 2)
    (hfast : p.fastAp.getD false = false) (hpre : p.isPreconditioner = some false)
    (hsteps : 0 < toUnsigned (p.nSmoothingSteps.getD 1)) :
    ∃ H, (buildHierarchy debug timer (some p)
        (.ok (matrixHelpers debug type dims procs A R solve))).result = .ok H ∧
      ∃ q : ℝ, 0 ≤ q ∧ q < 1 ∧ ∀ b xs, A.mulVec xs = b → ∀ x : ℕ → Fin (dims 0) → ℝ,
        (∀ m, ∃ fresh, (H.vmult fresh (x m) b).result = .ok (x (m + 1))) →
        ∀ m, energyOf A (xs - x m) ≤ q ^ m * energyOf A (xs - x 0) := by
  obtain ⟨H, hH, hlin, hp', hL2, hdec⟩ := cycle_decreases debug timer p type _ _ htype rfl dims procs A hA
    R hR solve hsolve hlev hfast hpre hsteps fun l _ e he =>
      sgs_decreases (coarseMatrix_spd dims A hA R hR l) (hprocs l)
        (weaklyCoupled_two (coarseMatrix_spd dims A hA R hR l) (hprocs l) (htwo l)) e he
  refine ⟨H, hH, ?_⟩
  set D := matrixData .symmetricGaussSeidel dims procs A R with hD
  set E : (Fin (dims 0) → ℝ) →ₗ[ℝ] (Fin (dims 0) → ℝ) :=
    LinearMap.id - (M D H.nSmoothingSteps (H.numLevels - 1) 0).comp (D.A 0) with hE
  have hv := fun fresh x b => vmult_sa H D hlin hp' hL2 fresh x b
  obtain ⟨q, h0, h1, h2⟩ := uniform_rate A hA E (by
    intro e he
    obtain ⟨y, hy, hlt⟩ := hdec 0 0 (A.mulVec e) e rfl (Ne.symm he)
    rw [hv] at hy
    rw [← Outcome.ok.inj hy, sub_zero, map_zero, sub_zero, zero_add] at hlt
    exact hlt)
  refine ⟨q, h0, h1, ?_⟩
  intro b xs hxs x hx m
  induction m with
  | zero => simp
  | succ m ih =>
    obtain ⟨fresh, hf⟩ := hx m
    rw [hv] at hf
    have herr : xs - x (m + 1) = E (xs - x m) := by
      rw [← Outcome.ok.inj hf, ← hxs]
      change xs - (x m + M D _ _ 0 (D.A 0 xs - D.A 0 (x m))) = (xs - x m) - M D _ _ 0 (D.A 0 (xs - x m))
      rw [map_sub (D.A 0), sub_sub]
    rw [herr]
    refine (h2 _).trans ?_
    rw [pow_succ', mul_assoc]
    exact mul_le_mul_of_nonneg_left ih h0

/-! ### Concrete cases -/

/-- Four unknowns that are all coupled on two processes (rows 3 and 0, rows 2 and 1); the coarse unknown on
one of them. -/
def exTwoProcs : ∀ l, List (List (Fin (twoDims 4 l)))
  | 0 => [[(3 : Fin 4), (0 : Fin 4)], [(2 : Fin 4), (1 : Fin 4)]]
  | _ + 1 => [[], [(0 : Fin 1)]]

theorem exTwoProcs_all (l : ℕ) : ListsAll (exTwoProcs l).flatten := by
  cases l with
  | zero =>
    change ListsAll (n := 4) [3, 0, 2, 1]
    exact ⟨by decide, by decide⟩
  | succ l =>
    change ListsAll (n := 1) [0]
    exact ⟨by decide, by decide⟩

example : ∃ H, (buildHierarchy true false (some { isPreconditioner := some false })
      (.ok (matrixHelpers true none (twoDims 4) exTwoProcs
        (uniformMatrix 4 (1 / 2 : ℝ)) (differenceRow 4) (fun l => exInvSolve l (twoDims 4))))).result = .ok H ∧
    ∃ q : ℝ, 0 ≤ q ∧ q < 1 ∧ ∀ b xs, (uniformMatrix 4 (1 / 2 : ℝ)).mulVec xs = b →
      ∀ x : ℕ → Fin 4 → ℝ, (∀ m, ∃ fresh, (H.vmult fresh (x m) b).result = .ok (x (m + 1))) →
        ∀ m, energyOf (uniformMatrix 4 (1 / 2 : ℝ)) (xs - x m)
          ≤ q ^ m * energyOf (uniformMatrix 4 (1 / 2 : ℝ)) (xs - x 0) :=
  C75_two_processes_rate_partial true false _ none rfl (twoDims 4) exTwoProcs exTwoProcs_all
    (fun l => by cases l <;> simp [exTwoProcs]) _
    (uniformMatrix_spd 4 (1 / 2) (by norm_num) (by norm_num)) _
    (fun l => differenceRow_independent 4 (by norm_num) l) _ (fun l => exInvSolve_exact _ l) (by decide)
    rfl rfl (by decide)

/-- Three processes in a row, each coupled to its neighbours only: two colours suffice. -/
example : WeaklyCoupled (Matrix.of ![![2, -1, 0], ![-1, 2, -1], ![0, -1, 2]] : Matrix (Fin 3) (Fin 3) ℚ)
    [[0], [1], [2]] := by
  refine C75_two_colours _ ⟨by decide, by decide⟩ _ ⟨?_, ?_⟩ (fun i => i = 1) (by decide) ?_
  · ext i j
    fin_cases i <;> fin_cases j <;> rfl
  · intro v hv
    have h : v ⬝ᵥ (Matrix.of ![![2, -1, 0], ![-1, 2, -1], ![0, -1, 2]] : Matrix (Fin 3) (Fin 3) ℚ).mulVec v
        = v 0 * v 0 + (v 0 - v 1) * (v 0 - v 1) + (v 1 - v 2) * (v 1 - v 2) + v 2 * v 2 := by
      simp [dotProduct, Matrix.mulVec, Fin.sum_univ_three]
      ring
    rw [h]
    by_contra hn
    have e0 := mul_self_nonneg (v 0)
    have e1 := mul_self_nonneg (v 0 - v 1)
    have e2 := mul_self_nonneg (v 1 - v 2)
    have e3 := mul_self_nonneg (v 2)
    have h0 : v 0 = 0 := mul_self_eq_zero.1 (by linarith)
    have h2 : v 2 = 0 := mul_self_eq_zero.1 (by linarith)
    have h1 : v 1 = 0 := by
      rw [h0] at e1 hn
      have h3 : (0 - v 1) * (0 - v 1) = 0 := by linarith
      simpa using mul_self_eq_zero.1 h3
    apply hv
    funext i
    fin_cases i
    · exact h0
    · exact h1
    · exact h2
  · intro own ho i hi j hj
    simp only [List.mem_cons, List.not_mem_nil, or_false] at ho
    rcases ho with rfl | rfl | rfl <;> rw [List.mem_singleton] at hi hj <;> subst hi <;>
      fin_cases j <;> simp at hj ⊢

end Mfmg
