import Verif.Lemmas.OneSided
import Verif.Props.CgCoarse
import Verif.Props.Richer

/-!
# C123: what the first cycles tell about the following ones

Full claim: with every smoother, repeated cycles approach the solution from one side, and the factor by which a cycle
reduces the error never gets better from one cycle to the next.
-/

set_option autoImplicit false

namespace Mfmg

open Spec

section

variable {K : Type} [Field K] [LinearOrder K] [IsStrictOrderedRing K]

/-- **C123.** Two or more levels, symmetric Gauss-Seidel or Jacobi smoothing with any number of steps (also none, and also
if the smoother on its own diverges), any number of processes, exact coarse solver: the reduction factors of the errors
and of the corrections never get better, neither the errors nor the corrections ever change direction, and if the first
guess is zero the energy of the iterates grows from cycle to cycle.

Missing: Gauss-Seidel in one direction, see `C123_gauss_seidel_violated`. -/
theorem C123_cycles_partial (debug timer : Bool) (p : Params) (type : Option (List Char))
    (htype : dealiiSmoother debug true type = .ok .symmetricGaussSeidel ∨
      dealiiSmoother debug true type = .ok .jacobi) (dims : ℕ → ℕ)
    (procs : ∀ l, List (List (Fin (dims l)))) (hprocs : ∀ l, ListsAll (procs l).flatten)
    (A : Matrix (Fin (dims 0)) (Fin (dims 0)) K) (hA : IsSpd A)
    (R : ∀ l, Matrix (Fin (dims (l + 1))) (Fin (dims l)) K) (hR : ∀ l, IndependentRows (R l))
    (solve : ∀ l, Matrix (Fin (dims l)) (Fin (dims l)) K → (Fin (dims l) → K) → Fin (dims l) → K)
    (hsolve : ∀ l, SolvesExactly (solve l)) (hlev : 2 ≤ p.maxLevels.getD 2)
    (hfast : p.fastAp.getD false = false) (hpre : p.isPreconditioner = some false) :
    ∃ H, (buildHierarchy debug timer (some p)
        (.ok (matrixHelpers debug type dims procs A R solve))).result = .ok H ∧
      ∀ b xs, A.mulVec xs = b → ∀ x : ℕ → Fin (dims 0) → K,
        (∀ m, ∃ fresh, (H.vmult fresh (x m) b).result = .ok (x (m + 1))) →
        RatesNeverImprove A (fun m => xs - x m) ∧ NeverOvershoots A (fun m => xs - x m) ∧
        RatesNeverImprove A (fun m => x (m + 1) - x m) ∧ NeverOvershoots A (fun m => x (m + 1) - x m) ∧
        (x 0 = 0 → ∀ m, energyOf A (x m) ≤ energyOf A (x (m + 1))) := by
  have hspd := coarseMatrix_spd dims A hA R hR
  obtain ⟨k, kind, hk, hk', hsymm⟩ : ∃ k kind, dealiiSmoother debug true type = .ok k ∧
      k.relaxation = some kind ∧ ∀ l x y, relaxVmult kind (coarseMatrix dims A R l) (procs l) x ⬝ᵥ y
        = x ⬝ᵥ relaxVmult kind (coarseMatrix dims A R l) (procs l) y := by
    rcases htype with h | h
    · exact ⟨_, _, h, rfl, fun l => C75_processes_symmetric (procs l) (hprocs l) _ (hspd l)⟩
    · exact ⟨_, _, h, rfl, fun l => jacobi_symmetric (procs l) (hprocs l) _⟩
  obtain ⟨H, hH, E, hE, hsym, hnn, -⟩ := cycle_propagation debug timer p type k kind hk hk' dims procs A hA R hR
    solve hsolve hlev hfast hpre hsymm
  refine ⟨H, hH, ?_⟩
  intro b xs hxs x hx
  have he : ∀ m, xs - x (m + 1) = E (xs - x m) := by
    intro m
    obtain ⟨fresh, hf⟩ := hx m
    exact hE b xs hxs fresh _ _ hf
  have hd : ∀ m, x (m + 1 + 1) - x (m + 1) = E (x (m + 1) - x m) := by
    intro m
    have h1 : x (m + 1) - x m = (xs - x m) - (xs - x (m + 1)) := by abel
    have h2 : x (m + 1 + 1) - x (m + 1) = (xs - x (m + 1)) - (xs - x (m + 1 + 1)) := by abel
    rw [h1, map_sub, ← he, ← he, h2]
  have h4 := moment_nonneg hA hsym hnn (e := fun m => x (m + 1) - x m) hd
  exact ⟨rates_sorted hA hsym he, moment_nonneg hA hsym hnn he,
    rates_sorted hA hsym (e := fun m => x (m + 1) - x m) hd, h4, fun h0 m => energies_grow hA h0 h4 m⟩

theorem bounds_of_propagation {n : ℕ} {A : Matrix (Fin n) (Fin n) K} (E : (Fin n → K) →ₗ[K] (Fin n → K))
    (hsym : ∀ u v, E u ⬝ᵥ A.mulVec v = u ⬝ᵥ A.mulVec (E v))
    (hle : ∀ u, E u ⬝ᵥ A.mulVec u ≤ energyOf A u ∧ energyOf A (E u) ≤ E u ⬝ᵥ A.mulVec u) {b xs : Fin n → K}
    (hxs : A.mulVec xs = b) {x : ℕ → Fin n → K} (he : ∀ m, xs - x (m + 1) = E (xs - x m))
    (h2 : NeverOvershoots A fun m => xs - x m) (h5 : x 0 = 0 → ∀ m, energyOf A (x m) ≤ energyOf A (x (m + 1))) :
    (∀ m, energyOf A (x (m + 1) - x m) ≤ energyOf A (xs - x m)) ∧
      (x 0 = 0 → ∀ m, energyOf A (x m) ≤ energyOf A (x (m + 1)) ∧ energyOf A (x m) ≤ energyOf A xs ∧
        b ⬝ᵥ x m ≤ b ⬝ᵥ x (m + 1) ∧ b ⬝ᵥ x m ≤ b ⬝ᵥ xs) := by
  obtain ⟨e, hedef⟩ : ∃ e : ℕ → Fin n → K, e = fun m => xs - x m := ⟨_, rfl⟩
  have he' : ∀ m, e (m + 1) = E (e m) := by rw [hedef]; exact he
  have hc0 : ∀ m, 0 ≤ e m ⬝ᵥ A.mulVec (e 0) := by rw [hedef]; exact fun m => h2 m 0
  have hsh : ∀ i j, e (i + j) ⬝ᵥ A.mulVec (e 0) = e i ⬝ᵥ A.mulVec (e j) := by
    intro i j
    rw [moment_shift hsym he', Nat.zero_add]
  have hanti : ∀ m, e (m + 1) ⬝ᵥ A.mulVec (e 0) ≤ e m ⬝ᵥ A.mulVec (e 0) := by
    intro m
    obtain ⟨i, hi | hi⟩ := Nat.even_or_odd' m
    · have h := (hle (e i)).1
      rw [← he', energyOf, ← hsh (i + 1) i, ← hsh i i] at h
      rwa [hi, show 2 * i + 1 = i + 1 + i by omega, two_mul]
    · have h := (hle (e i)).2
      rw [← he', energyOf, ← hsh (i + 1) i, ← hsh (i + 1) (i + 1)] at h
      rwa [hi, show 2 * i + 1 + 1 = i + 1 + (i + 1) by omega, show 2 * i + 1 = i + 1 + i by omega]
  have hanti' : ∀ m j, e (m + j) ⬝ᵥ A.mulVec (e 0) ≤ e m ⬝ᵥ A.mulVec (e 0) := by
    intro m j
    induction j with
    | zero => exact le_rfl
    | succ j ih => exact (hanti (m + j)).trans ih
  refine ⟨?_, ?_⟩
  · intro m
    have h1 : x (m + 1) - x m = e m - e (m + 1) := by rw [hedef]; simp
    have h3 : xs - x m = e m := by rw [hedef]
    rw [h1, h3]
    unfold energyOf
    rw [Matrix.mulVec_sub, dotProduct_sub, sub_dotProduct, sub_dotProduct, ← hsh m m, ← hsh (m + 1) m,
      ← hsh m (m + 1), ← hsh (m + 1) (m + 1)]
    have h4 := hanti (m + (m + 1))
    have h6 := hc0 (m + (m + 1))
    rw [show m + (m + 1) + 1 = m + 1 + (m + 1) by omega] at h4
    rw [show m + 1 + m = m + (m + 1) by omega]
    linarith
  · intro h0 m
    have hxs0 : e 0 = xs := by rw [hedef]; simp [h0]
    have hxm : ∀ m, x m = e 0 - e m := by
      intro m
      rw [hxs0, hedef]
      simp
    have hb : ∀ m, b ⬝ᵥ x m = e 0 ⬝ᵥ A.mulVec (e 0) - e m ⬝ᵥ A.mulVec (e 0) := by
      intro m
      rw [← hxs, ← hxs0, hxm m, dotProduct_comm, sub_dotProduct]
    refine ⟨h5 h0 m, ?_, ?_, ?_⟩
    · rw [← hxs0, hxm m]
      unfold energyOf
      rw [Matrix.mulVec_sub, dotProduct_sub, sub_dotProduct, sub_dotProduct, ← hsh 0 m, ← hsh m m, Nat.zero_add]
      have h3 := hanti' m m
      have h4 := hc0 m
      linarith
    · rw [hb, hb]
      have := hanti m
      linarith
    · rw [hb, ← hxs, ← hxs0, dotProduct_comm (A.mulVec (e 0))]
      have := hc0 m
      linarith

/-- What the previous theorem says can be checked after the fact, and bounds from one side: if in addition the smoother on
its own converges (symmetric Gauss-Seidel, weakly coupled processes), a correction is never larger than the error it
corrects, and from the first guess zero the energy and the work `b · x` of the iterates grow from cycle to cycle and
never exceed those of the solution.  Missing: as above. -/
theorem C123_bounds_partial (debug timer : Bool) (p : Params) (type : Option (List Char))
    (htype : dealiiSmoother debug true type = .ok .symmetricGaussSeidel) (dims : ℕ → ℕ)
    (procs : ∀ l, List (List (Fin (dims l)))) (hprocs : ∀ l, ListsAll (procs l).flatten)
    (A : Matrix (Fin (dims 0)) (Fin (dims 0)) K) (hA : IsSpd A)
    (R : ∀ l, Matrix (Fin (dims (l + 1))) (Fin (dims l)) K) (hR : ∀ l, IndependentRows (R l))
    (hweak : ∀ l : ℕ, l + 1 < (p.maxLevels.getD 2).toNat →
      WeaklyCoupled (coarseMatrix dims A R l) (procs l))
    (solve : ∀ l, Matrix (Fin (dims l)) (Fin (dims l)) K → (Fin (dims l) → K) → Fin (dims l) → K)
    (hsolve : ∀ l, SolvesExactly (solve l)) (hlev : 2 ≤ p.maxLevels.getD 2)
    (hfast : p.fastAp.getD false = false) (hpre : p.isPreconditioner = some false) :
    ∃ H, (buildHierarchy debug timer (some p)
        (.ok (matrixHelpers debug type dims procs A R solve))).result = .ok H ∧
      ∀ b xs, A.mulVec xs = b → ∀ x : ℕ → Fin (dims 0) → K,
        (∀ m, ∃ fresh, (H.vmult fresh (x m) b).result = .ok (x (m + 1))) →
        (∀ m, energyOf A (x (m + 1) - x m) ≤ energyOf A (xs - x m)) ∧
        (x 0 = 0 → ∀ m, energyOf A (x m) ≤ energyOf A (x (m + 1)) ∧ energyOf A (x m) ≤ energyOf A xs ∧
          b ⬝ᵥ x m ≤ b ⬝ᵥ x (m + 1) ∧ b ⬝ᵥ x m ≤ b ⬝ᵥ xs) := by
  have hspd := coarseMatrix_spd dims A hA R hR
  obtain ⟨H, hH, E, hE, hsym, hnn, hle⟩ := cycle_propagation debug timer p type _ _ htype rfl dims procs A hA R hR
    solve hsolve hlev hfast hpre fun l => C75_processes_symmetric (procs l) (hprocs l) _ (hspd l)
  have hle := hle fun l hl e he => sgs_decreases (hspd l) (hprocs l) (hweak l hl) e he
  obtain ⟨H', hH', hall⟩ := C123_cycles_partial debug timer p type (Or.inl htype) dims procs hprocs A hA R hR solve
    hsolve hlev hfast hpre
  obtain rfl := Outcome.ok.inj (hH'.symm.trans hH)
  refine ⟨H', hH, ?_⟩
  intro b xs hxs x hx
  obtain ⟨-, h2, -, -, h5⟩ := hall b xs hxs x hx
  have he : ∀ m, xs - x (m + 1) = E (xs - x m) := by
    intro m
    obtain ⟨fresh, hf⟩ := hx m
    exact hE b xs hxs fresh _ _ hf
  exact bounds_of_propagation E hsym hle hxs he h2 h5

end

section violated

/-- Two unknowns between two fixed ends. -/
def twoSprings : Matrix (Fin 2) (Fin 2) ℚ := !![2, -1; -1, 2]

theorem twoSprings_spd : IsSpd twoSprings := by
  refine ⟨by ext i j; fin_cases i <;> fin_cases j <;> rfl, ?_⟩
  intro v hv
  have e : v ⬝ᵥ twoSprings.mulVec v = (v 0 - v 1) ^ 2 + v 0 ^ 2 + v 1 ^ 2 := by
    simp [twoSprings, Matrix.mulVec, dotProduct, Fin.sum_univ_two]
    ring
  rw [e]
  by_contra h
  have h0 : v 0 = 0 := by nlinarith [sq_nonneg (v 0 - v 1), sq_nonneg (v 0), sq_nonneg (v 1)]
  have h1 : v 1 = 0 := by nlinarith [sq_nonneg (v 0 - v 1), sq_nonneg (v 0), sq_nonneg (v 1)]
  exact hv (by ext i; fin_cases i <;> assumption)

/-- The constant vector of two unknowns. -/
def onesPair : Matrix (Fin 1) (Fin 2) ℚ := !![1, 1]

theorem onesPair_independent : IndependentRows onesPair := by
  intro y hy
  have := congrFun hy 0
  simp [onesPair, Matrix.mulVec, dotProduct] at this
  ext i
  fin_cases i
  exact this

theorem twoSprings_sweep (e : Fin 2 → ℚ) :
    e - relaxVmult .gaussSeidel twoSprings [[0, 1]] (twoSprings.mulVec e) = ![e 1 / 2, e 1 / 4] := by
  have h : e - relaxVmult .gaussSeidel twoSprings [[0, 1]] (twoSprings.mulVec e)
      = (sweepRows .gaussSeidel [0, 1]).foldl (errRow twoSprings) e :=
    err_relax (by simp [IsSweep]) twoSprings (⟨by decide, by decide⟩ : ListsAll ([0, 1] : List (Fin 2))) e
  rw [h]
  simp only [sweepRows, List.foldl_cons, List.foldl_nil]
  ext i
  fin_cases i <;>
    simp [errRow, twoSprings, Matrix.mulVec, dotProduct, Fin.sum_univ_two, Pi.single_apply] <;> ring

theorem twoSprings_corrected (t : ℚ) :
    corrected twoSprings onesPair ![t / 2, t / 4] = ![t / 8, -(t / 8)] := by
  rw [corrected_eq twoSprings_spd onesPair_independent _ (z := ![3 * t / 8]) (by
    ext i
    fin_cases i
    simp [galerkin, onesPair, twoSprings, Matrix.mulVec, dotProduct, Matrix.mul_apply, Fin.sum_univ_two]
    ring)]
  ext i
  fin_cases i <;> simp [onesPair, Matrix.mulVec, dotProduct] <;> ring

/-- One cycle on the two springs. -/
theorem twoSprings_cycle (debug timer : Bool) (type : Option (List Char))
    (htype : dealiiSmoother debug true type = .ok .gaussSeidel)
    (solve : ∀ m, Matrix (Fin m) (Fin m) ℚ → (Fin m → ℚ) → Fin m → ℚ) (hsolve : ∀ m, SolvesExactly (solve m))
    (b xs : Fin 2 → ℚ) (hxs : twoSprings.mulVec xs = b) (x y : Fin 2 → ℚ)
    (h : TwoLevelGives debug timer { isPreconditioner := some false } type [[0, 1]] solve twoSprings onesPair x b y) :
    xs - y = ![-((xs - x) 1 / 16), -((xs - x) 1 / 32)] := by
  obtain ⟨y', h1, h2⟩ := twoLevelGives_err debug timer { isPreconditioner := some false } type _ _ htype rfl [[0, 1]]
    solve hsolve twoSprings_spd onesPair_independent rfl rfl x b xs hxs x rfl
  obtain rfl := twoLevelGives_unique h h1
  rw [h2]
  obtain ⟨e, he⟩ : ∃ e, xs - x = e := ⟨_, rfl⟩
  rw [he]
  change e - relaxVmult .gaussSeidel twoSprings [[0, 1]] (twoSprings.mulVec e) |> fun w =>
    corrected twoSprings onesPair w - relaxVmult .gaussSeidel twoSprings [[0, 1]]
      (twoSprings.mulVec (corrected twoSprings onesPair w)) = _
  simp only [twoSprings_sweep]
  rw [twoSprings_corrected]
  ext i
  fin_cases i <;> simp <;> ring

theorem twoSprings_form (u v : Fin 2 → ℚ) :
    u ⬝ᵥ twoSprings.mulVec v = 2 * (u 0 * v 0) - u 0 * v 1 - u 1 * v 0 + 2 * (u 1 * v 1) := by
  simp [twoSprings, Matrix.mulVec, dotProduct, Fin.sum_univ_two]
  ring

/-- The full claim is violated with Gauss-Seidel.  For the two springs, every right-hand side and every first guess with a
wrong second entry the errors change direction with every cycle; and if only the second entry is wrong, the first cycle
reduces the error by a worse factor than the second. -/
theorem C123_gauss_seidel_violated (debug timer : Bool) (type : Option (List Char))
    (htype : dealiiSmoother debug true type = .ok .gaussSeidel)
    (solve : ∀ m, Matrix (Fin m) (Fin m) ℚ → (Fin m → ℚ) → Fin m → ℚ) (hsolve : ∀ m, SolvesExactly (solve m))
    (b xs : Fin 2 → ℚ) (hxs : twoSprings.mulVec xs = b) (x : ℕ → Fin 2 → ℚ)
    (hx : ∀ m, TwoLevelGives debug timer { isPreconditioner := some false } type [[0, 1]] solve twoSprings onesPair
      (x m) b (x (m + 1))) (hx1 : x 0 1 ≠ xs 1) :
    ¬ NeverOvershoots twoSprings (fun m => xs - x m) ∧
      (x 0 0 = xs 0 → ¬ RatesNeverImprove twoSprings fun m => xs - x m) := by
  obtain ⟨t, ht⟩ : ∃ t, (xs - x 0) 1 = t := ⟨_, rfl⟩
  have ht0 : t ≠ 0 := by
    rw [← ht, Pi.sub_apply]
    exact sub_ne_zero.2 (Ne.symm hx1)
  have h1 := twoSprings_cycle debug timer type htype solve hsolve b xs hxs _ _ (hx 0)
  rw [ht] at h1
  have h2 := twoSprings_cycle debug timer type htype solve hsolve b xs hxs _ _ (hx 1)
  rw [show x 1 = x (0 + 1) from rfl, h1] at h2
  have hpos : 0 < t ^ 2 := by positivity
  constructor
  · intro h
    have h3 := h (0 + 1) (1 + 1)
    simp only [h1, h2, twoSprings_form] at h3
    simp at h3
    nlinarith
  · intro h0 h
    have h3 := h 0
    have h4 : xs - x 0 = ![0, t] := by
      ext i
      fin_cases i
      · simp [h0]
      · exact ht
    simp only [energyOf] at h3
    rw [h4, h1, show x (0 + 2) = x (1 + 1) from rfl, h2] at h3
    simp only [twoSprings_form] at h3
    simp at h3
    nlinarith [pow_pos hpos 2]

/-- There are such cycles: from the guess `(0, 1)` for the system with right-hand side zero. -/
example : ∃ x : ℕ → Fin 2 → ℚ, x 0 = ![0, 1] ∧
    (∀ m, TwoLevelGives true true { isPreconditioner := some false } (some (chars! "Gauss-Seidel")) [[0, 1]] exInverse
      twoSprings onesPair (x m) 0 (x (m + 1))) ∧
    ¬ NeverOvershoots twoSprings (fun m => 0 - x m) ∧ ¬ RatesNeverImprove twoSprings fun m => 0 - x m := by
  have hex : ∀ x : Fin 2 → ℚ, ∃ y, TwoLevelGives true true { isPreconditioner := some false }
      (some (chars! "Gauss-Seidel")) [[0, 1]] exInverse twoSprings onesPair x 0 y := by
    intro x
    obtain ⟨y, h, -⟩ := twoLevelGives_err true true { isPreconditioner := some false }
      (some (chars! "Gauss-Seidel")) _ _ rfl rfl [[0, 1]] exInverse exInverse_exact twoSprings_spd onesPair_independent
      rfl rfl x 0 0 (Matrix.mulVec_zero _) x rfl
    exact ⟨y, h⟩
  choose f hf using hex
  have hstep : ∀ m, TwoLevelGives true true { isPreconditioner := some false } (some (chars! "Gauss-Seidel")) [[0, 1]]
      exInverse twoSprings onesPair (f^[m] ![0, 1]) 0 (f^[m + 1] ![0, 1]) := by
    intro m
    rw [Function.iterate_succ_apply']
    exact hf _
  obtain ⟨h1, h2⟩ := C123_gauss_seidel_violated true true (some (chars! "Gauss-Seidel")) rfl exInverse exInverse_exact 0 0
    (Matrix.mulVec_zero _) (fun m => f^[m] ![0, 1]) hstep (by simp)
  exact ⟨fun m => f^[m] ![0, 1], rfl, hstep, h1, h2 (by simp)⟩

end violated

section examples

/-- Five levels for a chain, Jacobi smoothing. -/
example := C123_cycles_partial true false { maxLevels := some 5, isPreconditioner := some false }
  (some (chars! "Jacobi")) (Or.inr rfl) (pairDims 3 5)
  (fun _ => [List.finRange _]) (fun _ => by simpa using ⟨List.nodup_finRange _, List.mem_finRange⟩)
  (pairMatrix (pairDims 3 5 0) (1 : ℝ)) (pair_spd _ 1 one_pos) (pairR 3 5) (pairR_independent 3 5)
  (fun _ N b => N⁻¹.mulVec b) (fun _ _ b h => mulVec_inv h b) (by decide) rfl rfl

/-- The same chain with the default smoother. -/
example := C123_bounds_partial true false { maxLevels := some 5, isPreconditioner := some false } none rfl (pairDims 3 5)
  (fun _ => [List.finRange _]) (fun _ => by simpa using ⟨List.nodup_finRange _, List.mem_finRange⟩)
  (pairMatrix (pairDims 3 5 0) (1 : ℝ)) (pair_spd _ 1 one_pos) (pairR 3 5) (pairR_independent 3 5)
  (fun l _ => weaklyCoupled_two (coarseMatrix_spd _ _ (pair_spd _ 1 one_pos) _ (pairR_independent 3 5) l)
    (by simpa using ⟨List.nodup_finRange _, List.mem_finRange⟩) (by simp))
  (fun _ N b => N⁻¹.mulVec b) (fun _ _ b h => mulVec_inv h b) (by decide) rfl rfl

end examples

end Mfmg
