import Verif.Spec.Factory
import Mathlib.Data.List.Basic
import Mathlib.Tactic.IntervalCases
import Mathlib.Tactic.SplitIfs

/-!
# Component factories (C37)
-/

set_option autoImplicit false

namespace Mfmg

theorem toLower_iff (c d : Char) (hd : d.toLower = d) : c.toLower = d ↔ CharNoCase c d := by
  have hup : ∀ k, k < 26 → (Char.ofNat (65 + k)).toLower = Char.ofNat (97 + k) := by decide
  have hne : ∀ k, k < 26 → (Char.ofNat (65 + k)).toLower ≠ Char.ofNat (65 + k) := by decide
  constructor
  · intro h
    by_cases hc : 65 ≤ c.toNat ∧ c.toNat ≤ 90
    · right
      refine ⟨c.toNat - 65, by omega, Or.inl ?_⟩
      have e : Char.ofNat (65 + (c.toNat - 65)) = c := by
        rw [Nat.add_sub_cancel' hc.1, Char.ofNat_toNat]
      refine ⟨e.symm, ?_⟩
      rw [← hup _ (by omega), e, h]
    · left
      rw [← h]
      unfold Char.toLower
      rw [dif_neg]
      intro hcc
      apply hc
      have h1 := UInt32.le_iff_toNat_le.1 hcc.1
      have h2 := UInt32.le_iff_toNat_le.1 hcc.2
      exact ⟨h1, h2⟩
  · rintro (rfl | ⟨k, hk, ⟨rfl, rfl⟩ | ⟨rfl, rfl⟩⟩)
    · exact hd
    · exact hup k hk
    · exact absurd hd (hne k hk)

theorem lowerCase_iff (s t : List Char) (ht : ∀ d ∈ t, d.toLower = d) :
    lowerCase s = t ↔ EqNoCase s t := by
  unfold lowerCase EqNoCase
  induction t generalizing s with
  | nil => cases s <;> simp
  | cons d t ih =>
    cases s with
    | nil => simp
    | cons c s =>
      rw [List.map_cons, List.cons.injEq, List.forall₂_cons, toLower_iff c d (ht d (by simp)),
        ih s (fun d' hd' => ht d' (by simp [hd']))]

theorem SmootherKind.doc_lower (k : SmootherKind) : ∀ d ∈ k.doc, d.toLower = d := by
  cases k <;> decide +kernel
theorem CoarseKind.doc_lower (k : CoarseKind) : ∀ d ∈ k.doc, d.toLower = d := by
  cases k <;> decide +kernel
theorem CudaSolverKind.doc_lower (k : CudaSolverKind) : ∀ d ∈ k.doc, d.toLower = d := by
  cases k <;> decide +kernel

/-- **C37**, smoothers for matrices: exactly the documented names in any letter case are accepted and
give the smoother of that name; the default is symmetric Gauss-Seidel. -/
theorem C37_smoother (debug : Bool) (name : List Char) (k : SmootherKind) :
    (dealiiSmoother debug true (some name) = .ok k ↔ EqNoCase name k.doc) ∧
    dealiiSmoother debug true none = .ok .symmetricGaussSeidel := by
  constructor
  · rw [← lowerCase_iff name k.doc k.doc_lower]
    unfold dealiiSmoother
    simp only [Outcome.assert, Bool.not_true, Bool.and_false, Bool.false_eq_true, if_false,
      Outcome.ok_bind, Option.getD_some, if_true]
    generalize lowerCase name = s
    constructor
    · intro h
      split_ifs at h with h1 h2 h3 h4 <;>
        (simp only [Outcome.ok.injEq] at h; subst h; assumption)
    · rintro rfl
      cases k <;> decide +kernel
  · cases debug <;> decide +kernel

/-- **C37**: for any other name the constructor throws. -/
theorem C37_smoother_rejects (debug : Bool) (name : List Char)
    (h : ∀ k : SmootherKind, ¬ EqNoCase name k.doc) :
    ∃ m, dealiiSmoother debug true (some name) = .throws m := by
  have h' : ∀ k : SmootherKind, lowerCase name ≠ k.doc :=
    fun k hk => h k ((lowerCase_iff name k.doc k.doc_lower).1 hk)
  unfold dealiiSmoother
  simp only [Outcome.assert, Bool.not_true, Bool.and_false, Bool.false_eq_true, if_false,
    Outcome.ok_bind, Option.getD_some, if_true]
  have a1 := h' .symmetricGaussSeidel
  have a2 := h' .gaussSeidel
  have a3 := h' .jacobi
  have a4 := h' .ilu
  simp only [SmootherKind.doc] at a1 a2 a3 a4
  exact ⟨_, by rw [if_neg a1, if_neg a2, if_neg a3, if_neg a4]⟩

/-- **C37**, matrix-free smoother: exactly `Chebyshev` in any letter case is accepted, it gets the
user's settings, and any other name makes the constructor throw. -/
theorem C37_matrix_free_smoother {R : Type} (debug : Bool) (name : List Char) (degree : Option ℤ)
    (range maxEigenvalue : Option R) :
    (EqNoCase name (chars! "chebyshev") →
      matrixFreeSmoother debug true (some name) degree range maxEigenvalue =
        .ok ⟨degree, range, maxEigenvalue⟩) ∧
    (¬ EqNoCase name (chars! "chebyshev") →
      ∃ m, matrixFreeSmoother debug true (some name) degree range maxEigenvalue = .throws m) ∧
    matrixFreeSmoother debug true none degree range maxEigenvalue =
      .ok ⟨degree, range, maxEigenvalue⟩ := by
  have hl : ∀ d ∈ (chars! "chebyshev"), d.toLower = d := by decide +kernel
  rw [← lowerCase_iff name _ hl]
  unfold matrixFreeSmoother
  simp only [Outcome.assert, Bool.not_true, Bool.and_false, Bool.false_eq_true, if_false,
    Outcome.ok_bind, Option.getD_some, if_true, Option.getD_none]
  refine ⟨fun h => by rw [if_pos h], fun h => ⟨_, by rw [if_neg h]⟩, ?_⟩
  rw [if_pos (by decide +kernel)]

/-- **C37**, coarse solvers on the host. -/
theorem C37_solver (name : List Char) (k : CoarseKind) :
    (dealiiSolver true (some name) = .ok k ↔ EqNoCase name k.doc) ∧
    dealiiSolver true none = .ok .direct := by
  constructor
  · rw [← lowerCase_iff name k.doc k.doc_lower]
    unfold dealiiSolver
    simp only [Option.getD_some, if_true]
    generalize lowerCase name = s
    constructor
    · intro h
      split_ifs at h with h1 h2 <;>
        (simp only [Outcome.ok.injEq] at h; subst h; assumption)
    · rintro rfl
      cases k <;> decide +kernel
  · decide +kernel

theorem C37_solver_rejects (name : List Char) (h : ∀ k : CoarseKind, ¬ EqNoCase name k.doc) :
    ∃ m, dealiiSolver true (some name) = .throws m := by
  have h' : ∀ k : CoarseKind, lowerCase name ≠ k.doc :=
    fun k hk => h k ((lowerCase_iff name k.doc k.doc_lower).1 hk)
  unfold dealiiSolver
  simp only [Option.getD_some, if_true]
  have a1 := h' .direct
  have a2 := h' .ml
  simp only [CoarseKind.doc] at a1 a2
  exact ⟨_, by rw [if_neg a1, if_neg a2]⟩

/-- **C37**, device smoother: only Jacobi, for square device matrices. -/
theorem C37_cuda_smoother (debug : Bool) (name : List Char) :
    (EqNoCase name (chars! "jacobi") → cudaSmoother debug true true (some name) = .ok .jacobi) ∧
    (¬ EqNoCase name (chars! "jacobi") →
      ∃ m, cudaSmoother debug true true (some name) = .throws m) ∧
    cudaSmoother debug true true none = .ok .jacobi := by
  have hl : ∀ d ∈ (chars! "jacobi"), d.toLower = d := by decide +kernel
  rw [← lowerCase_iff name _ hl]
  unfold cudaSmoother
  simp only [Option.getD_some, if_true, Option.getD_none, Outcome.assert, Bool.not_true,
    Bool.and_false, Bool.false_eq_true, if_false, Outcome.assertThrow, Outcome.ok_bind,
    decide_eq_true_eq]
  refine ⟨fun h => by rw [if_pos h]; rfl, fun h => ⟨_, by rw [if_neg h]; rfl⟩, ?_⟩
  rw [if_pos (by decide +kernel)]
  rfl

/-- **C37**, hierarchy helpers for host vectors: the evaluator types are matched exactly, dimension 2
or 3, the device type only in builds with CUDA; everything else throws. -/
theorem C37_helpers (withCuda : Bool) (type : List Char) (dim : ℤ) :
    (∀ k d, createHelpers withCuda type dim = .ok (k, d) ↔
      type = k.doc ∧ d = dim ∧ (dim = 2 ∨ dim = 3) ∧ (k = .cuda → withCuda = true)) ∧
    ((∀ k d, createHelpers withCuda type dim ≠ .ok (k, d)) →
      ∃ m, createHelpers withCuda type dim = .throws m) := by
  unfold createHelpers
  constructor
  · intro k d
    constructor
    · intro h
      split_ifs at h with h1 h2 h3 h4 h5 h6 h7 h8 h9 <;>
        (simp only [Outcome.ok.injEq, Prod.mk.injEq] at h; obtain ⟨rfl, rfl⟩ := h)
      · exact ⟨h1, h2.symm, Or.inl h2, by simp⟩
      · exact ⟨h1, h3.symm, Or.inr h3, by simp⟩
      · exact ⟨h4, h5.symm, Or.inl h5, by simp⟩
      · exact ⟨h4, h6.symm, Or.inr h6, by simp⟩
      · exact ⟨h7.2, h8.symm, Or.inl h8, fun _ => h7.1⟩
      · exact ⟨h7.2, h9.symm, Or.inr h9, fun _ => h7.1⟩
    · rintro ⟨rfl, rfl, hd, hk⟩
      cases k with
      | dealii => rcases hd with rfl | rfl <;> cases withCuda <;> decide
      | matrixFree => rcases hd with rfl | rfl <;> cases withCuda <;> decide
      | cuda =>
        obtain rfl := hk rfl
        rcases hd with rfl | rfl <;> decide
  · intro h
    split_ifs at h ⊢ with h1 h2 h3 h4 h5 h6 h7 h8 h9
    all_goals first
      | exact ⟨_, rfl⟩
      | exact absurd rfl (h _ _)

/-- **C37**, hierarchy helpers for device vectors. -/
theorem C37_helpers_device (type : List Char) (dim : ℤ) :
    (∀ k d, createHelpersDevice type dim = .ok (k, d) ↔
      type = HelpersKind.cuda.doc ∧ k = .cuda ∧ d = dim ∧ (dim = 2 ∨ dim = 3)) ∧
    ((∀ k d, createHelpersDevice type dim ≠ .ok (k, d)) →
      ∃ m, createHelpersDevice type dim = .throws m) := by
  unfold createHelpersDevice
  constructor
  · intro k d
    constructor
    · intro h
      split_ifs at h with h1 h2 h3 <;>
        (simp only [Outcome.ok.injEq, Prod.mk.injEq] at h; obtain ⟨rfl, rfl⟩ := h)
      · exact ⟨h1, rfl, h2.symm, Or.inl h2⟩
      · exact ⟨h1, rfl, h3.symm, Or.inr h3⟩
    · rintro ⟨rfl, rfl, rfl, hd⟩
      rcases hd with rfl | rfl <;> decide
  · intro h
    split_ifs at h ⊢ with h1 h2 h3
    all_goals first
      | exact ⟨_, rfl⟩
      | exact absurd rfl (h _ _)

/-- **C37**, device solvers, what holds: every documented name in any letter case gives, when applied,
the solver of that name.  Missing: unknown names are not rejected by the constructor, see
`C37_cuda_solver_violated`. -/
theorem C37_cuda_solver_partial (withAmgx : Bool) (name : List Char) (k : CudaSolverKind)
    (hk : k.available withAmgx) :
    (∃ n, cudaSolver withAmgx true (some name) = .ok n ∧ cudaSolverApply withAmgx n = .ok k) ↔
      EqNoCase name k.doc := by
  rw [← lowerCase_iff name k.doc k.doc_lower]
  unfold cudaSolver
  simp only [Option.getD_some, Bool.true_eq_false, and_false, if_false, Outcome.ok.injEq]
  generalize lowerCase name = s
  constructor
  · rintro ⟨n, rfl, h⟩
    unfold cudaSolverApply at h
    split_ifs at h with h1 h2 h3 h4
    · simp only [Outcome.ok.injEq] at h; subst h; exact h1.2
    · simp only [Outcome.ok.injEq] at h; subst h; exact h2
    · simp only [Outcome.ok.injEq] at h; subst h; exact h3
    · simp only [Outcome.ok.injEq] at h; subst h; exact h4
  · rintro rfl
    refine ⟨_, rfl, ?_⟩
    cases k with
    | amgx =>
      have : withAmgx = true := hk
      subst this
      decide +kernel
    | _ => cases withAmgx <;> decide +kernel

/-- **C37 is violated by `CudaSolver`**: for every unknown name the constructor succeeds, and the name
is found out only when the solver is applied. -/
theorem C37_cuda_solver_violated (withAmgx hasConfig : Bool) (name : List Char)
    (h : ∀ k : CudaSolverKind, k.available withAmgx → ¬ EqNoCase name k.doc) :
    ∃ n m, cudaSolver withAmgx hasConfig (some name) = .ok n ∧
      cudaSolverApply withAmgx n = .throws m := by
  have h' : ∀ k : CudaSolverKind, k.available withAmgx → lowerCase name ≠ k.doc :=
    fun k hk hn => h k hk ((lowerCase_iff name k.doc k.doc_lower).1 hn)
  have hamgx : ¬ (withAmgx = true ∧ lowerCase name = chars! "amgx") :=
    fun hc => h' .amgx hc.1 hc.2
  unfold cudaSolver
  simp only [Option.getD_some]
  rw [if_neg (fun hc => hamgx ⟨hc.1, hc.2.1⟩)]
  have a1 := h' .cholesky trivial
  have a2 := h' .luDense trivial
  have a3 := h' .luSparseHost trivial
  simp only [CudaSolverKind.doc] at a1 a2 a3
  unfold cudaSolverApply
  exact ⟨_, _, rfl, by rw [if_neg hamgx, if_neg a1, if_neg a2, if_neg a3]⟩

example : dealiiSmoother false true (some (chars! "GAUSS-Seidel")) = .ok .gaussSeidel := by
  decide +kernel

example : EqNoCase (chars! "GAUSS-Seidel") SmootherKind.gaussSeidel.doc :=
  (C37_smoother false _ _).1.1 (by decide +kernel)

example : ∃ m, dealiiSmoother true true (some (chars! "sor")) = .throws m :=
  C37_smoother_rejects true _ (fun k hk => by
    have := ((C37_smoother true (chars! "sor") k).1).2 hk
    cases k <;> exact absurd this (by decide +kernel))

example : (matrixFreeSmoother true true (some (chars! "CHEBYSHEV")) (some 3) (some (1 / 2 : Int)) none)
    = .ok ⟨some 3, some (1 / 2), none⟩ :=
  (C37_matrix_free_smoother true _ _ _ _).1 ((lowerCase_iff _ _ (by decide +kernel)).1
    (by decide +kernel))

example : dealiiSolver true (some (chars! "ML")) = .ok .ml := by decide +kernel

example : ∃ m, dealiiSolver true (some (chars! "mumps")) = .throws m :=
  C37_solver_rejects _ (fun k hk => by
    have := ((C37_solver (chars! "mumps") k).1).2 hk
    cases k <;> exact absurd this (by decide +kernel))

example : createHelpers true (chars! "CudaMeshEvaluator") 3 = .ok (.cuda, 3) := by decide +kernel

example : ∃ n m, cudaSolver true false (some (chars! "umfpack")) = .ok n ∧
    cudaSolverApply true n = .throws m :=
  C37_cuda_solver_violated true false _ (fun k hk hn => by
    have := (C37_cuda_solver_partial true (chars! "umfpack") k hk).2 hn
    obtain ⟨n, h1, h2⟩ := this
    have hn : n = chars! "umfpack" := by
      have : cudaSolver true true (some (chars! "umfpack")) = .ok (chars! "umfpack") := by decide +kernel
      rw [this] at h1
      exact (Outcome.ok.inj h1).symm
    subst hn
    cases k <;> exact absurd h2 (by decide +kernel))

end Mfmg
