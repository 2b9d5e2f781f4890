import Verif.Lemmas.NonSymmetric
import Verif.Lemmas.Relaxation
import Verif.Lemmas.Build
import Verif.Props.Factory
import Verif.Props.Construction
import Mathlib.LinearAlgebra.Matrix.NonsingularInverse
import Mathlib.Topology.Algebra.Module.FiniteDimension
import Mathlib.Analysis.Normed.Group.Basic

/-!
# Convergence with the relaxation smoothers (C75)
-/

set_option autoImplicit false

namespace Mfmg

open Spec

section

variable {K : Type} [Field K] {n : ℕ}

theorem entriesOf_eq (a : Op (Fin n → K) (Fin n → K)) (M : Matrix (Fin n) (Fin n) K)
    (h : ∀ x, a.fwd x = M.mulVec x) : entriesOf a = M := by
  ext i j
  simp [entriesOf, h]

/-- The relaxations that sweep over the rows. -/
def IsSweep (kind : Relaxation) : Prop := kind ≠ .jacobi

/-- The rows relaxed one after the other. -/
def sweepRows (kind : Relaxation) (own : List (Fin n)) : List (Fin n) :=
  match kind with
  | .symmetricGaussSeidel => own ++ own.reverse
  | _ => own

theorem relaxVmult_sweep {kind : Relaxation} (hk : IsSweep kind) (A : Matrix (Fin n) (Fin n) K)
    {own : List (Fin n)} (h : ListsAll own) (r : Fin n → K) :
    relaxVmult kind A [own] r = (sweepRows kind own).foldl (relaxFull A r) 0 := by
  have he : relaxRow A own r = relaxFull A r := by
    funext x i
    exact relaxRow_eq A h r x i
  funext i
  cases kind
  · simp [relaxVmult, localVmult, sweepRows, he]
  · simp [relaxVmult, localVmult, sweepRows, he]
  · exact absurd rfl hk

theorem err_relax {kind : Relaxation} (hk : IsSweep kind) (A : Matrix (Fin n) (Fin n) K)
    {own : List (Fin n)} (h : ListsAll own) (e : Fin n → K) :
    e - relaxVmult kind A [own] (A.mulVec e) = (sweepRows kind own).foldl (errRow A) e := by
  rw [relaxVmult_sweep hk A h, err_sweep A _ e rfl, sub_zero]

theorem sweepRows_all (kind : Relaxation) {own : List (Fin n)} (h : ListsAll own) (i : Fin n) :
    i ∈ sweepRows kind own := by
  cases kind <;> simp [sweepRows, h.2 i]

theorem dealiiSmootherApply_matrix (kind : Relaxation) (procs : List (List (Fin n)))
    (a : Op (Fin n → K) (Fin n → K)) (A : Matrix (Fin n) (Fin n) K) (ha : ∀ x, a.fwd x = A.mulVec x)
    (b x : Fin n → K) :
    dealiiSmootherApply kind procs a b x = x - relaxVmult kind A procs (A.mulVec x - b) := by
  simp only [dealiiSmootherApply, entriesOf_eq a A ha, ha]

end

section

variable {K : Type} [Field K] [LinearOrder K] [IsStrictOrderedRing K]

omit [LinearOrder K] [IsStrictOrderedRing K] in
theorem err_smoother {n : ℕ} (kind : Relaxation) (procs : List (List (Fin n)))
    (A : Matrix (Fin n) (Fin n) K) (b x xs : Fin n → K) (hxs : A.mulVec xs = b) :
    xs - dealiiSmootherApply kind procs (matrixOp A) b x
      = (xs - x) - relaxVmult kind A procs (A.mulVec (xs - x)) := by
  rw [dealiiSmootherApply_matrix kind procs _ A fun _ => rfl]
  have h1 : A.mulVec x - b = -A.mulVec (xs - x) := by rw [Matrix.mulVec_sub, hxs]; abel
  have h2 : relaxVmult kind A procs (-A.mulVec (xs - x))
      = -relaxVmult kind A procs (A.mulVec (xs - x)) := map_neg (relaxLin kind A procs) _
  rw [h1, h2]
  abel

/-- **C75**, one smoothing step: on one process, symmetric Gauss-Seidel (the default) and Gauss-Seidel
decrease the energy of the error for every symmetric positive definite matrix, unless the vector already is
the solution. -/
theorem C75_smoother_partial {n : ℕ} (kind : Relaxation)
    (hk : kind = .symmetricGaussSeidel ∨ kind = .gaussSeidel) (own : List (Fin n))
    (hown : ListsAll own) (A : Matrix (Fin n) (Fin n) K) (hA : IsSpd A) (b x xs : Fin n → K)
    (hxs : A.mulVec xs = b) (hx : x ≠ xs) :
    energyOf A (xs - dealiiSmootherApply kind [own] (matrixOp A) b x) < energyOf A (xs - x) := by
  have hk' : IsSweep kind := by rcases hk with rfl | rfl <;> simp [IsSweep]
  rw [err_smoother kind [own] A b x xs hxs, err_relax hk' A hown]
  exact energy_sweep_lt hA _ (sweepRows_all kind hown) _ (sub_ne_zero.2 (Ne.symm hx))

omit [IsStrictOrderedRing K] in
/-- **C75**: symmetric Gauss-Seidel is symmetric. -/
theorem C75_symmetric {n : ℕ} (own : List (Fin n)) (hown : ListsAll own)
    (A : Matrix (Fin n) (Fin n) K) (hA : IsSpd A) (r s : Fin n → K) :
    relaxVmult .symmetricGaussSeidel A [own] r ⬝ᵥ s
      = r ⬝ᵥ relaxVmult .symmetricGaussSeidel A [own] s := by
  have hdet := spd_det hA
  have hinv : ∀ v : Fin n → K, ∃ u, A.mulVec u = v := fun v =>
    ⟨A⁻¹.mulVec v, by
      rw [Matrix.mulVec_mulVec, Matrix.mul_nonsing_inv _ (Ne.isUnit hdet), Matrix.one_mulVec]⟩
  obtain ⟨u, rfl⟩ := hinv r
  obtain ⟨v, rfl⟩ := hinv s
  have hk : IsSweep .symmetricGaussSeidel := by simp [IsSweep]
  have e : ∀ w, relaxVmult .symmetricGaussSeidel A [own] (A.mulVec w)
      = w - (own ++ own.reverse).foldl (errRow A) w := by
    intro w
    rw [← show _ = (own ++ own.reverse).foldl (errRow A) w from err_relax hk A hown w]
    abel
  have hp : (own ++ own.reverse).reverse = own ++ own.reverse := by simp
  rw [e, e, sub_dotProduct, errSweep_symm hA.1, hp, dotProduct_sub,
    dotProduct_comm (A.mulVec u), dotProduct_comm (A.mulVec u), form_symm hA.1 u v,
    form_symm hA.1 u]

/-! ### The hierarchy -/

/-- The Euclidean inner product. -/
def dotForm (n : ℕ) : (Fin n → K) →ₗ[K] (Fin n → K) →ₗ[K] K :=
  LinearMap.mk₂ K dotProduct (fun a b c => add_dotProduct a b c) (fun c a b => smul_dotProduct c a b)
    (fun a b c => dotProduct_add a b c) (fun c a b => dotProduct_smul c a b)

/-- The linear maps of the hierarchy. -/
noncomputable def matrixData (kind : Relaxation) (dims : ℕ → ℕ)
    (procs : ∀ l, List (List (Fin (dims l)))) (A : Matrix (Fin (dims 0)) (Fin (dims 0)) K)
    (R : ∀ l, Matrix (Fin (dims (l + 1))) (Fin (dims l)) K) :
    Data K (fun l => Fin (dims l) → K) where
  A := fun l => (coarseMatrix dims A R l).mulVecLin
  B := fun l => relaxLin kind (coarseMatrix dims A R l) (procs l)
  R := fun l => (R l).mulVecLin
  P := fun l => (R l).transpose.mulVecLin
  C := fun l => (coarseMatrix dims A R l)⁻¹.mulVecLin

omit [IsStrictOrderedRing K] in
theorem coarseMatrix_spd (dims : ℕ → ℕ) (A : Matrix (Fin (dims 0)) (Fin (dims 0)) K) (hA : IsSpd A)
    (R : ∀ l, Matrix (Fin (dims (l + 1))) (Fin (dims l)) K) (hR : ∀ l, IndependentRows (R l)) (l : ℕ) :
    IsSpd (coarseMatrix dims A R l) := by
  induction l with
  | zero => exact hA
  | succ l ih => exact (C74_iff (R l) _ ih).2 (hR l)

omit [LinearOrder K] [IsStrictOrderedRing K] in
theorem mulVec_inv {n : ℕ} {A : Matrix (Fin n) (Fin n) K} (h : A.det ≠ 0) (v : Fin n → K) :
    A.mulVec (A⁻¹.mulVec v) = v := by
  rw [Matrix.mulVec_mulVec, Matrix.mul_nonsing_inv _ (Ne.isUnit h), Matrix.one_mulVec]

omit [IsStrictOrderedRing K] in
theorem mulVec_injective {n : ℕ} {A : Matrix (Fin n) (Fin n) K} (hA : IsSpd A) {u v : Fin n → K}
    (h : A.mulVec u = A.mulVec v) : u = v := by
  by_contra hne
  exact spd_mulVec_ne hA (sub_ne_zero.2 hne) (by rw [Matrix.mulVec_sub, h, sub_self])

omit [IsStrictOrderedRing K] in
/-- Construction gives the textbook hierarchy. -/
theorem matrixHelpers_build (debug timer : Bool) (p : Params) (type : Option (List Char))
    (k : SmootherKind) (kind : Relaxation) (hk : dealiiSmoother debug true type = .ok k)
    (hk' : k.relaxation = some kind) (dims : ℕ → ℕ) (procs : ∀ l, List (List (Fin (dims l))))
    (A : Matrix (Fin (dims 0)) (Fin (dims 0)) K) (hA : IsSpd A)
    (R : ∀ l, Matrix (Fin (dims (l + 1))) (Fin (dims l)) K) (hR : ∀ l, IndependentRows (R l))
    (solve : ∀ l, Matrix (Fin (dims l)) (Fin (dims l)) K → (Fin (dims l) → K) → Fin (dims l) → K)
    (hsolve : ∀ l, SolvesExactly (solve l)) (hpos : 0 < p.maxLevels.getD 2)
    (hfast : p.fastAp.getD false = false) :
    ∃ H, (buildHierarchy debug timer (some p)
        (.ok (matrixHelpers debug type dims procs A R solve))).result = .ok H ∧
      IsLinear H (matrixData kind dims procs A R) ∧ H.numLevels = (p.maxLevels.getD 2).toNat ∧
      H.isPreconditioner = p.isPreconditioner.getD true ∧
      H.nSmoothingSteps = toUnsigned (p.nSmoothingSteps.getD 1) := by
  set h := matrixHelpers debug type dims procs A R solve with hh
  have hsm : ∀ l a, h.buildSmoother l a p = .ok (dealiiSmootherApply kind (procs l) a) := by
    intro l a
    simp [hh, matrixHelpers, hk, hk']
  obtain ⟨H, hH⟩ := C08_construction_succeeds debug timer p h hpos ⟨_, rfl⟩
    (fun l a => ⟨_, hsm l a⟩) (fun l => ⟨_, rfl⟩)
    (by rw [hfast]; exact fun l a r => ⟨_, rfl⟩) (fun l r ap => ⟨_, rfl⟩) (fun l a p => ⟨_, rfl⟩)
  refine ⟨H, hH, ?_⟩
  obtain ⟨h', p', a, L, e1, e2, hpos', ha, hL, rfl⟩ := (build_ok _ _ _ _ _).mp hH
  obtain rfl := Outcome.ok.inj e1
  obtain rfl := Option.some.inj e2
  obtain ⟨hF, h0⟩ := buildLoop_final h p timer _ ((p.maxLevels.getD 2).toNat - 1) 0 (by omega) _ _
    (initInv h p a) hL
  refine ⟨?_, rfl, rfl, rfl⟩
  have hop : ∀ l, l < (p.maxLevels.getD 2).toNat → ∃ o, (L l).operator = some o ∧
      ∀ x, o.fwd x = (coarseMatrix dims A R l).mulVec x := by
    intro l
    induction l with
    | zero =>
      intro _
      have ha' : matrixOp A = a := Outcome.ok.inj ha
      refine ⟨a, by rw [h0]; simp [initLevels], ?_⟩
      intro x
      rw [← ha']
      rfl
    | succ l ih =>
      intro hl
      obtain ⟨o, ho, hox⟩ := ih (by omega)
      obtain ⟨a, s, r, ap, ac, h1, h2, h3, h4, h5, h6, h7, h8⟩ := hF.prev l hl
      refine ⟨ac, h4, ?_⟩
      intro x
      obtain rfl := Option.some.inj (ho.symm.trans h1)
      have e6 : matrixOp (R l) = r := Outcome.ok.inj h6
      have e7 : o.mulTranspose r = ap := by
        simp only [chooseAP, hfast, Bool.false_eq_true, if_false] at h7
        exact Outcome.ok.inj h7
      have e8 : r.mul ap = ac := Outcome.ok.inj h8
      rw [← e8, ← e7, ← e6]
      simp only [Op.mul, Op.mulTranspose, matrixOp, hox, coarseMatrix, galerkin]
      rw [← Matrix.mulVec_mulVec, ← Matrix.mulVec_mulVec]
  refine ⟨by dsimp; omega, ?_, ?_, ?_, ?_⟩
  · intro l hl
    exact hop l hl
  · intro l hl
    obtain ⟨a, s, r, ap, ac, h1, h2, h3, h4, h5, h6, h7, h8⟩ := hF.prev l hl
    obtain ⟨o, ho, hox⟩ := hop l (lt_trans (Nat.lt_succ_self l) hl)
    obtain rfl := Option.some.inj (ho.symm.trans h1)
    refine ⟨s, h2, ?_⟩
    intro b x
    rw [hsm] at h5
    rw [← Outcome.ok.inj h5, dealiiSmootherApply_matrix kind (procs l) o _ hox]
    rfl
  · intro l hl
    obtain ⟨a, s, r, ap, ac, h1, h2, h3, h4, h5, h6, h7, h8⟩ := hF.prev l hl
    have e6 : matrixOp (R l) = r := Outcome.ok.inj h6
    exact ⟨r, h3, fun x => by rw [← e6]; rfl, fun y => by rw [← e6]; rfl⟩
  · have hl : (p.maxLevels.getD 2).toNat - 1 + 1 = (p.maxLevels.getD 2).toNat := by omega
    obtain ⟨a, s, h1, h2, h3⟩ := hF.last _ hl
    obtain ⟨o, ho, hox⟩ := hop ((p.maxLevels.getD 2).toNat - 1) (by omega)
    obtain rfl := Option.some.inj (ho.symm.trans h1)
    refine ⟨s, h2, ?_⟩
    intro b
    have hspd := coarseMatrix_spd dims A hA R hR ((p.maxLevels.getD 2).toNat - 1)
    have e3 := Outcome.ok.inj h3
    rw [← e3]
    apply mulVec_injective hspd
    change _ = (coarseMatrix dims A R _).mulVec ((coarseMatrix dims A R _)⁻¹.mulVec b)
    rw [mulVec_inv (spd_det hspd)]
    change (coarseMatrix dims A R _).mulVec (solve _ (entriesOf o) b) = b
    rw [entriesOf_eq o _ hox]
    exact hsolve _ _ b (spd_det hspd)

omit [IsStrictOrderedRing K] in
theorem matrixData_chain (kind : Relaxation) (dims : ℕ → ℕ)
    (procs : ∀ l, List (List (Fin (dims l)))) (A : Matrix (Fin (dims 0)) (Fin (dims 0)) K)
    (hA : IsSpd A) (R : ∀ l, Matrix (Fin (dims (l + 1))) (Fin (dims l)) K)
    (hR : ∀ l, IndependentRows (R l)) (L : ℕ) :
    GalerkinChain (matrixData kind dims procs A R) (fun l => dotForm (dims l)) L where
  form := fun l x y => dotProduct_comm x y
  A := by
    intro l _ x y
    change (coarseMatrix dims A R l).mulVec x ⬝ᵥ y = x ⬝ᵥ (coarseMatrix dims A R l).mulVec y
    rw [dotProduct_comm, form_symm (coarseMatrix_spd dims A hA R hR l).1]
  RP := by
    intro l _ x y
    change (R l).mulVec x ⬝ᵥ y = x ⬝ᵥ (R l).transpose.mulVec y
    rw [Matrix.mulVec_transpose, dotProduct_comm, dotProduct_comm x, Matrix.dotProduct_mulVec]
  galerkin := by
    intro l _ x
    change (galerkin (R l) (coarseMatrix dims A R l)).mulVec x
      = (R l).mulVec ((coarseMatrix dims A R l).mulVec ((R l).transpose.mulVec x))
    rw [galerkin, ← Matrix.mulVec_mulVec, ← Matrix.mulVec_mulVec]
  psd := by
    intro l _ x
    change 0 ≤ (coarseMatrix dims A R l).mulVec x ⬝ᵥ x
    by_cases hx : x = 0
    · subst hx; simp
    · rw [dotProduct_comm]
      exact ((coarseMatrix_spd dims A hA R hR l).2 x hx).le
  solvable := by
    intro l _ y
    exact ⟨_, mulVec_inv (spd_det (coarseMatrix_spd dims A hA R hR (l + 1))) _⟩
  exact := by
    intro l _ z
    exact mulVec_inv (spd_det (coarseMatrix_spd dims A hA R hR l)) _

/-- **C75**, the whole cycle: on one process, with symmetric Gauss-Seidel (also by default) or Gauss-Seidel
smoothing, at least one smoothing step, two or more levels and restriction matrices of full rank,
construction succeeds and every standalone cycle decreases the energy of the error of every symmetric
positive definite problem, unless the vector already is the solution.  Missing: Jacobi (see `C75_jacobi_iff`)
and several processes (see `C75_cycle_violated`). -/
theorem C75_cycle_partial (debug timer : Bool) (p : Params) (type : Option (List Char))
    (htype : dealiiSmoother debug true type = .ok .symmetricGaussSeidel ∨
      dealiiSmoother debug true type = .ok .gaussSeidel) (dims : ℕ → ℕ)
    (own : ∀ l, List (Fin (dims l))) (hown : ∀ l, ListsAll (own l))
    (A : Matrix (Fin (dims 0)) (Fin (dims 0)) K) (hA : IsSpd A)
    (R : ∀ l, Matrix (Fin (dims (l + 1))) (Fin (dims l)) K) (hR : ∀ l, IndependentRows (R l))
    (solve : ∀ l, Matrix (Fin (dims l)) (Fin (dims l)) K → (Fin (dims l) → K) → Fin (dims l) → K)
    (hsolve : ∀ l, SolvesExactly (solve l)) (hlev : 2 ≤ p.maxLevels.getD 2)
    (hfast : p.fastAp.getD false = false) (hpre : p.isPreconditioner = some false)
    (hsteps : 0 < toUnsigned (p.nSmoothingSteps.getD 1)) :
    ∃ H, (buildHierarchy debug timer (some p)
        (.ok (matrixHelpers debug type dims (fun l => [own l]) A R solve))).result = .ok H ∧
      ∀ fresh (x b xs : Fin (dims 0) → K), A.mulVec xs = b → x ≠ xs →
        ∃ y, (H.vmult fresh x b).result = .ok y ∧
          energyOf A (xs - y) < energyOf A (xs - x) := by
  obtain ⟨k, kind, hk, hk', hs⟩ : ∃ k kind, dealiiSmoother debug true type = .ok k ∧
      k.relaxation = some kind ∧ IsSweep kind := by
    rcases htype with h | h
    · exact ⟨_, _, h, rfl, by simp [IsSweep]⟩
    · exact ⟨_, _, h, rfl, by simp [IsSweep]⟩
  obtain ⟨H, hH, hlin, hL, hp, hn⟩ := matrixHelpers_build debug timer p type k kind hk hk' dims
    (fun l => [own l]) A hA R hR solve hsolve (by omega) hfast
  refine ⟨H, hH, ?_⟩
  intro fresh x b xs hxs hx
  have hp' : H.isPreconditioner = false := by rw [hp, hpre]; rfl
  have hL2 : 2 ≤ H.numLevels := by omega
  refine ⟨_, C04_cycle_is_textbook H _ hlin fresh x b (Or.inr hL2), ?_⟩
  rw [hp']
  set D := matrixData kind dims (fun l => [own l]) A R with hD
  have hen : ∀ l (e : Fin (dims l) → K), energy D (fun l => dotForm (dims l)) l e
      = energyOf (coarseMatrix dims A R l) e := fun l e =>
    dotProduct_comm ((coarseMatrix dims A R l).mulVec e) e
  have hchain := matrixData_chain kind dims (fun l => [own l]) A hA R hR H.numLevels
  have herr : ∀ l (e : Fin (dims l) → K), e - D.B l (D.A l e)
      = (sweepRows kind (own l)).foldl (errRow (coarseMatrix dims A R l)) e :=
    fun l e => err_relax hs (coarseMatrix dims A R l) (hown l) e
  have hlt := cycle_energy_lt hchain (by
      intro l _ e
      rw [← hD, herr, hen, hen]
      exact (energy_sweep (coarseMatrix_spd dims A hA R hR l) _ e).1)
    H.nSmoothingSteps (by omega) (H.numLevels - 1) 0 (by omega) (by omega) (by
      intro e he
      rw [← hD, herr, hen, hen]
      refine energy_sweep_lt hA _ (sweepRows_all kind (hown 0)) e ?_
      rintro rfl
      exact he (map_zero _))
    b x xs hxs (by
      intro h
      exact hx (mulVec_injective hA (h.trans hxs.symm)))
  rw [hen, hen] at hlt
  exact hlt

omit [LinearOrder K] [IsStrictOrderedRing K] in
/-- What a linear preconditioner takes from the energy of the error. -/
theorem energy_gain {n : ℕ} {A : Matrix (Fin n) (Fin n) K} (hA : A.transpose = A) (e w : Fin n → K) :
    energyOf A (e - w) = energyOf A e - (2 * (w ⬝ᵥ A.mulVec e) - w ⬝ᵥ A.mulVec w) := by
  unfold energyOf
  rw [Matrix.mulVec_sub, dotProduct_sub, sub_dotProduct, sub_dotProduct, form_symm hA e w]
  ring

/-- **C75**, used as a preconditioner: on one process, with symmetric Gauss-Seidel smoothing (also by
default), at least one smoothing step and restriction matrices of full rank, one cycle is a symmetric
positive definite linear map for every symmetric positive definite problem: what the conjugate gradient
method needs.  Missing: the other smoothers and several processes. -/
theorem C75_preconditioner_partial (debug timer : Bool) (p : Params) (type : Option (List Char))
    (htype : dealiiSmoother debug true type = .ok .symmetricGaussSeidel) (dims : ℕ → ℕ)
    (own : ∀ l, List (Fin (dims l))) (hown : ∀ l, ListsAll (own l))
    (A : Matrix (Fin (dims 0)) (Fin (dims 0)) K) (hA : IsSpd A)
    (R : ∀ l, Matrix (Fin (dims (l + 1))) (Fin (dims l)) K) (hR : ∀ l, IndependentRows (R l))
    (solve : ∀ l, Matrix (Fin (dims l)) (Fin (dims l)) K → (Fin (dims l) → K) → Fin (dims l) → K)
    (hsolve : ∀ l, SolvesExactly (solve l)) (hlev : 0 < p.maxLevels.getD 2)
    (hfast : p.fastAp.getD false = false) (hpre : p.isPreconditioner.getD true = true)
    (hsteps : 0 < toUnsigned (p.nSmoothingSteps.getD 1)) :
    ∃ H, (buildHierarchy debug timer (some p)
        (.ok (matrixHelpers debug type dims (fun l => [own l]) A R solve))).result = .ok H ∧
      ∃ M : Matrix (Fin (dims 0)) (Fin (dims 0)) K, IsSpd M ∧
        ∀ fresh x b, (H.vmult fresh x b).result = .ok (M.mulVec b) := by
  obtain ⟨H, hH, hlin, hL, hp, hn⟩ := matrixHelpers_build debug timer p type _ _ htype rfl dims
    (fun l => [own l]) A hA R hR solve hsolve hlev hfast
  refine ⟨H, hH, ?_⟩
  have hp' : H.isPreconditioner = true := by rw [hp, hpre]
  set D := matrixData .symmetricGaussSeidel dims (fun l => [own l]) A R with hD
  set φ : Forms K (fun l => Fin (dims l) → K) := fun l => dotForm (dims l) with hφ
  have hchain := matrixData_chain .symmetricGaussSeidel dims (fun l => [own l]) A hA R hR H.numLevels
  have hspd := coarseMatrix_spd dims A hA R hR
  have hsym : Symmetric D φ H.numLevels := by
    refine ⟨hchain.form, hchain.A, ?_, hchain.RP, ?_⟩
    · intro l _ x y
      exact C75_symmetric (own l) (hown l) _ (hspd l) x y
    · intro l _ x y
      have hi : ((coarseMatrix dims A R l)⁻¹).transpose = (coarseMatrix dims A R l)⁻¹ := by
        rw [Matrix.transpose_nonsing_inv, (hspd l).1]
      change (coarseMatrix dims A R l)⁻¹.mulVec x ⬝ᵥ y = x ⬝ᵥ (coarseMatrix dims A R l)⁻¹.mulVec y
      rw [dotProduct_comm, form_symm hi]
  have hB : ∀ l, l + 1 < H.numLevels → SmootherStrictlyConvergent D φ l := by
    intro l hl x hx
    set w := D.B l x with hw
    have h1 : φ l (2 • w - D.B l (D.A l w)) x = 2 * (w ⬝ᵥ x) - w ⬝ᵥ (coarseMatrix dims A R l).mulVec w := by
      rw [map_sub, LinearMap.sub_apply, hsym.B l hl, ← hw, map_nsmul, LinearMap.smul_apply]
      change 2 • (w ⬝ᵥ x) - (coarseMatrix dims A R l).mulVec w ⬝ᵥ w = _
      rw [dotProduct_comm w ((coarseMatrix dims A R l).mulVec w), two_nsmul, two_mul]
    rw [h1]
    set u := (coarseMatrix dims A R l)⁻¹.mulVec x with hu
    have hux : (coarseMatrix dims A R l).mulVec u = x := mulVec_inv (spd_det (hspd l)) x
    have hu0 : u ≠ 0 := by
      intro h
      rw [h, Matrix.mulVec_zero] at hux
      exact hx hux.symm
    have h2 := energy_gain (hspd l).1 u w
    have h3 : u - w = (sweepRows .symmetricGaussSeidel (own l)).foldl
        (errRow (coarseMatrix dims A R l)) u := by
      rw [← err_relax (by simp [IsSweep]) _ (hown l), hux]
      rfl
    have h4 := energy_sweep_lt (hspd l) _ (sweepRows_all .symmetricGaussSeidel (hown l)) u hu0
    rw [← h3, h2, hux] at h4
    linarith
  have hC : ∀ l, l + 1 = H.numLevels → ∀ x, x ≠ 0 → 0 < φ l (D.C l x) x := by
    intro l _ x hx
    set u := (coarseMatrix dims A R l)⁻¹.mulVec x with hu
    have hux : (coarseMatrix dims A R l).mulVec u = x := mulVec_inv (spd_det (hspd l)) x
    have hu0 : u ≠ 0 := by
      intro h
      rw [h, Matrix.mulVec_zero] at hux
      exact hx hux.symm
    have := (hspd l).2 u hu0
    rw [hux] at this
    exact this
  refine ⟨LinearMap.toMatrix' (M D H.nSmoothingSteps (H.numLevels - 1) 0), ?_, ?_⟩
  · refine ⟨?_, ?_⟩
    · ext i j
      obtain ⟨mb, mc, h1, h2, h3⟩ := C05_preconditioner_symmetric H D hlin hp' φ hsym 0
        (Pi.single i 1) (Pi.single j 1)
      have h1' := h1 0
      have h2' := h2 0
      rw [vmult_pre H D hlin hp'] at h1' h2'
      rw [← Outcome.ok.inj h1', ← Outcome.ok.inj h2'] at h3
      have h4 : M D H.nSmoothingSteps (H.numLevels - 1) 0 (Pi.single i 1) ⬝ᵥ Pi.single j 1
          = Pi.single i 1 ⬝ᵥ M D H.nSmoothingSteps (H.numLevels - 1) 0 (Pi.single j 1) := h3
      rw [Matrix.transpose_apply, LinearMap.toMatrix'_apply, LinearMap.toMatrix'_apply]
      simpa using h4
    · intro v hv
      obtain ⟨mb, h1, h2⟩ := C52_preconditioner_positive_definite H D hlin hp' φ hsym (by omega) hB hC
        0 v hv
      have h3 := h1 0
      rw [vmult_pre H D hlin hp'] at h3
      rw [LinearMap.toMatrix'_mulVec, Outcome.ok.inj h3, dotProduct_comm]
      exact h2
  · intro fresh x b
    rw [vmult_pre H D hlin hp', LinearMap.toMatrix'_mulVec]

/-! ### Jacobi, and several processes -/

omit [LinearOrder K] [IsStrictOrderedRing K] in
theorem sum_ite_mem {n : ℕ} (procs : List (List (Fin n))) (i : Fin n) (v : K) :
    (procs.map fun own => if i ∈ own then v else 0).sum
      = (procs.countP fun own => i ∈ own) * v := by
  induction procs with
  | nil => simp
  | cons own procs ih =>
    rw [List.map_cons, List.sum_cons, ih, List.countP_cons]
    by_cases h : i ∈ own
    · simp [h]; ring
    · simp [h]

omit [LinearOrder K] [IsStrictOrderedRing K] in
/-- However the rows are distributed, Jacobi divides by the diagonal. -/
theorem relaxVmult_jacobi {n : ℕ} (A : Matrix (Fin n) (Fin n) K) (procs : List (List (Fin n)))
    (hprocs : ∀ i, (procs.countP fun own => i ∈ own) = 1) (r : Fin n → K) (i : Fin n) :
    relaxVmult .jacobi A procs r i = r i / A i i := by
  simp only [relaxVmult, localVmult]
  rw [sum_ite_mem, hprocs, Nat.cast_one, one_mul]

/-- **C75**, Jacobi: on any number of processes it decreases the energy of every nonzero error exactly if
`2 D - A` is positive definite (`D` the diagonal of `A`). -/
theorem C75_jacobi_iff {n : ℕ} (A : Matrix (Fin n) (Fin n) K) (hA : IsSpd A)
    (procs : List (List (Fin n))) (hprocs : ∀ i, (procs.countP fun own => i ∈ own) = 1) :
    (∀ b x xs, A.mulVec xs = b → x ≠ xs →
      energyOf A (xs - dealiiSmootherApply .jacobi procs (matrixOp A) b x) < energyOf A (xs - x)) ↔
    ∀ w : Fin n → K, w ≠ 0 → 0 < w ⬝ᵥ (2 • Matrix.diagonal (fun i => A i i) - A).mulVec w := by
  have hgain : ∀ e w : Fin n → K, (∀ i, A i i * w i = A.mulVec e i) →
      energyOf A (e - w) = energyOf A e
        - w ⬝ᵥ (2 • Matrix.diagonal (fun i => A i i) - A).mulVec w := by
    intro e w h
    rw [energy_gain hA.1]
    have h1 : A.mulVec e = (Matrix.diagonal fun i => A i i).mulVec w := by
      funext i
      rw [Matrix.mulVec_diagonal, h]
    rw [Matrix.sub_mulVec, dotProduct_sub, Matrix.smul_mulVec, dotProduct_smul, ← h1]
    simp [two_mul]
  have hw : ∀ e : Fin n → K, ∀ i, A i i * relaxVmult .jacobi A procs (A.mulVec e) i = A.mulVec e i := by
    intro e i
    rw [relaxVmult_jacobi A procs hprocs, mul_div_cancel₀ _ (diag_pos hA i).ne']
  constructor
  · intro h w hw0
    set e := A⁻¹.mulVec ((Matrix.diagonal fun i => A i i).mulVec w) with he
    have hAe : A.mulVec e = (Matrix.diagonal fun i => A i i).mulVec w := mulVec_inv (spd_det hA) _
    have hwe : relaxVmult .jacobi A procs (A.mulVec e) = w := by
      funext i
      rw [relaxVmult_jacobi A procs hprocs, hAe, Matrix.mulVec_diagonal,
        mul_div_cancel_left₀ _ (diag_pos hA i).ne']
    have he0 : e ≠ 0 := by
      intro h0
      rw [h0, Matrix.mulVec_zero] at hwe
      apply hw0
      rw [← hwe]
      exact map_zero (relaxLin .jacobi A procs)
    have := h (A.mulVec e) 0 e rfl (Ne.symm he0)
    rw [err_smoother .jacobi procs A _ 0 e rfl, sub_zero, hwe] at this
    rw [hgain e w (by intro i; rw [hAe, Matrix.mulVec_diagonal])] at this
    linarith
  · intro h b x xs hxs hx
    rw [err_smoother .jacobi procs A b x xs hxs, hgain _ _ (hw _)]
    have hne : relaxVmult .jacobi A procs (A.mulVec (xs - x)) ≠ 0 := by
      intro h0
      apply spd_mulVec_ne hA (sub_ne_zero.2 (Ne.symm hx))
      funext i
      rw [← hw, h0]
      simp
    have := h _ hne
    linarith

omit [LinearOrder K] [IsStrictOrderedRing K] in
/-- With one row per process every relaxation is Jacobi. -/
theorem relaxVmult_single {n : ℕ} (kind : Relaxation) (A : Matrix (Fin n) (Fin n) K)
    (hA : ∀ i, A i i ≠ 0) (r : Fin n → K) (i : Fin n) :
    relaxVmult kind A ((List.finRange n).map fun i => [i]) r i = r i / A i i := by
  have hl : ∀ k, localVmult kind A [k] r = Pi.single k (r k / A k k) := by
    intro k
    have h1 : relaxRow A [k] r 0 k = Pi.single k (r k / A k k) := by
      funext j
      by_cases hj : j = k
      · subst hj; simp [relaxRow]
      · simp [relaxRow, hj]
    have h2 : relaxRow A [k] r (Pi.single k (r k / A k k)) k = Pi.single k (r k / A k k) := by
      funext j
      by_cases hj : j = k
      · subst hj
        simp [relaxRow, mul_div_cancel₀ _ (hA j)]
      · simp [relaxRow, hj]
    cases kind
    · simp [localVmult, h1, h2]
    · simp [localVmult, h1]
    · funext j
      by_cases hj : j = k
      · subst hj; simp [localVmult]
      · simp [localVmult, hj]
  simp only [relaxVmult, List.map_map]
  have : ((List.finRange n).map ((fun own => localVmult kind A own r i) ∘ fun i => [i])).sum
      = ∑ k, (Pi.single k (r k / A k k) : Fin n → K) i := by
    rw [← sum_listsAll ⟨List.nodup_finRange n, List.mem_finRange⟩]
    congr 1
    apply List.map_congr_left
    intro k _
    simp only [Function.comp_apply, hl]
  rw [this, Finset.sum_eq_single i]
  · simp
  · intro k _ hk
    exact Pi.single_eq_of_ne (Ne.symm hk) _
  · simp

/-- The matrix with ones on the diagonal and `a` elsewhere. -/
def uniformMatrix (n : ℕ) (a : K) : Matrix (Fin n) (Fin n) K :=
  Matrix.of fun i j => if i = j then 1 else a

omit [LinearOrder K] [IsStrictOrderedRing K] in
theorem uniformMatrix_mulVec (n : ℕ) (a : K) (v : Fin n → K) (i : Fin n) :
    (uniformMatrix n a).mulVec v i = (1 - a) * v i + a * ∑ j, v j := by
  have : ∀ j, (if i = j then (1 : K) else a) * v j = (if i = j then (1 - a) * v j else 0) + a * v j := by
    intro j
    split <;> ring
  simp only [uniformMatrix, Matrix.mulVec, dotProduct, Matrix.of_apply]
  rw [Finset.sum_congr rfl fun j _ => this j, Finset.sum_add_distrib, Finset.sum_ite_eq,
    Finset.mul_sum]
  simp

theorem uniformMatrix_spd (n : ℕ) (a : K) (h0 : 0 ≤ a) (h1 : a < 1) : IsSpd (uniformMatrix n a) := by
  refine ⟨?_, ?_⟩
  · ext i j
    simp [uniformMatrix, eq_comm]
  · intro v hv
    have h : v ⬝ᵥ (uniformMatrix n a).mulVec v = (1 - a) * (v ⬝ᵥ v) + a * ((∑ j, v j) * ∑ j, v j) := by
      simp only [dotProduct, uniformMatrix_mulVec]
      have h5 : ∀ i, v i * ((1 - a) * v i + a * ∑ j, v j)
          = (1 - a) * (v i * v i) + v i * (a * ∑ j, v j) := fun i => by ring
      rw [Finset.sum_congr rfl fun i _ => h5 i, Finset.sum_add_distrib, ← Finset.mul_sum,
        ← Finset.sum_mul]
      ring
    rw [h]
    have h2 : 0 < v ⬝ᵥ v := by
      obtain ⟨i, hi⟩ := Function.ne_iff.1 hv
      refine Finset.sum_pos' (fun i _ => mul_self_nonneg (v i)) ⟨i, Finset.mem_univ i, ?_⟩
      exact lt_of_le_of_ne (mul_self_nonneg _) (Ne.symm (mul_self_ne_zero.2 hi))
    have h3 : 0 ≤ a * ((∑ j, v j) * ∑ j, v j) := mul_nonneg h0 (mul_self_nonneg _)
    have h4 : 0 < (1 - a) * (v ⬝ᵥ v) := mul_pos (by linarith) h2
    linarith

/-- One agglomerate with one eigenvector: `n` unknowns, then one. -/
def twoDims (n : ℕ) : ℕ → ℕ
  | 0 => n
  | _ + 1 => 1

/-- The row of the eigenvector `(1, -1)` on the first two unknowns. -/
def differenceRow (n : ℕ) : ∀ l, Matrix (Fin (twoDims n (l + 1))) (Fin (twoDims n l)) K
  | 0 => Matrix.of fun _ j => if j.val = 0 then 1 else if j.val = 1 then -1 else 0
  | _ + 1 => Matrix.of fun _ _ => 1

omit [LinearOrder K] [IsStrictOrderedRing K] in
theorem differenceRow_independent (n : ℕ) (hn : 2 ≤ n) (l : ℕ) :
    IndependentRows (differenceRow (K := K) n l) := by
  intro y hy
  cases l with
  | zero =>
    have h0 : ∑ k : Fin 1, (if (0 : ℕ) = 0 then (1 : K) else if (0 : ℕ) = 1 then -1 else 0) *
        (y : Fin 1 → K) k = 0 := congrFun hy (⟨0, by omega⟩ : Fin n)
    rw [Fin.sum_univ_one, if_pos rfl, one_mul] at h0
    funext k
    have : k = (0 : Fin 1) := Fin.eq_zero k
    rw [this]
    exact h0
  | succ l =>
    have h0 : ∑ k : Fin 1, (1 : K) * (y : Fin 1 → K) k = 0 := congrFun hy (0 : Fin 1)
    rw [Fin.sum_univ_one, one_mul] at h0
    funext k
    have : k = (0 : Fin 1) := Fin.eq_zero k
    rw [this]
    exact h0

omit [LinearOrder K] [IsStrictOrderedRing K] in
theorem differenceRow_const (n : ℕ) (hn : 2 ≤ n) (c : K) :
    (differenceRow n 0).mulVec (fun _ => c) = 0 := by
  funext k
  change ∑ j : Fin n, (if j.val = 0 then (1 : K) else if j.val = 1 then -1 else 0) * c = 0
  rw [← Finset.sum_mul]
  have h : ∑ j : Fin n, (if j.val = 0 then (1 : K) else if j.val = 1 then -1 else 0)
      = ∑ j : Fin n, ((if j = ⟨0, by omega⟩ then (1 : K) else 0)
          - if j = ⟨1, by omega⟩ then 1 else 0) := by
    apply Finset.sum_congr rfl
    intro j _
    by_cases h0 : j.val = 0
    · simp [Fin.ext_iff, h0]
    · by_cases h1 : j.val = 1
      · simp [Fin.ext_iff, h1]
      · simp [Fin.ext_iff, h0, h1]
  rw [h, Finset.sum_sub_distrib]
  simp

/-- **C75**, where the property fails: for every number of processes `n ≥ 3` there are symmetric positive
definite problems (ones on the diagonal and `a` elsewhere, `1 / (n - 1) < a < 1`, one row per process) and a
restriction matrix of full rank for which two-level cycles with any of the three smoothers, the default
included, multiply an error by a factor larger than one, however many smoothing steps are made. -/
theorem C75_cycle_violated (debug timer : Bool) (p : Params) (type : Option (List Char))
    (k : SmootherKind) (hk : dealiiSmoother debug true type = .ok k) (hilu : k ≠ .ilu) (n : ℕ)
    (hn : 3 ≤ n) (a : K) (h0 : 1 < (n - 1) * a) (h1 : a < 1)
    (solve : ∀ l, Matrix (Fin (twoDims n l)) (Fin (twoDims n l)) K →
      (Fin (twoDims n l) → K) → Fin (twoDims n l) → K)
    (hsolve : ∀ l, SolvesExactly (solve l)) (hlev : p.maxLevels.getD 2 = 2)
    (hfast : p.fastAp.getD false = false) (hpre : p.isPreconditioner = some false)
    (hsteps : 0 < toUnsigned (p.nSmoothingSteps.getD 1)) :
    IsSpd (uniformMatrix n a) ∧
    (∀ l, IndependentRows (differenceRow (K := K) n l)) ∧
    ∃ H, (buildHierarchy debug timer (some p) (.ok (matrixHelpers debug type
        (twoDims n) (fun _ => (List.finRange _).map fun i => [i])
        (uniformMatrix n a) (differenceRow n) solve))).result = .ok H ∧
      ∃ q : K, 1 < q ∧ ∀ fresh (c : K), ∃ y,
        (H.vmult fresh (fun _ => c) 0).result = .ok y ∧ y = fun _ => q * c := by
  have ha : 0 ≤ a := by
    by_contra h
    have h2 : (0 : K) ≤ n - 1 := by
      have : (1 : K) ≤ n := by exact_mod_cast (by omega : 1 ≤ n)
      linarith
    have := mul_nonpos_of_nonneg_of_nonpos h2 (le_of_lt (not_le.1 h))
    linarith
  have hA : IsSpd (uniformMatrix n a) := uniformMatrix_spd n a ha h1
  have hR : ∀ l, IndependentRows (differenceRow (K := K) n l) :=
    fun l => differenceRow_independent n (by omega) l
  obtain ⟨kind, hk'⟩ : ∃ kind, k.relaxation = some kind := by
    cases k
    · exact ⟨_, rfl⟩
    · exact ⟨_, rfl⟩
    · exact ⟨_, rfl⟩
    · exact absurd rfl hilu
  obtain ⟨H, hH, hlin, hL, hp, hs⟩ := matrixHelpers_build debug timer p type k kind hk hk' (twoDims n)
    (fun l => (List.finRange _).map fun i => [i]) (uniformMatrix n a) hA (differenceRow n) hR solve
    hsolve (by omega) hfast
  refine ⟨hA, hR, H, hH, ((n - 1) * a) ^ (2 * H.nSmoothingSteps), ?_, ?_⟩
  · exact one_lt_pow₀ h0 (by omega)
  intro fresh c
  have hL2 : H.numLevels = 2 := by rw [hL, hlev]; rfl
  have hp' : H.isPreconditioner = false := by rw [hp, hpre]; rfl
  refine ⟨_, C04_cycle_is_textbook H _ hlin fresh _ 0 (Or.inr (by omega)), ?_⟩
  rw [hp', hL2]
  set D := matrixData kind (twoDims n) (fun l => (List.finRange _).map fun i => [i])
    (uniformMatrix n a) (differenceRow n) with hD
  have hAc : ∀ c : K, D.A 0 (fun _ => c) = fun _ => (1 + (n - 1) * a) * c := by
    intro c
    funext i
    have := uniformMatrix_mulVec n a (fun _ => c) i
    rw [Finset.sum_const, Finset.card_univ, Fintype.card_fin, nsmul_eq_mul] at this
    change (uniformMatrix n a).mulVec (fun _ => c) i = _
    rw [this]
    ring
  have hd : ∀ i, uniformMatrix n a i i = 1 := fun i => by simp [uniformMatrix]
  have hB : ∀ (r : Fin n → K) (i : Fin n),
      relaxVmult kind (uniformMatrix n a) ((List.finRange n).map fun i => [i]) r i = r i := by
    intro r i
    rw [relaxVmult_single kind (uniformMatrix n a) (fun i => by rw [hd]; exact one_ne_zero), hd, div_one]
  have hrich : ∀ c : K, richardson D 0 0 (fun _ => c) = fun _ => -((n - 1) * a) * c := by
    intro c
    funext i
    rw [richardson, hAc, zero_sub]
    change c + relaxVmult kind (uniformMatrix n a) _ _ i = _
    refine (congrArg (c + ·) (hB (-fun _ => (1 + (n - 1) * a) * c) i)).trans ?_
    change c + -((1 + ((n : K) - 1) * a) * c) = -(((n : K) - 1) * a) * c
    ring
  have hiter : ∀ (m : ℕ) (c : K), (richardson D 0 0)^[m] (fun _ => c)
      = fun _ => (-((n - 1) * a)) ^ m * c := by
    intro m
    induction m with
    | zero => intro c; simp
    | succ m ih =>
      intro c
      rw [Function.iterate_succ_apply, hrich, ih]
      funext i
      ring
  have hzero : ∀ c : K, D.R 0 (0 - D.A 0 (fun _ => c)) = 0 := by
    intro c
    rw [zero_sub, map_neg, hAc]
    have := differenceRow_const n (by omega) ((1 + ((n : K) - 1) * a) * c)
    change -(differenceRow n 0).mulVec (fun _ => (1 + ((n : K) - 1) * a) * c) = 0
    rw [this, neg_zero]
  simp only [Bool.false_eq_true, if_false, cycle, Nat.reduceSub]
  rw [hiter, hzero, map_zero, map_zero, add_zero, hiter]
  funext i
  rw [two_mul, pow_add, ← mul_assoc]
  congr 1
  rw [← pow_add, ← pow_add, ← two_mul, pow_mul, pow_mul, neg_sq]

end

/-! ### Rate of convergence -/

theorem continuous_energyOf {n : ℕ} (A : Matrix (Fin n) (Fin n) ℝ) : Continuous (energyOf A) := by
  have h : energyOf A = fun e => ∑ i, e i * ∑ j, A i j * e j := by
    funext e
    rfl
  rw [h]
  fun_prop

theorem energyOf_smul {n : ℕ} (A : Matrix (Fin n) (Fin n) ℝ) (c : ℝ) (e : Fin n → ℝ) :
    energyOf A (c • e) = c * c * energyOf A e := by
  unfold energyOf
  rw [Matrix.mulVec_smul, dotProduct_smul, smul_dotProduct, smul_eq_mul, smul_eq_mul, mul_assoc]

/-- A linear map that decreases the energy of every nonzero vector decreases it by a fixed factor. -/
theorem uniform_rate {n : ℕ} (A : Matrix (Fin n) (Fin n) ℝ) (hA : IsSpd A)
    (E : (Fin n → ℝ) →ₗ[ℝ] (Fin n → ℝ)) (hE : ∀ e, e ≠ 0 → energyOf A (E e) < energyOf A e) :
    ∃ q : ℝ, 0 ≤ q ∧ q < 1 ∧ ∀ e, energyOf A (E e) ≤ q * energyOf A e := by
  have hcE : Continuous E := LinearMap.continuous_of_finiteDimensional E
  have hpos : ∀ e, e ≠ 0 → 0 < energyOf A e := hA.2
  have hnn : ∀ e, 0 ≤ energyOf A e := by
    intro e
    by_cases he : e = 0
    · subst he; simp [energyOf]
    · exact (hpos e he).le
  by_cases hne : (Metric.sphere (0 : Fin n → ℝ) 1).Nonempty
  · have hmem : ∀ e ∈ Metric.sphere (0 : Fin n → ℝ) 1, e ≠ 0 := by
      intro e he h0
      rw [mem_sphere_zero_iff_norm, h0, norm_zero] at he
      exact zero_ne_one he
    obtain ⟨e0, he0, hmax⟩ := (isCompact_sphere (0 : Fin n → ℝ) 1).exists_isMaxOn hne
      (f := fun e => energyOf A (E e) / energyOf A e)
      (((continuous_energyOf A).comp hcE).continuousOn.div (continuous_energyOf A).continuousOn
        fun e he => (hpos e (hmem e he)).ne')
    refine ⟨energyOf A (E e0) / energyOf A e0, div_nonneg (hnn _) (hnn _), ?_, ?_⟩
    · rw [div_lt_one (hpos e0 (hmem e0 he0))]
      exact hE e0 (hmem e0 he0)
    · intro e
      by_cases he : e = 0
      · subst he
        simp [energyOf]
      · have hn : ‖e‖ ≠ 0 := norm_ne_zero_iff.2 he
        have hu : (‖e‖⁻¹ • e) ∈ Metric.sphere (0 : Fin n → ℝ) 1 := by
          rw [mem_sphere_zero_iff_norm, norm_smul, norm_inv, norm_norm, inv_mul_cancel₀ hn]
        have h1 : energyOf A (E (‖e‖⁻¹ • e)) / energyOf A (‖e‖⁻¹ • e)
            ≤ energyOf A (E e0) / energyOf A e0 := hmax hu
        rw [map_smul, energyOf_smul, energyOf_smul, mul_div_mul_left _ _ (mul_ne_zero (inv_ne_zero hn)
          (inv_ne_zero hn)), div_le_iff₀ (hpos e he)] at h1
        exact h1
  · refine ⟨0, le_refl _, zero_lt_one, ?_⟩
    intro e
    have he : e = 0 := by
      by_contra he
      refine hne ⟨‖e‖⁻¹ • e, ?_⟩
      rw [mem_sphere_zero_iff_norm, norm_smul, norm_inv, norm_norm,
        inv_mul_cancel₀ (norm_ne_zero_iff.2 he)]
    subst he
    simp [energyOf]

/-- **C75**, rate of convergence: under the hypotheses of `C75_cycle_partial`, for real numbers, there is a
`q < 1` depending on the hierarchy only such that `m` cycles reduce the energy of the error at least by the
factor `q ^ m`, for every right-hand side and initial guess. -/
theorem C75_rate_partial (debug timer : Bool) (p : Params) (type : Option (List Char))
    (htype : dealiiSmoother debug true type = .ok .symmetricGaussSeidel ∨
      dealiiSmoother debug true type = .ok .gaussSeidel) (dims : ℕ → ℕ)
    (own : ∀ l, List (Fin (dims l))) (hown : ∀ l, ListsAll (own l))
    (A : Matrix (Fin (dims 0)) (Fin (dims 0)) ℝ) (hA : IsSpd A)
    (R : ∀ l, Matrix (Fin (dims (l + 1))) (Fin (dims l)) ℝ) (hR : ∀ l, IndependentRows (R l))
    (solve : ∀ l, Matrix (Fin (dims l)) (Fin (dims l)) ℝ → (Fin (dims l) → ℝ) → Fin (dims l) → ℝ)
    (hsolve : ∀ l, SolvesExactly (solve l)) (hlev : 2 ≤ p.maxLevels.getD 2)
    (hfast : p.fastAp.getD false = false) (hpre : p.isPreconditioner = some false)
    (hsteps : 0 < toUnsigned (p.nSmoothingSteps.getD 1)) :
    ∃ H, (buildHierarchy debug timer (some p)
        (.ok (matrixHelpers debug type dims (fun l => [own l]) A R solve))).result = .ok H ∧
      ∃ q : ℝ, 0 ≤ q ∧ q < 1 ∧ ∀ b xs, A.mulVec xs = b → ∀ x : ℕ → Fin (dims 0) → ℝ,
        (∀ m, ∃ fresh, (H.vmult fresh (x m) b).result = .ok (x (m + 1))) →
        ∀ m, energyOf A (xs - x m) ≤ q ^ m * energyOf A (xs - x 0) := by
  obtain ⟨k, kind, hk, hk'⟩ : ∃ k kind, dealiiSmoother debug true type = .ok k ∧
      k.relaxation = some kind := by
    rcases htype with h | h
    · exact ⟨_, _, h, rfl⟩
    · exact ⟨_, _, h, rfl⟩
  obtain ⟨H, hH, hlin, hL, hp, hn⟩ := matrixHelpers_build debug timer p type k kind hk hk' dims
    (fun l => [own l]) A hA R hR solve hsolve (by omega) hfast
  obtain ⟨H', hH', hdec⟩ := C75_cycle_partial debug timer p type htype dims own hown A hA R hR solve
    hsolve hlev hfast hpre hsteps
  obtain rfl := Outcome.ok.inj (hH'.symm.trans hH)
  refine ⟨H', hH, ?_⟩
  have hp' : H'.isPreconditioner = false := by rw [hp, hpre]; rfl
  have hL2 : 2 ≤ H'.numLevels := by omega
  set D := matrixData kind dims (fun l => [own l]) A R with hD
  set E : (Fin (dims 0) → ℝ) →ₗ[ℝ] (Fin (dims 0) → ℝ) :=
    LinearMap.id - (M D H'.nSmoothingSteps (H'.numLevels - 1) 0).comp (D.A 0) with hE
  have hv := fun fresh x b => vmult_sa H' D hlin hp' hL2 fresh x b
  obtain ⟨q, h0, h1, h2⟩ := uniform_rate A hA E (by
    intro e he
    obtain ⟨y, hy, hlt⟩ := hdec 0 0 (A.mulVec e) e rfl (Ne.symm he)
    rw [hv] at hy
    rw [← Outcome.ok.inj hy, sub_zero, map_zero, sub_zero, zero_add] at hlt
    exact hlt)
  refine ⟨q, h0, h1, ?_⟩
  intro b xs hxs x hx m
  induction m with
  | zero => simp
  | succ m ih =>
    obtain ⟨fresh, hf⟩ := hx m
    rw [hv] at hf
    have herr : xs - x (m + 1) = E (xs - x m) := by
      rw [← Outcome.ok.inj hf, ← hxs]
      change xs - (x m + M D _ _ 0 (D.A 0 xs - D.A 0 (x m))) = (xs - x m) - M D _ _ 0 (D.A 0 (xs - x m))
      rw [map_sub (D.A 0), sub_sub]
    rw [herr]
    refine (h2 _).trans ?_
    rw [pow_succ', mul_assoc]
    exact mul_le_mul_of_nonneg_left ih h0

/-! ### Concrete cases -/

/-- Gaussian elimination on paper: the exact solver of the examples. -/
noncomputable def exInvSolve (l : ℕ) (dims : ℕ → ℕ) {K : Type} [Field K]
    (M : Matrix (Fin (dims l)) (Fin (dims l)) K) (b : Fin (dims l) → K) : Fin (dims l) → K :=
  M⁻¹.mulVec b

theorem exInvSolve_exact (dims : ℕ → ℕ) {K : Type} [Field K] (l : ℕ) :
    SolvesExactly (exInvSolve (K := K) l dims) := by
  intro M b h
  unfold exInvSolve
  rw [Matrix.mulVec_mulVec, Matrix.mul_nonsing_inv _ (Ne.isUnit h), Matrix.one_mulVec]

/-- Default parameters in standalone mode, four unknowns that are all coupled, one coarse unknown: the rate
theorem applies. -/
example : ∃ H, (buildHierarchy true false (some { isPreconditioner := some false })
      (.ok (matrixHelpers true none (twoDims 4) (fun _ => [List.finRange _])
        (uniformMatrix 4 (1 / 2 : ℝ)) (differenceRow 4) (fun l => exInvSolve l (twoDims 4))))).result = .ok H ∧
    ∃ q : ℝ, 0 ≤ q ∧ q < 1 ∧ ∀ b xs, (uniformMatrix 4 (1 / 2 : ℝ)).mulVec xs = b →
      ∀ x : ℕ → Fin 4 → ℝ, (∀ m, ∃ fresh, (H.vmult fresh (x m) b).result = .ok (x (m + 1))) →
        ∀ m, energyOf (uniformMatrix 4 (1 / 2 : ℝ)) (xs - x m)
          ≤ q ^ m * energyOf (uniformMatrix 4 (1 / 2 : ℝ)) (xs - x 0) :=
  C75_rate_partial true false _ none (Or.inl rfl) (twoDims 4) (fun _ => List.finRange _)
    (fun _ => ⟨List.nodup_finRange _, List.mem_finRange⟩) _
    (uniformMatrix_spd 4 (1 / 2) (by norm_num) (by norm_num)) _
    (fun l => differenceRow_independent 4 (by norm_num) l) _ (fun l => exInvSolve_exact _ l) (by decide)
    rfl rfl (by decide)

/-- The same problem as a preconditioner, three smoothing steps. -/
example : ∃ H, (buildHierarchy true false (some { nSmoothingSteps := some 3 })
      (.ok (matrixHelpers true (some (chars! "SYMMETRIC Gauss-Seidel")) (twoDims 4)
        (fun _ => [List.finRange _])
        (uniformMatrix 4 (1 / 2 : ℚ)) (differenceRow 4) (fun l => exInvSolve l (twoDims 4))))).result = .ok H ∧
    ∃ M : Matrix (Fin 4) (Fin 4) ℚ, IsSpd M ∧
      ∀ fresh x b, (H.vmult fresh x b).result = .ok (M.mulVec b) :=
  C75_preconditioner_partial true false _ _ rfl (twoDims 4) (fun _ => List.finRange _)
    (fun _ => ⟨List.nodup_finRange _, List.mem_finRange⟩) _
    (uniformMatrix_spd 4 (1 / 2) (by norm_num) (by norm_num)) _
    (fun l => differenceRow_independent 4 (by norm_num) l) _ (fun l => exInvSolve_exact _ l) (by decide)
    rfl rfl (by decide)

/-- Four processes with one unknown each, default parameters in standalone mode: the cycle diverges. -/
example : IsSpd (uniformMatrix 4 (1 / 2 : ℚ)) ∧
    (∀ l, IndependentRows (differenceRow (K := ℚ) 4 l)) ∧
    ∃ H, (buildHierarchy true false (some { isPreconditioner := some false })
      (.ok (matrixHelpers true none (twoDims 4) (fun _ => (List.finRange _).map fun i => [i])
        (uniformMatrix 4 (1 / 2 : ℚ)) (differenceRow 4) (fun l => exInvSolve l (twoDims 4))))).result = .ok H ∧
      ∃ q : ℚ, 1 < q ∧ ∀ fresh (c : ℚ), ∃ y,
        (H.vmult fresh (fun _ => c) 0).result = .ok y ∧ y = fun _ => q * c :=
  C75_cycle_violated true false _ none _ rfl (by decide) 4 (by norm_num) (1 / 2) (by norm_num)
    (by norm_num) _ (fun l => exInvSolve_exact _ l) rfl rfl rfl (by decide)

/-- Jacobi converges for two unknowns on two processes, one of them coupled by `1 / 2` to the other. -/
example : (∀ i : Fin 2, ([[1], [0]] : List (List (Fin 2))).countP (fun own => i ∈ own) = 1) ∧
    ∀ w : Fin 2 → ℚ, w ≠ 0 → 0 < w ⬝ᵥ (2 • Matrix.diagonal (fun i => uniformMatrix 2 (1 / 2 : ℚ) i i)
      - uniformMatrix 2 (1 / 2)).mulVec w := by
  refine ⟨by decide, ?_⟩
  intro w hw
  have h : w ⬝ᵥ (2 • Matrix.diagonal (fun i => uniformMatrix 2 (1 / 2 : ℚ) i i)
      - uniformMatrix 2 (1 / 2)).mulVec w = w 0 * w 0 - w 0 * w 1 + w 1 * w 1 := by
    rw [two_nsmul]
    simp [dotProduct, Matrix.mulVec, Fin.sum_univ_two, uniformMatrix]
    ring
  rw [h]
  have h1 : w 0 ≠ 0 ∨ w 1 ≠ 0 := by
    by_contra hc
    push Not at hc
    apply hw
    funext i
    match i with
    | 0 => exact hc.1
    | 1 => exact hc.2
  rcases h1 with h1 | h1
  · have := mul_self_pos.2 h1
    nlinarith [mul_self_nonneg (w 0 - 2 * w 1)]
  · have := mul_self_pos.2 h1
    nlinarith [mul_self_nonneg (w 1 - 2 * w 0)]

end Mfmg
