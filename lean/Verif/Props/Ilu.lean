import Verif.Lemmas.IluFactors
import Verif.Props.RelaxationProcs

/-!
# The incomplete factorisation smoother (C88)
-/

set_option autoImplicit false

namespace Mfmg

open Spec

/-! ### The preconditioner -/

section

variable {K : Type} [Field K] {n : ℕ}

/-- **C88**, what is computed: if no pivot is zero, one application of the preconditioner solves exactly with
an incomplete factorisation of the matrix, on any number of processes. -/
theorem C88_factors (graph : Fin n → Fin n → Bool) (procs : List (List (Fin n)))
    (hprocs : ListsAll procs.flatten) (A : Matrix (Fin n) (Fin n) K) (hg : IsGraph graph A)
    (hpiv : ∀ own ∈ procs, ∀ k ∈ own, iluFactor graph own A k k ≠ 0) :
    ∃ L U, IsIncompleteLU graph procs A L U ∧
      ∀ r, (L * U).mulVec (iluVmult graph A procs r) = r := by
  have hp := nonzeroPivots_procs hprocs.1 A hpiv
  obtain ⟨L, U, h, hLU⟩ := ilu_factors hprocs A hg hp
  exact ⟨L, U, h, fun r => by rw [hLU, iluMatrix_vmult hprocs A hp]⟩

/-- **C88**: for symmetric matrices the preconditioner is symmetric. -/
theorem C88_symmetric (graph : Fin n → Fin n → Bool) (hgs : ∀ i j, graph i j = graph j i)
    (procs : List (List (Fin n))) (hprocs : ListsAll procs.flatten) (A : Matrix (Fin n) (Fin n) K)
    (hA : A.transpose = A) (hpiv : ∀ own ∈ procs, ∀ k ∈ own, iluFactor graph own A k k ≠ 0)
    (r s : Fin n → K) : iluVmult graph A procs r ⬝ᵥ s = r ⬝ᵥ iluVmult graph A procs s := by
  have hp := nonzeroPivots_procs hprocs.1 A hpiv
  have hM := iluMatrix_symm (procs := procs) hA hgs
  conv_lhs => rw [← iluMatrix_vmult hprocs A hp s]
  conv_rhs => rw [← iluMatrix_vmult hprocs A hp r]
  rw [form_symm hM, dotProduct_comm]

theorem err_ilu (graph : Fin n → Fin n → Bool) (procs : List (List (Fin n)))
    (A : Matrix (Fin n) (Fin n) K) (b x xs : Fin n → K) (hxs : A.mulVec xs = b) :
    xs - iluSmootherApply graph procs (matrixOp A) b x
      = (xs - x) - iluVmult graph A procs (A.mulVec (xs - x)) := by
  have h0 : iluSmootherApply graph procs (matrixOp A) b x = x - iluVmult graph A procs (A.mulVec x - b) := by
    simp only [iluSmootherApply, entriesOf_eq (matrixOp A) A fun _ => rfl]
    rfl
  have h1 : A.mulVec x - b = -A.mulVec (xs - x) := by rw [Matrix.mulVec_sub, hxs]; abel
  have h2 : iluVmult graph A procs (-A.mulVec (xs - x))
      = -iluVmult graph A procs (A.mulVec (xs - x)) := map_neg (iluLin graph A procs) _
  rw [h0, h1, h2]
  abel

end

section

variable {K : Type} [Field K] [LinearOrder K] [IsStrictOrderedRing K] {n : ℕ}

/-- **C88**, when the factorisation is complete: on one process, for a symmetric positive definite matrix
whose graph needs no fill in the order of the rows (a tridiagonal matrix, for instance), one smoothing step
gives the solution. -/
theorem C88_exact (graph : Fin n → Fin n → Bool) (hgs : ∀ i j, graph i j = graph j i)
    (own : List (Fin n)) (hown : ListsAll own) (hfill : NoFill graph own)
    (A : Matrix (Fin n) (Fin n) K) (hA : IsSpd A) (hg : IsGraph graph A) (b x xs : Fin n → K)
    (hxs : A.mulVec xs = b) : iluSmootherApply graph [own] (matrixOp A) b x = xs := by
  have hflat : [own].flatten = own := by simp
  have hall : ListsAll [own].flatten := by rw [hflat]; exact hown
  have hs : ∀ i j, sameProc [own] i j = true := fun i j =>
    sameProc_iff.2 ⟨own, by simp, hown.2 i, hown.2 j⟩
  have hu : uncouple [own] A = A := by
    ext i j
    simp [uncouple, hs i j]
  have hug : uncoupleGraph [own] graph = graph := by
    funext i j
    simp [uncoupleGraph, hs i j]
  have hsym : ∀ i j, A i j = A j i := fun i j => by
    conv_lhs => rw [← hA.1]
    rfl
  have hoff : ∀ i ∈ own, ∀ j ∈ own, graph i j = false → A i j = 0 := by
    intro i _ j _ h
    by_contra h0
    rw [hg.entry i j h0] at h
    cases h
  have hp : PosPivots graph own A := by
    refine noFill_posPivots own hown.1 hfill hsym hgs hoff ?_
    rintro y ⟨i, _, hy⟩
    rw [listForm_all hown]
    exact hA.2 y fun h => hy (by rw [h]; rfl)
  have hM : iluMatrix graph [own] A = A := by
    ext i j
    rw [iluMatrix, hu, hug, hflat]
    exact iluProd_noFill own hown.1 hfill A hoff (hown.2 i) (hown.2 j)
  have hsolve := iluMatrix_vmult hall A (by rw [hu, hug, hflat]; exact hp.nonzero)
    (A.mulVec (xs - x))
  rw [hM] at hsolve
  have h := err_ilu graph [own] A b x xs hxs
  rw [mulVec_injective hA hsolve, sub_self] at h
  exact (sub_eq_zero.1 h).symm

section

variable [Archimedean K]

omit [LinearOrder K] [IsStrictOrderedRing K] [Archimedean K] in
theorem ilu_energy {A M : Matrix (Fin n) (Fin n) K} (hA : A.transpose = A) (e w : Fin n → K)
    (hw : M.mulVec w = A.mulVec e) :
    energyOf A (e - w) = energyOf A e - (2 * (w ⬝ᵥ M.mulVec w) - w ⬝ᵥ A.mulVec w) := by
  unfold energyOf
  rw [Matrix.mulVec_sub, sub_dotProduct, dotProduct_sub, dotProduct_sub, form_symm hA e w, hw]
  ring

theorem ilu_decreases (graph : Fin n → Fin n → Bool) (hgs : ∀ i j, graph i j = graph j i)
    (procs : List (List (Fin n))) (hprocs : ListsAll procs.flatten) (A : Matrix (Fin n) (Fin n) K)
    (hA : IsStieltjes A) (hg : IsGraph graph A) (e : Fin n → K) (he : e ≠ 0) :
    energyOf A (e - iluVmult graph A procs (A.mulVec e)) < energyOf A e := by
  obtain ⟨hspd, hsolve, hlt⟩ := iluMatrix_stieltjes hprocs hA hg hgs
  rw [ilu_energy hA.1.1 e _ (hsolve _)]
  have hw : iluVmult graph A procs (A.mulVec e) ≠ 0 := by
    intro h0
    have := hsolve (A.mulVec e)
    rw [h0, Matrix.mulVec_zero] at this
    exact spd_mulVec_ne hA.1 he this.symm
  linarith [hlt _ hw]

/-- **C88**, one smoothing step: for Stieltjes matrices (symmetric positive definite, no positive entries off
the diagonal) incomplete factorisation decreases the energy of the error on any number of processes.  Missing:
other symmetric positive definite matrices (see `C88_cycle_violated`). -/
theorem C88_smoother_partial (graph : Fin n → Fin n → Bool) (hgs : ∀ i j, graph i j = graph j i)
    (procs : List (List (Fin n))) (hprocs : ListsAll procs.flatten) (A : Matrix (Fin n) (Fin n) K)
    (hA : IsStieltjes A) (hg : IsGraph graph A) (b x xs : Fin n → K) (hxs : A.mulVec xs = b)
    (hx : x ≠ xs) :
    energyOf A (xs - iluSmootherApply graph procs (matrixOp A) b x) < energyOf A (xs - x) := by
  rw [err_ilu graph procs A b x xs hxs]
  exact ilu_decreases graph hgs procs hprocs A hA hg _ (sub_ne_zero.2 (Ne.symm hx))

/-- **C88**, no overshoot: for Stieltjes matrices a vector that nowhere exceeds the solution still does not
after a smoothing step. -/
theorem C88_monotone_partial (graph : Fin n → Fin n → Bool) (hgs : ∀ i j, graph i j = graph j i)
    (procs : List (List (Fin n))) (hprocs : ListsAll procs.flatten) (A : Matrix (Fin n) (Fin n) K)
    (hA : IsStieltjes A) (hg : IsGraph graph A) (b x xs : Fin n → K) (hxs : A.mulVec xs = b)
    (hx : ∀ i, x i ≤ xs i) (i : Fin n) :
    iluSmootherApply graph procs (matrixOp A) b x i ≤ xs i := by
  obtain ⟨hspd, hsolve, -⟩ := iluMatrix_stieltjes hprocs hA hg hgs
  have hM := uncouple_listM hprocs hA hg
  have herr := err_ilu graph procs A b x xs hxs
  set e := xs - x with he
  set w := e - iluVmult graph A procs (A.mulVec e) with hw
  have hMw : (iluMatrix graph procs A).mulVec w = (iluMatrix graph procs A - A).mulVec e := by
    rw [hw, Matrix.mulVec_sub, hsolve, Matrix.sub_mulVec]
  have hww : w = iluVmult graph A procs ((iluMatrix graph procs A - A).mulVec e) :=
    mulVec_injective hspd (by rw [hsolve, hMw])
  have hnn : 0 ≤ w i := by
    rw [hww, iluVmult_eq hprocs.1]
    refine hM.solve_nonneg _ hprocs.1 (fun i _ => ?_) i
    change 0 ≤ ∑ j, (iluMatrix graph procs A - A) i j * e j
    refine Finset.sum_nonneg fun j _ => mul_nonneg ?_ (sub_nonneg.2 (hx j))
    rw [Matrix.sub_apply, sub_nonneg]
    exact (uncouple_le hprocs hA.2 i j).trans (hM.le_prod _ hprocs.1 (hprocs.2 i) (hprocs.2 j))
  rw [← herr, Pi.sub_apply] at hnn
  linarith

end

/-! ### The hierarchy -/

/-- The linear maps of the hierarchy with this smoother. -/
noncomputable def iluData (dims : ℕ → ℕ) (procs : ∀ l, List (List (Fin (dims l))))
    (graph : ∀ l, Fin (dims l) → Fin (dims l) → Bool) (A : Matrix (Fin (dims 0)) (Fin (dims 0)) K)
    (R : ∀ l, Matrix (Fin (dims (l + 1))) (Fin (dims l)) K) : Data K (fun l => Fin (dims l) → K) :=
  { matrixData .jacobi dims procs A R with
    B := fun l => iluLin (graph l) (coarseMatrix dims A R l) (procs l) }

omit [IsStrictOrderedRing K] in
theorem iluData_chain (dims : ℕ → ℕ) (procs : ∀ l, List (List (Fin (dims l))))
    (graph : ∀ l, Fin (dims l) → Fin (dims l) → Bool) (A : Matrix (Fin (dims 0)) (Fin (dims 0)) K)
    (hA : IsSpd A) (R : ∀ l, Matrix (Fin (dims (l + 1))) (Fin (dims l)) K)
    (hR : ∀ l, IndependentRows (R l)) (L : ℕ) :
    GalerkinChain (iluData dims procs graph A R) (fun l => dotForm (dims l)) L :=
  have h := matrixData_chain .jacobi dims procs A hA R hR L
  ⟨h.form, h.A, h.RP, h.galerkin, h.psd, h.solvable, h.exact⟩

omit [IsStrictOrderedRing K] in
/-- Construction gives the textbook hierarchy. -/
theorem fullHelpers_build (debug timer : Bool) (p : Params) (type : Option (List Char))
    (hk : dealiiSmoother debug true type = .ok .ilu) (dims : ℕ → ℕ)
    (procs : ∀ l, List (List (Fin (dims l)))) (graph : ∀ l, Fin (dims l) → Fin (dims l) → Bool)
    (A : Matrix (Fin (dims 0)) (Fin (dims 0)) K) (hA : IsSpd A)
    (R : ∀ l, Matrix (Fin (dims (l + 1))) (Fin (dims l)) K) (hR : ∀ l, IndependentRows (R l))
    (solve : ∀ l, Matrix (Fin (dims l)) (Fin (dims l)) K → (Fin (dims l) → K) → Fin (dims l) → K)
    (hsolve : ∀ l, SolvesExactly (solve l)) (hpos : 0 < p.maxLevels.getD 2)
    (hfast : p.fastAp.getD false = false) :
    ∃ H, (buildHierarchy debug timer (some p)
        (.ok (fullHelpers debug type dims procs graph A R solve))).result = .ok H ∧
      IsLinear H (iluData dims procs graph A R) ∧ H.numLevels = (p.maxLevels.getD 2).toNat ∧
      H.isPreconditioner = p.isPreconditioner.getD true ∧
      H.nSmoothingSteps = toUnsigned (p.nSmoothingSteps.getD 1) := by
  set h := fullHelpers debug type dims procs graph A R solve with hh
  have hsm : ∀ l a, h.buildSmoother l a p = .ok (iluSmootherApply (graph l) (procs l) a) := by
    intro l a
    simp [hh, fullHelpers, hk, SmootherKind.relaxation]
  obtain ⟨H, hH⟩ := C08_construction_succeeds debug timer p h hpos ⟨_, rfl⟩
    (fun l a => ⟨_, hsm l a⟩) (fun l => ⟨_, rfl⟩)
    (by rw [hfast]; exact fun l a r => ⟨_, rfl⟩) (fun l r ap => ⟨_, rfl⟩) (fun l a p => ⟨_, rfl⟩)
  refine ⟨H, hH, ?_⟩
  obtain ⟨h', p', a, L, e1, e2, hpos', ha, hL, rfl⟩ := (build_ok _ _ _ _ _).mp hH
  obtain rfl := Outcome.ok.inj e1
  obtain rfl := Option.some.inj e2
  obtain ⟨hF, h0⟩ := buildLoop_final h p timer _ ((p.maxLevels.getD 2).toNat - 1) 0 (by omega) _ _
    (initInv h p a) hL
  refine ⟨?_, rfl, rfl, rfl⟩
  have hop : ∀ l, l < (p.maxLevels.getD 2).toNat → ∃ o, (L l).operator = some o ∧
      ∀ x, o.fwd x = (coarseMatrix dims A R l).mulVec x := by
    intro l
    induction l with
    | zero =>
      intro _
      have ha' : matrixOp A = a := Outcome.ok.inj ha
      refine ⟨a, by rw [h0]; simp [initLevels], ?_⟩
      intro x
      rw [← ha']
      rfl
    | succ l ih =>
      intro hl
      obtain ⟨o, ho, hox⟩ := ih (by omega)
      obtain ⟨a, s, r, ap, ac, h1, h2, h3, h4, h5, h6, h7, h8⟩ := hF.prev l hl
      refine ⟨ac, h4, ?_⟩
      intro x
      obtain rfl := Option.some.inj (ho.symm.trans h1)
      have e6 : matrixOp (R l) = r := Outcome.ok.inj h6
      have e7 : o.mulTranspose r = ap := by
        simp only [chooseAP, hfast, Bool.false_eq_true, if_false] at h7
        exact Outcome.ok.inj h7
      have e8 : r.mul ap = ac := Outcome.ok.inj h8
      rw [← e8, ← e7, ← e6]
      simp only [Op.mul, Op.mulTranspose, matrixOp, hox, coarseMatrix, galerkin]
      rw [← Matrix.mulVec_mulVec, ← Matrix.mulVec_mulVec]
  refine ⟨by dsimp; omega, ?_, ?_, ?_, ?_⟩
  · intro l hl
    exact hop l hl
  · intro l hl
    obtain ⟨a, s, r, ap, ac, h1, h2, h3, h4, h5, h6, h7, h8⟩ := hF.prev l hl
    obtain ⟨o, ho, hox⟩ := hop l (lt_trans (Nat.lt_succ_self l) hl)
    obtain rfl := Option.some.inj (ho.symm.trans h1)
    refine ⟨s, h2, ?_⟩
    intro b x
    rw [hsm] at h5
    rw [← Outcome.ok.inj h5]
    simp only [iluSmootherApply, entriesOf_eq o _ hox, hox]
    rfl
  · intro l hl
    obtain ⟨a, s, r, ap, ac, h1, h2, h3, h4, h5, h6, h7, h8⟩ := hF.prev l hl
    have e6 : matrixOp (R l) = r := Outcome.ok.inj h6
    exact ⟨r, h3, fun x => by rw [← e6]; rfl, fun y => by rw [← e6]; rfl⟩
  · have hl : (p.maxLevels.getD 2).toNat - 1 + 1 = (p.maxLevels.getD 2).toNat := by omega
    obtain ⟨a, s, h1, h2, h3⟩ := hF.last _ hl
    obtain ⟨o, ho, hox⟩ := hop ((p.maxLevels.getD 2).toNat - 1) (by omega)
    obtain rfl := Option.some.inj (ho.symm.trans h1)
    refine ⟨s, h2, ?_⟩
    intro b
    have hspd := coarseMatrix_spd dims A hA R hR ((p.maxLevels.getD 2).toNat - 1)
    have e3 := Outcome.ok.inj h3
    rw [← e3]
    apply mulVec_injective hspd
    change _ = (coarseMatrix dims A R _).mulVec ((coarseMatrix dims A R _)⁻¹.mulVec b)
    rw [mulVec_inv (spd_det hspd)]
    change (coarseMatrix dims A R _).mulVec (solve _ (entriesOf o) b) = b
    rw [entriesOf_eq o _ hox]
    exact hsolve _ _ b (spd_det hspd)

section

variable [Archimedean K]

/-- **C88**, the whole cycle on any number of processes: with incomplete factorisation smoothing, two or more
levels, at least one smoothing step, restriction matrices of full rank and Stieltjes matrices on every level
but the coarsest, construction succeeds and every standalone cycle decreases the energy of the error.
Missing: other symmetric positive definite matrices (see `C88_cycle_violated`). -/
theorem C88_cycle_partial (debug timer : Bool) (p : Params) (type : Option (List Char))
    (htype : dealiiSmoother debug true type = .ok .ilu) (dims : ℕ → ℕ)
    (procs : ∀ l, List (List (Fin (dims l)))) (hprocs : ∀ l, ListsAll (procs l).flatten)
    (graph : ∀ l, Fin (dims l) → Fin (dims l) → Bool)
    (A : Matrix (Fin (dims 0)) (Fin (dims 0)) K) (hA : IsSpd A)
    (R : ∀ l, Matrix (Fin (dims (l + 1))) (Fin (dims l)) K) (hR : ∀ l, IndependentRows (R l))
    (hst : ∀ l : ℕ, l + 1 < (p.maxLevels.getD 2).toNat → IsStieltjes (coarseMatrix dims A R l) ∧
      IsGraph (graph l) (coarseMatrix dims A R l) ∧ ∀ i j, graph l i j = graph l j i)
    (solve : ∀ l, Matrix (Fin (dims l)) (Fin (dims l)) K → (Fin (dims l) → K) → Fin (dims l) → K)
    (hsolve : ∀ l, SolvesExactly (solve l)) (hlev : 2 ≤ p.maxLevels.getD 2)
    (hfast : p.fastAp.getD false = false) (hpre : p.isPreconditioner = some false)
    (hsteps : 0 < toUnsigned (p.nSmoothingSteps.getD 1)) :
    ∃ H, (buildHierarchy debug timer (some p)
        (.ok (fullHelpers debug type dims procs graph A R solve))).result = .ok H ∧
      ∀ fresh (x b xs : Fin (dims 0) → K), A.mulVec xs = b → x ≠ xs →
        ∃ y, (H.vmult fresh x b).result = .ok y ∧
          energyOf A (xs - y) < energyOf A (xs - x) := by
  obtain ⟨H, hH, hlin, hL, hp, hn⟩ := fullHelpers_build debug timer p type htype dims procs graph A hA
    R hR solve hsolve (by omega) hfast
  have hp' : H.isPreconditioner = false := by rw [hp, hpre]; rfl
  have hL2 : 2 ≤ H.numLevels := by omega
  refine ⟨H, hH, ?_⟩
  intro fresh x b xs hxs hx
  refine ⟨_, C04_cycle_is_textbook H _ hlin fresh x b (Or.inr hL2), ?_⟩
  rw [hp']
  set D := iluData dims procs graph A R with hD
  have hen : ∀ l (e : Fin (dims l) → K), energy D (fun l => dotForm (dims l)) l e
      = energyOf (coarseMatrix dims A R l) e := fun l e =>
    dotProduct_comm ((coarseMatrix dims A R l).mulVec e) e
  have hchain := iluData_chain dims procs graph A hA R hR H.numLevels
  have hdec : ∀ l : ℕ, l + 1 < H.numLevels → ∀ e : Fin (dims l) → K, e ≠ 0 →
      energyOf (coarseMatrix dims A R l) (e - D.B l (D.A l e)) < energyOf (coarseMatrix dims A R l) e := by
    intro l hl e he
    obtain ⟨h1, h2, h3⟩ := hst l (by omega)
    exact ilu_decreases (graph l) h3 (procs l) (hprocs l) _ h1 h2 e he
  have hlt := cycle_energy_lt hchain (by
      intro l hl e
      rw [← hD, hen, hen]
      by_cases he : e = 0
      · subst he
        rw [map_zero, map_zero, sub_zero]
      · exact (hdec l hl e he).le)
    H.nSmoothingSteps (by omega) (H.numLevels - 1) 0 (by omega) (by omega) (by
      intro e he
      rw [← hD, hen, hen]
      refine hdec 0 (by omega) e ?_
      rintro rfl
      exact he (map_zero _))
    b x xs hxs (by
      intro h
      exact hx (mulVec_injective hA (h.trans hxs.symm)))
  rw [hen, hen] at hlt
  exact hlt

/-- **C88**, used as a preconditioner: under the same conditions one cycle is a symmetric positive definite
linear map, so that the conjugate gradient method can be used. -/
theorem C88_preconditioner_partial (debug timer : Bool) (p : Params) (type : Option (List Char))
    (htype : dealiiSmoother debug true type = .ok .ilu) (dims : ℕ → ℕ)
    (procs : ∀ l, List (List (Fin (dims l)))) (hprocs : ∀ l, ListsAll (procs l).flatten)
    (graph : ∀ l, Fin (dims l) → Fin (dims l) → Bool)
    (A : Matrix (Fin (dims 0)) (Fin (dims 0)) K) (hA : IsSpd A)
    (R : ∀ l, Matrix (Fin (dims (l + 1))) (Fin (dims l)) K) (hR : ∀ l, IndependentRows (R l))
    (hst : ∀ l : ℕ, l + 1 < (p.maxLevels.getD 2).toNat → IsStieltjes (coarseMatrix dims A R l) ∧
      IsGraph (graph l) (coarseMatrix dims A R l) ∧ ∀ i j, graph l i j = graph l j i)
    (solve : ∀ l, Matrix (Fin (dims l)) (Fin (dims l)) K → (Fin (dims l) → K) → Fin (dims l) → K)
    (hsolve : ∀ l, SolvesExactly (solve l)) (hlev : 0 < p.maxLevels.getD 2)
    (hfast : p.fastAp.getD false = false) (hpre : p.isPreconditioner.getD true = true)
    (hsteps : 0 < toUnsigned (p.nSmoothingSteps.getD 1)) :
    ∃ H, (buildHierarchy debug timer (some p)
        (.ok (fullHelpers debug type dims procs graph A R solve))).result = .ok H ∧
      ∃ M : Matrix (Fin (dims 0)) (Fin (dims 0)) K, IsSpd M ∧
        ∀ fresh x b, (H.vmult fresh x b).result = .ok (M.mulVec b) := by
  obtain ⟨H, hH, hlin, hL, hp, hn⟩ := fullHelpers_build debug timer p type htype dims procs graph A hA
    R hR solve hsolve hlev hfast
  refine ⟨H, hH, ?_⟩
  have hp' : H.isPreconditioner = true := by rw [hp, hpre]
  set D := iluData dims procs graph A R with hD
  set φ : Forms K (fun l => Fin (dims l) → K) := fun l => dotForm (dims l) with hφ
  have hchain := iluData_chain dims procs graph A hA R hR H.numLevels
  have hspd := coarseMatrix_spd dims A hA R hR
  have hmat : ∀ l, l + 1 < H.numLevels → _ := fun l hl =>
    iluMatrix_stieltjes (hprocs l) (hst l (by omega)).1 (hst l (by omega)).2.1 (hst l (by omega)).2.2
  have hsym : Symmetric D φ H.numLevels := by
    refine ⟨hchain.form, hchain.A, ?_, hchain.RP, ?_⟩
    · intro l hl x y
      obtain ⟨h1, h2, -⟩ := hmat l hl
      change iluVmult (graph l) (coarseMatrix dims A R l) (procs l) x ⬝ᵥ y
        = x ⬝ᵥ iluVmult (graph l) (coarseMatrix dims A R l) (procs l) y
      conv_lhs => rw [← h2 y]
      conv_rhs => rw [← h2 x]
      rw [form_symm h1.1, dotProduct_comm]
    · intro l _ x y
      have hi : ((coarseMatrix dims A R l)⁻¹).transpose = (coarseMatrix dims A R l)⁻¹ := by
        rw [Matrix.transpose_nonsing_inv, (hspd l).1]
      change (coarseMatrix dims A R l)⁻¹.mulVec x ⬝ᵥ y = x ⬝ᵥ (coarseMatrix dims A R l)⁻¹.mulVec y
      rw [dotProduct_comm, form_symm hi]
  have hB : ∀ l, l + 1 < H.numLevels → SmootherStrictlyConvergent D φ l := by
    intro l hl x hx
    obtain ⟨h1, h2, h3⟩ := hmat l hl
    set w := D.B l x with hw
    have hMw : (iluMatrix (graph l) (procs l) (coarseMatrix dims A R l)).mulVec w = x := h2 x
    have e1 : φ l (2 • w - D.B l (D.A l w)) x = 2 * (w ⬝ᵥ x) - w ⬝ᵥ (coarseMatrix dims A R l).mulVec w := by
      rw [map_sub, LinearMap.sub_apply, hsym.B l hl, ← hw, map_nsmul, LinearMap.smul_apply]
      change 2 • (w ⬝ᵥ x) - (coarseMatrix dims A R l).mulVec w ⬝ᵥ w = _
      rw [dotProduct_comm w ((coarseMatrix dims A R l).mulVec w), two_nsmul, two_mul]
    have hw0 : w ≠ 0 := by
      intro h
      rw [h, Matrix.mulVec_zero] at hMw
      exact hx hMw.symm
    have h4 := h3 w hw0
    rw [hMw] at h4
    rw [e1]
    exact sub_pos.2 h4
  have hC : ∀ l, l + 1 = H.numLevels → ∀ x, x ≠ 0 → 0 < φ l (D.C l x) x := by
    intro l _ x hx
    set u := (coarseMatrix dims A R l)⁻¹.mulVec x with hu
    have hux : (coarseMatrix dims A R l).mulVec u = x := mulVec_inv (spd_det (hspd l)) x
    have hu0 : u ≠ 0 := by
      intro h
      rw [h, Matrix.mulVec_zero] at hux
      exact hx hux.symm
    have := (hspd l).2 u hu0
    rw [hux] at this
    exact this
  refine ⟨LinearMap.toMatrix' (M D H.nSmoothingSteps (H.numLevels - 1) 0), ?_, ?_⟩
  · refine ⟨?_, ?_⟩
    · ext i j
      obtain ⟨mb, mc, h1, h2, h3⟩ := C05_preconditioner_symmetric H D hlin hp' φ hsym 0
        (Pi.single i 1) (Pi.single j 1)
      have h1' := h1 0
      have h2' := h2 0
      rw [vmult_pre H D hlin hp'] at h1' h2'
      rw [← Outcome.ok.inj h1', ← Outcome.ok.inj h2'] at h3
      have h4 : M D H.nSmoothingSteps (H.numLevels - 1) 0 (Pi.single i 1) ⬝ᵥ Pi.single j 1
          = Pi.single i 1 ⬝ᵥ M D H.nSmoothingSteps (H.numLevels - 1) 0 (Pi.single j 1) := h3
      rw [Matrix.transpose_apply, LinearMap.toMatrix'_apply, LinearMap.toMatrix'_apply]
      simpa using h4
    · intro v hv
      obtain ⟨mb, h1, h2⟩ := C52_preconditioner_positive_definite H D hlin hp' φ hsym (by omega) hB hC
        0 v hv
      have h3 := h1 0
      rw [vmult_pre H D hlin hp'] at h3
      rw [LinearMap.toMatrix'_mulVec, Outcome.ok.inj h3, dotProduct_comm]
      exact h2
  · intro fresh x b
    rw [vmult_pre H D hlin hp', LinearMap.toMatrix'_mulVec]

end

end

/-! ### Examples -/

/-- The five-point matrix on two by two points: four unknowns in a ring. -/
def exRing : Matrix (Fin 4) (Fin 4) ℚ :=
  Matrix.of ![![4, -1, 0, -1], ![-1, 4, -1, 0], ![0, -1, 4, -1], ![-1, 0, -1, 4]]

/-- Opposite unknowns are not coupled. -/
def ringGraph (i j : Fin 4) : Bool := decide (i.val + 2 ≠ j.val ∧ j.val + 2 ≠ i.val)

/-- The positions stored on each level. -/
def ringGraphs : ∀ l, Fin (twoDims 4 l) → Fin (twoDims 4 l) → Bool
  | 0 => ringGraph
  | _ + 1 => fun _ _ => true

theorem exRing_stieltjes : IsStieltjes exRing := by
  refine ⟨⟨?_, ?_⟩, ?_⟩
  · ext i j
    fin_cases i <;> fin_cases j <;> rfl
  · intro v hv
    have h : v ⬝ᵥ exRing.mulVec v = 2 * (v 0 ^ 2 + v 1 ^ 2 + v 2 ^ 2 + v 3 ^ 2)
        + ((v 0 - v 1) ^ 2 + (v 1 - v 2) ^ 2 + (v 2 - v 3) ^ 2 + (v 3 - v 0) ^ 2) := by
      simp [exRing, Matrix.mulVec, dotProduct, Fin.sum_univ_four]
      ring
    rw [h]
    obtain ⟨i, hi⟩ := Function.ne_iff.1 hv
    have hi' : 0 < v i ^ 2 := by
      have : v i ≠ 0 := hi
      positivity
    have e : v i ^ 2 ≤ v 0 ^ 2 + v 1 ^ 2 + v 2 ^ 2 + v 3 ^ 2 := by
      have := Finset.single_le_sum (f := fun i => v i ^ 2) (fun i _ => sq_nonneg (v i)) (Finset.mem_univ i)
      rwa [Fin.sum_univ_four] at this
    have := sq_nonneg (v 0 - v 1)
    have := sq_nonneg (v 1 - v 2)
    have := sq_nonneg (v 2 - v 3)
    have := sq_nonneg (v 3 - v 0)
    linarith
  · intro i j h
    fin_cases i <;> fin_cases j <;> first | exact absurd rfl h | norm_num [exRing]

theorem exRing_graph : IsGraph ringGraph exRing := by
  refine ⟨by decide, ?_⟩
  intro i j h
  fin_cases i <;> fin_cases j <;> first | rfl | exact absurd rfl h

/-- Two processes, rows 3 and 0 on the first, rows 2 and 1 on the second: no pivot is zero. -/
example : ∃ L U, IsIncompleteLU ringGraph [[3, 0], [2, 1]] exRing L U ∧
    ∀ r, (L * U).mulVec (iluVmult ringGraph exRing [[3, 0], [2, 1]] r) = r :=
  C88_factors _ _ ⟨by decide, by decide⟩ _ exRing_graph (by decide +kernel)

/-- One process: eliminating row 0 would couple rows 1 and 3, so the factorisation is not complete. -/
example : ¬ NoFill ringGraph [0, 1, 2, 3] ∧ ∀ r s : Fin 4 → ℚ,
    iluVmult ringGraph exRing [[0, 1, 2, 3]] r ⬝ᵥ s = r ⬝ᵥ iluVmult ringGraph exRing [[0, 1, 2, 3]] s :=
  ⟨fun h => absurd (h 1 3 0 (by decide) (by decide) rfl rfl) (by decide),
    C88_symmetric _ (by decide) _ ⟨by decide, by decide⟩ _ exRing_stieltjes.1.1 (by decide +kernel)⟩

/-- Three unknowns in a row: one step from any vector gives the solution. -/
example (x xs : Fin 3 → ℚ) : iluSmootherApply
    (fun i j : Fin 3 => decide (i.val ≤ j.val + 1 ∧ j.val ≤ i.val + 1)) [[0, 1, 2]]
    (matrixOp (Matrix.of ![![2, -1, 0], ![-1, 2, -1], ![0, -1, 2]]))
    ((Matrix.of ![![2, -1, 0], ![-1, 2, -1], ![0, -1, 2]]).mulVec xs) x = xs := by
  refine C88_exact _ (by decide) _ ⟨by decide, by decide⟩ (by unfold NoFill; decide) _ ⟨?_, ?_⟩
    ⟨by decide, ?_⟩ _ x xs rfl
  · ext i j
    fin_cases i <;> fin_cases j <;> rfl
  · intro v hv
    have h : v ⬝ᵥ (Matrix.of ![![2, -1, 0], ![-1, 2, -1], ![0, -1, 2]] : Matrix (Fin 3) (Fin 3) ℚ).mulVec v
        = v 0 ^ 2 + (v 0 - v 1) ^ 2 + (v 1 - v 2) ^ 2 + v 2 ^ 2 := by
      simp [dotProduct, Matrix.mulVec, Fin.sum_univ_three]
      ring
    rw [h]
    by_contra hn
    have e0 := sq_nonneg (v 0)
    have e1 := sq_nonneg (v 0 - v 1)
    have e2 := sq_nonneg (v 1 - v 2)
    have e3 := sq_nonneg (v 2)
    have h0 : v 0 = 0 := pow_eq_zero_iff two_ne_zero |>.1 (by linarith)
    have h2 : v 2 = 0 := pow_eq_zero_iff two_ne_zero |>.1 (by linarith)
    have h1 : v 0 - v 1 = 0 := pow_eq_zero_iff two_ne_zero |>.1 (by linarith)
    rw [h0, zero_sub, neg_eq_zero] at h1
    apply hv
    funext i
    fin_cases i
    · exact h0
    · exact h1
    · exact h2
  · intro i j h
    fin_cases i <;> fin_cases j <;> first | rfl | exact absurd rfl h

example (x xs : Fin 4 → ℚ) (hx : x ≠ xs) :
    energyOf exRing (xs - iluSmootherApply ringGraph [[3, 0], [2, 1]] (matrixOp exRing) (exRing.mulVec xs) x)
      < energyOf exRing (xs - x) :=
  C88_smoother_partial _ (by decide) _ ⟨by decide, by decide⟩ _ exRing_stieltjes exRing_graph _ x xs rfl hx

/-- Started from zero, the step stays below the positive solution. -/
example (i : Fin 4) :
    iluSmootherApply ringGraph [[3, 0], [2, 1]] (matrixOp exRing) (exRing.mulVec ![1, 2, 3, 4]) 0 i
      ≤ (![1, 2, 3, 4] : Fin 4 → ℚ) i :=
  C88_monotone_partial _ (by decide) _ ⟨by decide, by decide⟩ _ exRing_stieltjes exRing_graph _ 0 _ rfl
    (by decide +kernel) i

theorem exRing_levels (l : ℕ) (hl : l + 1 < 2) :
    IsStieltjes (coarseMatrix (twoDims 4) exRing (differenceRow 4) l) ∧
      IsGraph (ringGraphs l) (coarseMatrix (twoDims 4) exRing (differenceRow 4) l) ∧
      ∀ i j, ringGraphs l i j = ringGraphs l j i := by
  obtain rfl : l = 0 := by omega
  exact ⟨exRing_stieltjes, exRing_graph, by change ∀ i j, ringGraph i j = ringGraph j i; decide⟩

/-- Standalone cycles on two processes. -/
example : ∃ H, (buildHierarchy true false (some { isPreconditioner := some false })
      (.ok (fullHelpers true (some (chars! "ILU")) (twoDims 4) exTwoProcs ringGraphs
        exRing (differenceRow 4) (fun l => exInvSolve l (twoDims 4))))).result = .ok H ∧
    ∀ fresh (x b xs : Fin 4 → ℚ), exRing.mulVec xs = b → x ≠ xs →
      ∃ y : Fin 4 → ℚ, (H.vmult fresh x b).result = .ok y ∧
        energyOf exRing (xs - y) < energyOf exRing (xs - x) :=
  C88_cycle_partial true false { isPreconditioner := some false } _ rfl (twoDims 4) exTwoProcs exTwoProcs_all ringGraphs exRing
    exRing_stieltjes.1 _ (fun l => differenceRow_independent 4 (by norm_num) l) exRing_levels _
    (fun l => exInvSolve_exact _ l) (by decide) rfl rfl (by decide)

/-- The default mode, two smoothing steps. -/
example : ∃ H, (buildHierarchy true false (some { nSmoothingSteps := some 2 })
      (.ok (fullHelpers true (some (chars! "ilu")) (twoDims 4) exTwoProcs ringGraphs
        exRing (differenceRow 4) (fun l => exInvSolve l (twoDims 4))))).result = .ok H ∧
    ∃ M : Matrix (Fin 4) (Fin 4) ℚ, IsSpd M ∧
      ∀ fresh x b, (H.vmult fresh x b).result = .ok (M.mulVec b) :=
  C88_preconditioner_partial true false { nSmoothingSteps := some 2 } _ rfl (twoDims 4) exTwoProcs exTwoProcs_all ringGraphs exRing
    exRing_stieltjes.1 _ (fun l => differenceRow_independent 4 (by norm_num) l) exRing_levels _
    (fun l => exInvSolve_exact _ l) (by decide) rfl rfl (by decide)

end Mfmg
