import Verif.Lemmas.DeviceHierarchy
import Verif.Lemmas.Numbering
import Verif.Props.Relaxation
import Verif.Examples.DeviceHierarchy

/-!
# C91: the complete hierarchy on the device
-/

set_option autoImplicit false

namespace Mfmg

open Spec

section

variable {K : Type} [Field K]

theorem ofFn_vecOf {n : ℕ} {l : List K} (h : l.length = n) : List.ofFn (vecOf n l) = l := by
  apply List.ext_getElem (by simp [h])
  intro i h1 h2
  simp [vecOf, h2]

theorem vecOf_ofFn {n : ℕ} (u : Fin n → K) : vecOf n (List.ofFn u) = u := by
  funext i
  exact getD_ofFn_fin u i

theorem replicate_eq_ofFn (n : ℕ) : (List.replicate n (0 : K)) = List.ofFn (0 : Fin n → K) := by
  apply List.ext_getElem (by simp)
  intro i h1 h2
  simp

theorem devHelpers_ok (host : Bool) {n : ℕ} {ev : DevEvaluator K} {A : Matrix (Fin n) (Fin n) K}
    (h : ev.Provides A) : devHelpers host ev = .ok () := by
  unfold devHelpers
  rw [h.type]
  rcases h.dim with e | e <;> rw [e] <;> cases host <;> rfl

/-- The state of a hierarchy of two levels: what the operators store, and whether the transpose of the
restriction has been computed. -/
structure ReadyTwo {n m : ℕ} (H : DevHierarchy K) (A : Matrix (Fin n) (Fin n) K)
    (R : Matrix (Fin m) (Fin n) K) (name : List Char) (transposed : Bool) (L₀ L₁ : DevLevel K)
    (s : DevMat K) (r : DevOp K) : Prop where
  levels : H.levels = [L₀, L₁]
  fine : L₀.operator.matrix.Stores A
  smoother : L₀.smoother = some s
  diagonal : s.Stores (Matrix.diagonal fun i => (A i i)⁻¹)
  restrictor : L₁.restrictor = some r
  restriction : r.matrix.Stores R
  computed : transposed = true → ∃ t, r.transposed = some t ∧ t.Stores R.transpose
  pending : transposed = false → r.transposed = none
  coarse : L₁.operator.matrix.Stores (galerkin R A)
  solver : L₁.solver = some name

variable [LinearOrder K]

theorem devBuild_two (debug host : Bool) {dev : Device K} (hd : dev.Valid) {lib : DeviceLib K}
    (hl : lib.Correct) {p : DevParams} (hp : p.base.maxLevels.getD 2 = 2)
    (hfast : p.base.fastAp.getD false = false) (he : p.eigensolver = true) (hg : p.agglomeration = true)
    (ht : JacobiType p.smootherType) {n m : ℕ} (hn : 0 < n) {ev : DevEvaluator K}
    {A : Matrix (Fin n) (Fin n) K} (hA : ev.Provides A) (hz : ∀ i, A i i ≠ 0)
    {R : Matrix (Fin m) (Fin n) K} {r : DevMat K} (hr : ev.restrictor 0 = .ok r) (hR : r.Stores R)
    (hR0 : R ≠ 0) :
    ∃ H L₀ L₁ s, devBuild debug host dev lib p ev = .ok H ∧
      ReadyTwo H A R (lowerCase (p.solverType.getD (chars! "lu_dense"))) false L₀ L₁ s ⟨r, none⟩ ∧
      H.isPreconditioner = p.base.isPreconditioner.getD true ∧
      H.nSmoothingSteps = toUnsigned (p.base.nSmoothingSteps.getD 1) := by
  obtain ⟨s, e1, hs⟩ := devSmoother_ok debug hd 0 ht hn (a := ⟨ev.global, none⟩) hA.matrix hz
  obtain ⟨ap, ac, e2, e3, hac, -⟩ := devGalerkin_ok debug hl (a := ⟨ev.global, none⟩) (r := ⟨r, none⟩)
    hA.matrix hR hR0
  refine ⟨⟨[⟨⟨ev.global, none⟩, none, some s, none⟩, ⟨ac, some ⟨r, none⟩, none,
    some (lowerCase (p.solverType.getD (chars! "lu_dense")))⟩], p.base.isPreconditioner.getD true,
    toUnsigned (p.base.nSmoothingSteps.getD 1)⟩, _, _, s, ?_,
    ⟨rfl, hA.matrix, rfl, hs, rfl, hR, by simp, fun _ => rfl, hac, rfl⟩, rfl, rfl⟩
  unfold devBuild
  simp only [devHelpers_ok host hA, Outcome.ok_bind, hp]
  rw [if_neg (by decide), if_neg (by decide)]
  simp [Outcome.assert, devBuildLoop, e1, devBuildRestrictor, he, hg, hr, Outcome.assertThrow, hfast, e2, e3,
    cudaSolver]

theorem devVcycle_two (debug host : Bool) {dev : Device K} (hd : dev.Valid) {lib : DeviceLib K}
    (hl : lib.Correct) {n m : ℕ} {H : DevHierarchy K} {A : Matrix (Fin n) (Fin n) K}
    {R : Matrix (Fin m) (Fin n) K} {type : Option (List Char)} {tr : Bool} {L₀ L₁ : DevLevel K}
    {s : DevMat K} {r : DevOp K}
    (hH : ReadyTwo H A R (lowerCase (type.getD (chars! "lu_dense"))) tr L₀ L₁ s r)
    (hsol : SolverFits type (galerkin R A)) (hdet : (galerkin R A).det ≠ 0) (hR0 : R ≠ 0)
    (b x : Fin n → K) {h : DevHeap} (hs : h.Sane) :
    ∃ H' L₀' L₁' r' y h', devVcycle debug host dev lib H (List.ofFn b) (List.ofFn x) h
        = .ok (H', List.ofFn y, h') ∧
      ReadyTwo H' A R (lowerCase (type.getD (chars! "lu_dense"))) true L₀' L₁' s r' ∧
      H'.isPreconditioner = H.isPreconditioner ∧ H'.nSmoothingSteps = H.nSmoothingSteps ∧
      IsTwoGrid A R H.nSmoothingSteps b (if H.isPreconditioner then 0 else x) y ∧
      GrowsBy (8 * H.nSmoothingSteps + 6 + if tr then 0 else 4) h h' := by
  set steps := H.nSmoothingSteps with hsteps
  set x₀ : Fin n → K := if H.isPreconditioner then 0 else x with hx₀
  have hx0 : (if H.isPreconditioner then List.replicate (List.ofFn x).length (0 : K) else List.ofFn x)
      = List.ofFn x₀ := by
    rw [hx₀]
    cases H.isPreconditioner
    · rfl
    · simp only [if_true, List.length_ofFn]
      exact replicate_eq_ofFn n
  -- pre-smoothing
  obtain ⟨h₁, e1, g1⟩ := devSmoothLoop_ok debug host hd hH.fine hH.diagonal b steps x₀ hs
  set x₁ := (jacobiSweep A b)^[steps] x₀ with hx₁
  -- residual
  obtain ⟨h₂, e2, g2⟩ := devProductFor_ok debug host hd hH.fine x₁ (List.replicate n 0) (by simp) g1.sane
  -- restriction
  obtain ⟨h₃, e3, g3⟩ := devProductFor_ok debug host hd hH.restriction (A.mulVec x₁ - b)
    (List.replicate m 0) (by simp) g2.sane
  -- coarse solve
  obtain ⟨c, h₄, e4, hc, g4⟩ := coarseSolve_ok debug host hl hH.coarse hsol hdet
    (R.mulVec (A.mulVec x₁ - b)) (List.replicate m 0) (by simp) g3.sane
  -- prolongation
  have htr : ∃ t, t.Stores R.transpose ∧ ∀ h : DevHeap, h.Sane → ∃ h',
      devOpApply debug host dev lib r true (List.ofFn c) (List.replicate n 0) h
        = .ok (⟨r.matrix, some t⟩, List.ofFn (R.transpose.mulVec c), h') ∧
      GrowsBy (2 + if tr then 0 else 4) h h' := by
    cases tr with
    | true =>
      obtain ⟨t, e, ht⟩ := hH.computed rfl
      refine ⟨t, ht, fun h hs => ?_⟩
      obtain ⟨h', e', g⟩ := devProductFor_ok debug host hd ht c (List.replicate n 0) (by simp) hs
      refine ⟨h', ?_, g⟩
      unfold devOpApply
      simp only [if_true, e, e', Outcome.ok_bind, Outcome.pure_eq]
      rw [← e]
    | false =>
      obtain ⟨t, e, ht⟩ := devTranspose_ok debug hl hH.restriction hR0
      refine ⟨t, ht, fun h hs => ?_⟩
      have g0 := newArrays_grows hs
      obtain ⟨h', e', g⟩ := devProductFor_ok debug host hd ht c (List.replicate n 0) (by simp) g0.sane
      refine ⟨h', ?_, (g0.trans g).cast (by simp)⟩
      unfold devOpApply
      simp only [if_true, hH.pending rfl, hH.restriction.handle, e, e', Outcome.ok_bind, Outcome.pure_eq]
  obtain ⟨t, ht, htr⟩ := htr
  obtain ⟨h₅, e5, g5⟩ := htr h₄ g4.sane
  -- post-smoothing
  obtain ⟨h₆, e6, g6⟩ := devSmoothLoop_ok debug host hd hH.fine hH.diagonal b steps
    (x₁ - R.transpose.mulVec c) g5.sane
  refine ⟨{ H with levels := [L₀, { L₁ with restrictor := some ⟨r.matrix, some t⟩ }] }, L₀,
    { L₁ with restrictor := some ⟨r.matrix, some t⟩ }, ⟨r.matrix, some t⟩,
    (jacobiSweep A b)^[steps] (x₁ - R.transpose.mulVec c), h₆, ?_,
    ⟨rfl, hH.fine, hH.smoother, hH.diagonal, rfl, hH.restriction, fun _ => ⟨t, rfl, ht⟩, by simp, hH.coarse,
      hH.solver⟩, rfl, rfl, ⟨x₁, -c, rfl, ?_, ?_⟩,
    (((((g1.trans g2).trans g3).trans g4).trans g5).trans g6).cast (by omega)⟩
  · have hcoarse : devCycle debug host dev lib steps true [L₁] (List.ofFn (R.mulVec (A.mulVec x₁ - b)))
        (List.replicate L₁.operator.matrix.n 0) h₃ = .ok ([L₁], List.ofFn c, h₄) := by
      unfold devCycle
      simp only [if_true, hH.solver, Outcome.deref_some, Outcome.ok_bind, hH.coarse.cols,
        List.length_replicate, e4, Outcome.pure_eq]
    have happ : ∀ (o : DevOp K) (u v w : List K) (g g' : DevHeap),
        devProductFor debug host dev o.matrix u v g = .ok (w, g') →
        devOpApply debug host dev lib o false u v g = .ok (o, w, g') := by
      intro o u v w g g' e
      simp only [devOpApply, Bool.false_eq_true, if_false, e, Outcome.ok_bind, Outcome.pure_eq]
    unfold devVcycle
    rw [hH.levels, devCycle]
    rw [hH.coarse.cols] at hcoarse
    simp only [hx0, hH.restrictor, hH.smoother, Outcome.deref_some, Outcome.ok_bind, ← hsteps, e1,
      hH.fine.cols, hH.coarse.cols, happ _ _ _ _ _ _ e2, vecSub_ofFn, happ _ _ _ _ _ _ e3, Outcome.pure_eq,
      hcoarse, e5, e6]
    rw [← hH.smoother]
  · rw [Matrix.mulVec_neg, hc, ← Matrix.mulVec_neg, neg_sub]
  · rw [Matrix.mulVec_neg, ← sub_eq_add_neg]

/-- Any number of applications. -/
theorem devHistory_two (debug host : Bool) {dev : Device K} (hd : dev.Valid) {lib : DeviceLib K}
    (hl : lib.Correct) {n m : ℕ} {A : Matrix (Fin n) (Fin n) K}
    {R : Matrix (Fin m) (Fin n) K} {type : Option (List Char)} {s : DevMat K}
    (hsol : SolverFits type (galerkin R A)) (hdet : (galerkin R A).det ≠ 0) (hR0 : R ≠ 0)
    (calls : List (List K × List K)) (hcalls : ∀ c ∈ calls, c.1.length = n ∧ c.2.length = n)
    {H : DevHierarchy K} {tr : Bool} {L₀ L₁ : DevLevel K} {r : DevOp K}
    (hH : ReadyTwo H A R (lowerCase (type.getD (chars! "lu_dense"))) tr L₀ L₁ s r)
    {h : DevHeap} (hs : h.Sane) :
    ∃ H' ys h', devHistory debug host dev lib H calls h = .ok (H', ys, h') ∧
      List.Forall₂ (fun c y => y.length = n ∧ IsTwoGrid A R H.nSmoothingSteps (vecOf n c.1)
        (if H.isPreconditioner then 0 else vecOf n c.2) (vecOf n y)) calls ys ∧
      GrowsBy (calls.length * (8 * H.nSmoothingSteps + 6) + if tr ∨ calls = [] then 0 else 4) h h' := by
  induction calls generalizing H tr L₀ L₁ r h with
  | nil => exact ⟨H, [], h, rfl, .nil, (GrowsBy.refl hs).cast (by simp)⟩
  | cons c cs ih =>
    obtain ⟨c1, c2⟩ := hcalls c (by simp)
    obtain ⟨H₁, L₀', L₁', r', y, h₁, e1, r1, p1, s1, t1, g1⟩ := devVcycle_two debug host hd hl hH hsol hdet hR0
      (vecOf n c.1) (vecOf n c.2) hs
    rw [ofFn_vecOf c1, ofFn_vecOf c2] at e1
    obtain ⟨H₂, ys, h₂, e2, t2, g2⟩ := ih (fun c hc => hcalls c (by simp [hc])) r1 g1.sane
    rw [p1, s1] at t2
    rw [s1] at g2
    refine ⟨H₂, List.ofFn y :: ys, h₂, ?_, .cons ⟨by simp, by rw [vecOf_ofFn]; exact t1⟩ t2,
      (g1.trans g2).cast ?_⟩
    · rw [devHistory, e1]
      simp only [Outcome.ok_bind, e2, Outcome.pure_eq]
    · cases tr <;> simp [Nat.add_mul] <;> omega

omit [LinearOrder K] in
theorem galerkin_ne {n m : ℕ} {A : Matrix (Fin n) (Fin n) K} {R : Matrix (Fin m) (Fin n) K} (hm : 0 < m)
    (hdet : (galerkin R A).det ≠ 0) : R ≠ 0 := by
  rintro rfl
  apply hdet
  have : Nonempty (Fin m) := ⟨⟨0, hm⟩⟩
  unfold galerkin
  rw [Matrix.zero_mul, Matrix.zero_mul]
  exact Matrix.det_zero

omit [LinearOrder K] in
theorem galerkin_pos {n m : ℕ} {A : Matrix (Fin n) (Fin n) K} {R : Matrix (Fin m) (Fin n) K} (hm : 0 < m)
    (hdet : (galerkin R A).det ≠ 0) : 0 < n := by
  rcases Nat.eq_zero_or_pos n with rfl | h
  · exact absurd (by ext i j; exact j.elim0) (galerkin_ne hm hdet)
  · exact h

/-- **C91**, two levels.  On one process, with either vector type and in both builds, for all thread
schedules and contents of uninitialised memory: if no diagonal entry of the matrix is zero and the named
direct solver can solve the coarse problem, then the default number of levels can be set up, and every
application, in any history of applications, returns the textbook cycle with Jacobi smoothing and exact
coarse solve.  Missing for C91: other numbers of processes and levels, see the violations. -/
theorem C91_cycle_partial (debug host : Bool) (dev : Device K) (hd : dev.Valid) (lib : DeviceLib K)
    (hl : lib.Correct) (p : DevParams) (hp : p.base.maxLevels.getD 2 = 2)
    (hfast : p.base.fastAp.getD false = false) (he : p.eigensolver = true) (hg : p.agglomeration = true)
    (ht : JacobiType p.smootherType) {n m : ℕ} (hm : 0 < m) (ev : DevEvaluator K)
    (A : Matrix (Fin n) (Fin n) K) (hA : ev.Provides A) (hz : ∀ i, A i i ≠ 0)
    (R : Matrix (Fin m) (Fin n) K) (r : DevMat K) (hr : ev.restrictor 0 = .ok r) (hR : r.Stores R)
    (hdet : (galerkin R A).det ≠ 0) (hsol : SolverFits p.solverType (galerkin R A)) :
    ∃ H, devBuild debug host dev lib p ev = .ok H ∧
      ∀ calls : List (List K × List K), (∀ c ∈ calls, c.1.length = n ∧ c.2.length = n) →
      ∀ h : DevHeap, h.Sane → ∃ H' ys h', devHistory debug host dev lib H calls h = .ok (H', ys, h') ∧
        List.Forall₂ (fun c y => y.length = n ∧
          IsTwoGrid A R (toUnsigned (p.base.nSmoothingSteps.getD 1)) (vecOf n c.1)
            (if p.base.isPreconditioner.getD true then 0 else vecOf n c.2) (vecOf n y)) calls ys := by
  have hR0 := galerkin_ne hm hdet
  obtain ⟨H, L₀, L₁, s, e, hH, h1, h2⟩ := devBuild_two debug host hd hl hp hfast he hg ht
    (galerkin_pos hm hdet) hA hz hr hR hR0
  refine ⟨H, e, fun calls hcalls h hs => ?_⟩
  obtain ⟨H', ys, h', e', t, -⟩ := devHistory_two debug host hd hl hsol hdet hR0 calls hcalls hH hs
  rw [h1, h2] at t
  exact ⟨H', ys, h', e', t⟩

/-- **C91**, one level: the hierarchy is the named direct solver. -/
theorem C91_one_level_partial (debug host : Bool) (dev : Device K) (lib : DeviceLib K)
    (hl : lib.Correct) (p : DevParams) (hp : p.base.maxLevels = some 1) {n : ℕ} (ev : DevEvaluator K)
    (A : Matrix (Fin n) (Fin n) K) (hA : ev.Provides A) (hdet : A.det ≠ 0)
    (hsol : SolverFits p.solverType A) :
    ∃ H, devBuild debug host dev lib p ev = .ok H ∧
      ∀ calls : List (List K × List K), (∀ c ∈ calls, c.1.length = n ∧ c.2.length = n) →
      ∀ h : DevHeap, h.Sane → ∃ ys h', devHistory debug host dev lib H calls h = .ok (H, ys, h') ∧
        List.Forall₂ (fun c y => y.length = n ∧ A.mulVec (vecOf n y) = vecOf n c.1) calls ys ∧
        h'.live.length = h.live.length := by
  refine ⟨⟨[⟨⟨ev.global, none⟩, none, none, some (lowerCase (p.solverType.getD (chars! "lu_dense")))⟩],
    p.base.isPreconditioner.getD true, toUnsigned (p.base.nSmoothingSteps.getD 1)⟩, ?_, ?_⟩
  · unfold devBuild
    simp only [devHelpers_ok host hA, Outcome.ok_bind, hp, Option.getD_some]
    rw [if_neg (by decide), if_neg (by decide)]
    simp [Outcome.assert, devBuildLoop, cudaSolver]
  · intro calls hcalls
    induction calls with
    | nil => exact fun h hs => ⟨[], h, rfl, .nil, rfl⟩
    | cons c cs ih =>
      intro h hs
      obtain ⟨c1, c2⟩ := hcalls c (by simp)
      obtain ⟨y, h₁, e1, hy, g1⟩ := coarseSolve_ok debug host hl hA.matrix hsol hdet (vecOf n c.1)
        (if p.base.isPreconditioner.getD true then List.replicate c.2.length 0 else c.2)
        (by cases p.base.isPreconditioner.getD true <;> simp [c2]) hs
      rw [ofFn_vecOf c1] at e1
      obtain ⟨ys, h₂, e2, t2, g2⟩ := ih (fun c hc => hcalls c (by simp [hc])) h₁ g1.sane
      refine ⟨List.ofFn y :: ys, h₂, ?_, .cons ⟨by simp, by rw [vecOf_ofFn]; exact hy⟩ t2, ?_⟩
      · rw [devHistory, devVcycle, devCycle]
        simp only [Outcome.deref_some, Outcome.ok_bind, e1, Outcome.pure_eq, e2]
      · rw [g2, g1.length]; rfl

/-- C91, device memory: it is false that applications give back what they take.  Every application of a
hierarchy of two levels with `s` smoothing steps leaves `8 s + 6` allocations behind for good, with either
vector type and in both builds (the four of the first application are the transposed restriction, which the
hierarchy owns). -/
theorem C91_memory_violated (debug host : Bool) (dev : Device K) (hd : dev.Valid) (lib : DeviceLib K)
    (hl : lib.Correct) (p : DevParams) (hp : p.base.maxLevels.getD 2 = 2)
    (hfast : p.base.fastAp.getD false = false) (he : p.eigensolver = true) (hg : p.agglomeration = true)
    (ht : JacobiType p.smootherType) {n m : ℕ} (hm : 0 < m) (ev : DevEvaluator K)
    (A : Matrix (Fin n) (Fin n) K) (hA : ev.Provides A) (hz : ∀ i, A i i ≠ 0)
    (R : Matrix (Fin m) (Fin n) K) (r : DevMat K) (hr : ev.restrictor 0 = .ok r) (hR : r.Stores R)
    (hdet : (galerkin R A).det ≠ 0) (hsol : SolverFits p.solverType (galerkin R A))
    (calls : List (List K × List K)) (hcalls : ∀ c ∈ calls, c.1.length = n ∧ c.2.length = n)
    (hne : calls ≠ []) (h : DevHeap) (hs : h.Sane) :
    ∃ H H' ys h', devBuild debug host dev lib p ev = .ok H ∧
      devHistory debug host dev lib H calls h = .ok (H', ys, h') ∧
      h'.live.length = h.live.length + 4
        + calls.length * (8 * toUnsigned (p.base.nSmoothingSteps.getD 1) + 6) := by
  have hR0 := galerkin_ne hm hdet
  obtain ⟨H, L₀, L₁, s, e, hH, h1, h2⟩ := devBuild_two debug host hd hl hp hfast he hg ht
    (galerkin_pos hm hdet) hA hz hr hR hR0
  obtain ⟨H', ys, h', e', -, g⟩ := devHistory_two debug host hd hl hsol hdet hR0 calls hcalls hH hs
  refine ⟨H, H', ys, h', e, e', ?_⟩
  rw [g.length, h2]
  simp [hne]
  omega

/-- **C91**: the result on the device is the result on the host.  The hierarchy on the device, with its
default parameters (or others that name a suitable solver), and the hierarchy on the host with the smoother
"Jacobi" and a direct coarse solver, distributed over any number of processes, return the same vector for
every symmetric positive definite matrix and restriction with independent rows. -/
theorem C91_same_as_host_partial [IsStrictOrderedRing K] (debug host : Bool) (dev : Device K) (hd : dev.Valid)
    (lib : DeviceLib K) (hl : lib.Correct) (p : DevParams) (hp : p.base.maxLevels.getD 2 = 2)
    (hfast : p.base.fastAp.getD false = false) (he : p.eigensolver = true) (hg : p.agglomeration = true)
    (ht : JacobiType p.smootherType) (dims : ℕ → ℕ) (hm : 0 < dims 1) (ev : DevEvaluator K)
    (A : Matrix (Fin (dims 0)) (Fin (dims 0)) K) (hA : ev.Provides A) (hspd : IsSpd A)
    (R : ∀ l, Matrix (Fin (dims (l + 1))) (Fin (dims l)) K) (hR : ∀ l, IndependentRows (R l))
    (r : DevMat K) (hr : ev.restrictor 0 = .ok r) (hr0 : r.Stores (R 0))
    (hsol : lowerCase (p.solverType.getD (chars! "lu_dense")) ∈
      [chars! "cholesky", chars! "lu_dense", chars! "lu_sparse_host"])
    (timer : Bool) (type : Option (List Char)) (htype : dealiiSmoother debug true type = .ok .jacobi)
    (procs : ∀ l, List (List (Fin (dims l)))) (hprocs : ∀ l, ListsAll (procs l).flatten)
    (solve : ∀ l, Matrix (Fin (dims l)) (Fin (dims l)) K → (Fin (dims l) → K) → Fin (dims l) → K)
    (hsolve : ∀ l, SolvesExactly (solve l)) (fresh : ∀ l, Fin (dims l) → K)
    (b x : List K) (hb : b.length = dims 0) (hx : x.length = dims 0) (h : DevHeap) (hs : h.Sane) :
    ∃ Hd Hh Hd' y h', devBuild debug host dev lib p ev = .ok Hd ∧
      (buildHierarchy debug timer (some p.base)
        (.ok (matrixHelpers debug type dims procs A R solve))).result = .ok Hh ∧
      devVcycle debug host dev lib Hd b x h = .ok (Hd', y, h') ∧ y.length = dims 0 ∧
      (Hh.vmult fresh (vecOf _ x) (vecOf _ b)).result = .ok (vecOf _ y) := by
  have hdiag : ∀ i, A i i ≠ 0 := by
    intro i
    have := hspd.2 (Pi.single i 1) (by simp)
    rw [Matrix.mulVec_single_one, single_one_dotProduct] at this
    exact ne_of_gt this
  have hgal : IsSpd (galerkin (R 0) A) := coarseMatrix_spd dims A hspd R hR 1
  have hdet := spd_det hgal
  have hR0 := galerkin_ne hm hdet
  have hfit : SolverFits p.solverType (galerkin (R 0) A) := by
    simp only [List.mem_cons, List.not_mem_nil, or_false] at hsol
    rcases hsol with e | e | e
    · exact Or.inl ⟨e, hgal⟩
    · exact Or.inr ⟨Or.inl e, hdet⟩
    · exact Or.inr ⟨Or.inr e, hdet⟩
  obtain ⟨Hd, L₀, L₁, s, e1, hH, p1, p2⟩ := devBuild_two debug host hd hl hp hfast he hg ht
    (galerkin_pos hm hdet) hA hdiag hr hr0 hR0
  obtain ⟨Hh, e2, hlin, q1, q2, q3⟩ := matrixHelpers_build debug timer p.base type _ .jacobi htype rfl dims
    procs A hspd R hR solve hsolve (by rw [hp]; decide) hfast
  obtain ⟨Hd', _, _, _, y, h', e3, -, -, -, ⟨x₁, c, t1, t2, t3⟩, -⟩ := devVcycle_two debug host hd hl hH hfit hdet
    hR0 (vecOf _ b) (vecOf _ x) hs
  rw [ofFn_vecOf hb, ofFn_vecOf hx] at e3
  refine ⟨Hd, Hh, Hd', List.ofFn y, h', e1, e2, e3, by simp, ?_⟩
  rw [hp] at q1
  have q1 : Hh.numLevels = 2 := q1
  rw [C04_cycle_is_textbook Hh _ hlin fresh _ _ (Or.inr (by omega)), vecOf_ofFn, q1, q2, q3]
  rw [p1, p2] at t1
  rw [p2] at t3
  have hrich : richardson (matrixData .jacobi dims procs A R) 0 (vecOf _ b) = jacobiSweep A (vecOf _ b) := by
    funext u
    simp only [richardson, matrixData, relaxLin]
    funext i
    change u i + relaxVmult .jacobi A (procs 0) (vecOf _ b - A.mulVec u) i = _
    rw [relaxVmult_jacobi_all (hprocs 0)]
    rfl
  have hc : c = (galerkin (R 0) A)⁻¹.mulVec ((R 0).mulVec (vecOf _ b - A.mulVec x₁)) := by
    rw [← t2, Matrix.mulVec_mulVec, Matrix.nonsing_inv_mul _ (Ne.isUnit hdet), Matrix.one_mulVec]
  congr 1
  rw [t3, hc, t1, ← hrich]
  rfl

omit [LinearOrder K] in
/-- Level by level: the loop on the first level, for any number of further levels. -/
theorem devBuild_more (debug host : Bool) {dev : Device K} {lib : DeviceLib K} {p : DevParams}
    (hp : 2 ≤ p.base.maxLevels.getD 2) {n : ℕ} {ev : DevEvaluator K}
    {A : Matrix (Fin n) (Fin n) K} (hA : ev.Provides A) :
    ∃ more : ℕ, p.base.maxLevels.getD 2 = more + 2 ∧ devBuild debug host dev lib p ev =
      (devBuildLoop debug dev lib p ev (more + 1) 0 ⟨ev.global, none⟩ none) >>= fun levels =>
        .ok { levels := levels, isPreconditioner := p.base.isPreconditioner.getD true,
              nSmoothingSteps := toUnsigned (p.base.nSmoothingSteps.getD 1) } := by
  obtain ⟨k, hk⟩ : ∃ k : ℕ, p.base.maxLevels.getD 2 = k + 2 :=
    ⟨(p.base.maxLevels.getD 2 - 2).toNat, by omega⟩
  refine ⟨k, hk, ?_⟩
  unfold devBuild
  simp only [devHelpers_ok host hA, Outcome.ok_bind, hk]
  rw [if_neg (by omega), if_neg (by omega)]
  have e : ((k : ℤ) + 2).toNat - 1 = k + 1 := by omega
  have h0 : decide ((k : ℤ) + 2 > 0) = true := by
    rw [decide_eq_true_eq]; omega
  rw [e, h0]
  simp [Outcome.assert]

/-- C91, number of levels: it is false that more than two levels can be used on the device, although the
class takes any number.  The restriction of the second level is computed for the unknowns of the finest one
(the only mesh evaluator there is), so that it does not fit the matrix it should restrict: the program stops
in debug builds and has undefined behaviour in release builds, whenever the first restriction really reduces
the number of unknowns. -/
theorem C91_levels_violated [IsStrictOrderedRing K] (debug host : Bool) (dev : Device K) (hd : dev.Valid)
    (lib : DeviceLib K) (hl : lib.Correct) (p : DevParams) (hp : 3 ≤ p.base.maxLevels.getD 2)
    (hfast : p.base.fastAp.getD false = false) (he : p.eigensolver = true) (hg : p.agglomeration = true)
    (ht : JacobiType p.smootherType) {n m m' : ℕ} (hm : 0 < m) (hmn : m < n) (ev : DevEvaluator K)
    (A : Matrix (Fin n) (Fin n) K) (hA : ev.Provides A) (hspd : IsSpd A)
    (R : Matrix (Fin m) (Fin n) K) (r : DevMat K) (hr : ev.restrictor 0 = .ok r) (hR : r.Stores R)
    (hind : IndependentRows R)
    (R' : Matrix (Fin m') (Fin n) K) (r' : DevMat K) (hr' : ev.restrictor 1 = .ok r') (hR' : r'.Stores R')
    (hne : R' ≠ 0) :
    devBuild debug host dev lib p ev = if debug then .aborted else .ub "dimensions of the factors" := by
  have hgal : IsSpd (galerkin R A) := (C74_iff R A hspd).2 hind
  have hR0 := galerkin_ne hm (spd_det hgal)
  obtain ⟨more, hmore, e⟩ := devBuild_more debug host (dev := dev) (lib := lib) (p := p) (by omega) hA
  obtain ⟨more, rfl⟩ : ∃ k, more = k + 1 := ⟨more - 1, by omega⟩
  obtain ⟨s, e1, -⟩ := devSmoother_ok debug hd 0 ht (by omega) (a := ⟨ev.global, none⟩) hA.matrix
    (fun i => (diag_pos hspd i).ne')
  obtain ⟨ap, ac, e2, e3, hac, -⟩ := devGalerkin_ok debug hl (a := ⟨ev.global, none⟩) (r := ⟨r, none⟩)
    hA.matrix hR hR0
  obtain ⟨s', e4, -⟩ := devSmoother_ok debug hd 1 ht hm (a := ac) hac (fun i => (diag_pos hgal i).ne')
  obtain ⟨t, e5, hts⟩ := devTranspose_ok debug hl hR' hne
  have e6 : devMultiplyTranspose debug lib ac ⟨r', none⟩
      = if debug then .aborted else .ub "dimensions of the factors" := by
    unfold devMultiplyTranspose
    simp only [hac.handle, e5, Outcome.ok_bind, devMatMult, hts.rows, hac.cols, hac.descr, hts.descr]
    have : ¬ n = m := by omega
    cases debug <;> simp [Outcome.assert, this]
  rw [e, devBuildLoop]
  simp only [e1, devBuildRestrictor, he, hg, hr, Outcome.assertThrow, if_true, Outcome.ok_bind, Outcome.pure_eq,
    hfast, Bool.false_eq_true, if_false, e2, e3, devBuildLoop, e4, hr', e6]
  cases debug <;> rfl

omit [LinearOrder K] in
/-- C91, parameters: what the host accepts and the device does not.  With at least two levels, another
smoother than Jacobi's throws. -/
theorem C91_smoother_violated (debug host : Bool) (dev : Device K) (lib : DeviceLib K) (p : DevParams)
    (hp : 2 ≤ p.base.maxLevels.getD 2) {n : ℕ} (ev : DevEvaluator K) (A : Matrix (Fin n) (Fin n) K)
    (hA : ev.Provides A) (ht : ¬ JacobiType p.smootherType) :
    devBuild debug host dev lib p ev = .throws "Only Jacobi smoother is implemented." := by
  obtain ⟨more, -, e⟩ := devBuild_more debug host (dev := dev) (lib := lib) hp hA
  have h : lowerCase (p.smootherType.getD (chars! "Jacobi")) ≠ chars! "jacobi" := by
    unfold JacobiType at ht
    push Not at ht
    obtain ⟨t, h1, h2⟩ := ht
    rw [h1]
    exact h2
  rw [e, devBuildLoop]
  simp [devSmoother, cudaSmoother, Outcome.assertThrow, h]

omit [LinearOrder K] in
/-- C91, parameters: `fast_ap` throws, with at least two levels and the default smoother. -/
theorem C91_fast_ap_violated (debug host : Bool) (dev : Device K) (hd : dev.Valid) (lib : DeviceLib K)
    (p : DevParams) (hp : 2 ≤ p.base.maxLevels.getD 2) (hfast : p.base.fastAp = some true)
    (he : p.eigensolver = true) (hg : p.agglomeration = true) (ht : JacobiType p.smootherType) {n : ℕ}
    (hn : 0 < n) (ev : DevEvaluator K) (A : Matrix (Fin n) (Fin n) K) (hA : ev.Provides A)
    (hz : ∀ i, A i i ≠ 0) (r : DevMat K) (hr : ev.restrictor 0 = .ok r) :
    devBuild debug host dev lib p ev = .throws notImplemented := by
  obtain ⟨more, -, e⟩ := devBuild_more debug host (dev := dev) (lib := lib) hp hA
  obtain ⟨s, e1, -⟩ := devSmoother_ok debug hd 0 ht hn (a := ⟨ev.global, none⟩) hA.matrix hz
  rw [e, devBuildLoop]
  simp [e1, devBuildRestrictor, he, hg, hr, Outcome.assertThrow, hfast]

/-- C91, errors: a name of a direct solver that does not exist is accepted by the set-up and rejected by
every application, after the first half of the cycle. -/
theorem C91_solver_violated (debug host : Bool) (dev : Device K) (hd : dev.Valid) (lib : DeviceLib K)
    (hl : lib.Correct) (p : DevParams) (hp : p.base.maxLevels.getD 2 = 2)
    (hfast : p.base.fastAp.getD false = false) (he : p.eigensolver = true) (hg : p.agglomeration = true)
    (ht : JacobiType p.smootherType) {n m : ℕ} (hn : 0 < n) (ev : DevEvaluator K)
    (A : Matrix (Fin n) (Fin n) K) (hA : ev.Provides A) (hz : ∀ i, A i i ≠ 0)
    (R : Matrix (Fin m) (Fin n) K) (r : DevMat K) (hr : ev.restrictor 0 = .ok r) (hR : r.Stores R)
    (hR0 : R ≠ 0)
    (hname : lowerCase (p.solverType.getD (chars! "lu_dense")) ∉
      [chars! "cholesky", chars! "lu_dense", chars! "lu_sparse_host"]) :
    ∃ H, devBuild debug host dev lib p ev = .ok H ∧
      ∀ b x : List K, b.length = n → x.length = n → ∀ h : DevHeap, h.Sane →
        devVcycle debug host dev lib H b x h = .throws ("The provided solver name " ++
          String.ofList (lowerCase (p.solverType.getD (chars! "lu_dense"))) ++ " is invalid.") := by
  obtain ⟨H, L₀, L₁, s, e, hH, -, -⟩ := devBuild_two debug host hd hl hp hfast he hg ht hn hA hz hr hR hR0
  refine ⟨H, e, fun b x hb hx h hs => ?_⟩
  obtain ⟨b, rfl⟩ : ∃ u : Fin n → K, b = List.ofFn u := ⟨_, (ofFn_vecOf hb).symm⟩
  obtain ⟨x₀, hx0⟩ : ∃ u : Fin n → K,
      (if H.isPreconditioner then List.replicate x.length (0 : K) else x) = List.ofFn u :=
    ⟨_, (ofFn_vecOf (by cases H.isPreconditioner <;> simp [hx])).symm⟩
  obtain ⟨h₁, e1, g1⟩ := devSmoothLoop_ok debug host hd hH.fine hH.diagonal b H.nSmoothingSteps x₀ hs
  obtain ⟨h₂, e2, g2⟩ := devProductFor_ok debug host hd hH.fine ((jacobiSweep A b)^[H.nSmoothingSteps] x₀)
    (List.replicate n 0) (by simp) g1.sane
  obtain ⟨h₃, e3, g3⟩ := devProductFor_ok debug host hd hH.restriction
    (A.mulVec ((jacobiSweep A b)^[H.nSmoothingSteps] x₀) - b) (List.replicate m 0) (by simp) g2.sane
  have hs : ∀ (b x : List K) (h : DevHeap), directSolverApply debug host lib.solver
      (lowerCase (p.solverType.getD (chars! "lu_dense"))) (some L₁.operator.matrix.forSolver) b x h
      = .throws ("The provided solver name " ++
          String.ofList (lowerCase (p.solverType.getD (chars! "lu_dense"))) ++ " is invalid.") := by
    intro b x h
    simp only [List.mem_cons, List.not_mem_nil, or_false, not_or] at hname
    obtain ⟨n1, n2, n3⟩ := hname
    cases host <;> simp [directSolverApply, directApplyHost, directApply, n1, n2, n3]
  unfold devVcycle
  rw [hH.levels, devCycle]
  simp only [hx0, hH.restrictor, hH.smoother, Outcome.deref_some, Outcome.ok_bind, e1, devOpApply,
    Bool.false_eq_true, if_false, hH.fine.cols, hH.coarse.cols, e2, vecSub_ofFn, e3, Outcome.pure_eq]
  rw [devCycle]
  simp only [hH.solver, Outcome.deref_some, Outcome.ok_bind, hs, Outcome.throws_bind]

omit [LinearOrder K] in
/-- C91, evaluators: only "CudaMeshEvaluator" can be used.  The other device evaluator of the library,
"CudaMatrixFreeMeshEvaluator", is rejected with both vector types. -/
theorem C91_matrix_free_violated (debug host : Bool) (dev : Device K) (lib : DeviceLib K) (p : DevParams)
    (ev : DevEvaluator K) (h : ev.type = chars! "CudaMatrixFreeMeshEvaluator") :
    devBuild debug host dev lib p ev = .throws notImplemented := by
  have e : devHelpers host ev = .throws notImplemented := by
    unfold devHelpers
    rw [h]
    cases host <;> rfl
  unfold devBuild
  rw [e]
  rfl

/-- C91, preconditions: an evaluator that fills in the matrix but not its cuSPARSE handle or its descriptor
(public members that are null by default) is not rejected.  In debug builds the program stops, in release
builds it works with uninitialised memory. -/
theorem C91_handle_violated (debug host : Bool) (dev : Device K) (hd : dev.Valid) (lib : DeviceLib K)
    (hl : lib.Correct) (p : DevParams) (hp : 2 ≤ p.base.maxLevels.getD 2)
    (hfast : p.base.fastAp.getD false = false) (he : p.eigensolver = true) (hg : p.agglomeration = true)
    (ht : JacobiType p.smootherType) {n m : ℕ} (hn : 0 < n) (ev : DevEvaluator K)
    (A : Matrix (Fin n) (Fin n) K)
    (hA : DevEvaluator.Provides { ev with global := { ev.global with handle := true, descr := true } } A)
    (hno : ev.global.handle = false ∨ ev.global.descr = false) (hz : ∀ i, A i i ≠ 0)
    (R : Matrix (Fin m) (Fin n) K) (r : DevMat K) (hr : ev.restrictor 0 = .ok r) (hR : r.Stores R)
    (hR0 : R ≠ 0) :
    if debug then devBuild debug host dev lib p ev = .aborted
    else ∃ why, devBuild debug host dev lib p ev = .ub why := by
  have hev : devHelpers host ev = .ok () := (devHelpers_ok host hA :)
  obtain ⟨k, hk⟩ : ∃ k : ℕ, p.base.maxLevels.getD 2 = k + 2 :=
    ⟨(p.base.maxLevels.getD 2 - 2).toNat, by omega⟩
  have e : devBuild debug host dev lib p ev =
      (devBuildLoop debug dev lib p ev (k + 1) 0 ⟨ev.global, none⟩ none) >>= fun levels =>
        .ok { levels := levels, isPreconditioner := p.base.isPreconditioner.getD true,
              nSmoothingSteps := toUnsigned (p.base.nSmoothingSteps.getD 1) } := by
    unfold devBuild
    simp only [hev, Outcome.ok_bind, hk]
    rw [if_neg (by omega), if_neg (by omega)]
    have e : ((k : ℤ) + 2).toNat - 1 = k + 1 := by omega
    have h0 : decide ((k : ℤ) + 2 > 0) = true := by
      rw [decide_eq_true_eq]; omega
    rw [e, h0]
    simp [Outcome.assert]
  have hm : ev.global.m = n := hA.matrix.rows
  have hn' : ev.global.n = n := hA.matrix.cols
  have hsm : cudaSmoother debug true (ev.global.m == ev.global.n) p.smootherType = .ok .jacobi := by
    rw [hm, hn', beq_self_eq_true]
    exact cudaSmoother_jacobi debug ht
  rw [e, devBuildLoop]
  by_cases hh : ev.global.handle = false
  · have : devSmoother debug dev 0 p.smootherType ⟨ev.global, none⟩
        = if debug then .aborted else .ub "row_index_coo_dev" := by
      unfold devSmoother
      simp only [hsm, Outcome.ok_bind, hh, Bool.false_eq_true, if_false]
    rw [this]
    cases debug
    · exact ⟨_, rfl⟩
    · rfl
  · have hh : ev.global.handle = true := by simpa using hh
    have hdesc : ev.global.descr = false := by simpa [hh] using hno
    obtain ⟨s, e1, -⟩ := devSmoother_ok debug hd 0 ht hn
      (a := ⟨{ ev.global with handle := true, descr := true }, none⟩) hA.matrix hz
    have e1 : devSmoother debug dev 0 p.smootherType ⟨ev.global, none⟩ = .ok s := by
      rw [← e1]
      unfold devSmoother
      simp only [hh]
    obtain ⟨t, e5, hts⟩ := devTranspose_ok debug hl hR hR0
    have e6 : devMultiplyTranspose debug lib ⟨ev.global, none⟩ ⟨r, none⟩
        = if debug then .aborted else .ub "uninitialised product" := by
      unfold devMultiplyTranspose
      simp only [hh, e5, Outcome.ok_bind, devMatMult, hts.rows, hn', hdesc]
      cases debug <;> simp [Outcome.assert]
    simp only [e1, devBuildRestrictor, he, hg, hr, Outcome.assertThrow, if_true, Outcome.ok_bind,
      Outcome.pure_eq, hfast, Bool.false_eq_true, if_false, e6]
    cases debug
    · exact ⟨_, rfl⟩
    · rfl

/-! ### Examples -/

/-- The parameters an application must at least give. -/
def exDevParams : DevParams := { base := {} }

theorem exDifference_spd : IsSpd (galerkin (differenceRow (K := ℚ) 4 0) (uniformMatrix 4 (1 / 2))) :=
  (C74_iff (m := 1) (n := 4) _ _ (uniformMatrix_spd 4 (1 / 2) (by norm_num) (by norm_num))).2
    (differenceRow_independent 4 (by decide) 0)

theorem exUniform_diagonal (i : Fin 4) : uniformMatrix 4 (1 / 2 : ℚ) i i ≠ 0 :=
  (diag_pos (uniformMatrix_spd 4 (1 / 2) (by norm_num) (by norm_num)) i).ne'

example (debug host : Bool) :
    ∃ H, devBuild debug host exDevice exDeviceLib exDevParams
        (exDevEvaluator (uniformMatrix 4 (1 / 2)) (differenceRow 4 0)) = .ok H ∧
      ∀ calls : List (List ℚ × List ℚ), (∀ c ∈ calls, c.1.length = 4 ∧ c.2.length = 4) →
      ∀ h : DevHeap, h.Sane → ∃ H' ys h', devHistory debug host exDevice exDeviceLib H calls h
          = .ok (H', ys, h') ∧
        List.Forall₂ (fun c y => y.length = 4 ∧
          IsTwoGrid (uniformMatrix 4 (1 / 2)) (differenceRow 4 0) 1 (vecOf 4 c.1) 0 (vecOf 4 y)) calls ys :=
  C91_cycle_partial debug host exDevice exDevice_valid exDeviceLib exDeviceLib_correct exDevParams rfl rfl rfl
    rfl (by intro t h; cases h) (m := 1) (by decide) _ _ (exDevEvaluator_provides _ _) exUniform_diagonal _ _ rfl
    (exDevMat_stores _) (spd_det exDifference_spd) (Or.inr ⟨Or.inl rfl, spd_det exDifference_spd⟩)

/-- With Cholesky's method. -/
example (debug host : Bool) (calls : List (List ℚ × List ℚ))
    (hc : ∀ c ∈ calls, c.1.length = 4 ∧ c.2.length = 4) (hne : calls ≠ []) :
    ∃ H H' ys h', devBuild debug host exDevice exDeviceLib { base := {}, solverType := some (chars! "Cholesky") }
        (exDevEvaluator (uniformMatrix 4 (1 / 2)) (differenceRow 4 0)) = .ok H ∧
      devHistory debug host exDevice exDeviceLib H calls ⟨3, [0, 2], []⟩ = .ok (H', ys, h') ∧
      h'.live.length = 2 + 4 + calls.length * 14 :=
  C91_memory_violated debug host exDevice exDevice_valid exDeviceLib exDeviceLib_correct
    { base := {}, solverType := some (chars! "Cholesky") } rfl rfl rfl
    rfl (by intro t h; cases h) (m := 1) (by decide) _ _ (exDevEvaluator_provides _ _) exUniform_diagonal _ _ rfl
    (exDevMat_stores _) (spd_det exDifference_spd) (Or.inl ⟨by decide, exDifference_spd⟩) calls hc hne _
    (by intro p hp; simp at hp; rcases hp with rfl | rfl <;> decide)

example (debug host : Bool) :
    ∃ H, devBuild debug host exDevice exDeviceLib { base := { maxLevels := some 1 } }
        (exDevEvaluator (m := 1) (uniformMatrix 4 (1 / 2)) 0) = .ok H ∧
      ∀ calls : List (List ℚ × List ℚ), (∀ c ∈ calls, c.1.length = 4 ∧ c.2.length = 4) →
      ∀ h : DevHeap, h.Sane → ∃ ys h', devHistory debug host exDevice exDeviceLib H calls h
          = .ok (H, ys, h') ∧
        List.Forall₂ (fun c y => y.length = 4 ∧
          (uniformMatrix 4 (1 / 2)).mulVec (vecOf 4 y) = vecOf 4 c.1) calls ys ∧
        h'.live.length = h.live.length :=
  C91_one_level_partial debug host exDevice exDeviceLib exDeviceLib_correct _ rfl _ _
    (exDevEvaluator_provides _ _) (spd_det (uniformMatrix_spd 4 (1 / 2) (by norm_num) (by norm_num)))
    (Or.inr ⟨Or.inl rfl, spd_det (uniformMatrix_spd 4 (1 / 2) (by norm_num) (by norm_num))⟩)

/-- Against the host with one unknown per process. -/
example (debug host : Bool) (b x : List ℚ) (hb : b.length = 4) (hx : x.length = 4) :
    ∃ Hd Hh Hd' y h', devBuild debug host exDevice exDeviceLib exDevParams
        (exDevEvaluator (uniformMatrix 4 (1 / 2)) (differenceRow 4 0)) = .ok Hd ∧
      (buildHierarchy debug false (some exDevParams.base) (.ok (matrixHelpers debug (some (chars! "Jacobi"))
        (twoDims 4) (fun _ => (List.finRange _).map fun i => [i]) (uniformMatrix 4 (1 / 2)) (differenceRow 4)
        (fun l => exInvSolve l (twoDims 4))))).result = .ok Hh ∧
      devVcycle debug host exDevice exDeviceLib Hd b x ⟨0, [], []⟩ = .ok (Hd', y, h') ∧ y.length = 4 ∧
      (Hh.vmult (fun _ _ => 9) (vecOf (twoDims 4 0) x) (vecOf (twoDims 4 0) b)).result
        = .ok (vecOf (twoDims 4 0) y) :=
  C91_same_as_host_partial debug host exDevice exDevice_valid exDeviceLib exDeviceLib_correct exDevParams rfl rfl
    rfl rfl (by intro t h; cases h) (twoDims 4) (by decide) _ _ (exDevEvaluator_provides _ _)
    (uniformMatrix_spd 4 (1 / 2) (by norm_num) (by norm_num)) (differenceRow 4)
    (differenceRow_independent 4 (by decide)) _ rfl (exDevMat_stores _) (by decide) false _
    (by cases debug <;> rfl) _ (fun l => by
      have e : ∀ l : List (Fin (twoDims 4 ‹ℕ›)), (l.map fun i => [i]).flatten = l := by
        intro l; induction l <;> simp_all
      rw [e]; exact ⟨List.nodup_finRange _, List.mem_finRange⟩) _ (fun l => exInvSolve_exact _ l) _ b x hb hx _
    (by intro p hp; cases hp)

example (debug host : Bool) : devBuild debug host exDevice exDeviceLib { base := { maxLevels := some 3 } }
    (exDevEvaluator (uniformMatrix 4 (1 / 2)) (differenceRow 4 0))
      = if debug then .aborted else .ub "dimensions of the factors" :=
  C91_levels_violated debug host exDevice exDevice_valid exDeviceLib exDeviceLib_correct _ (by decide) rfl rfl
    rfl (by intro t h; cases h) (m := 1) (m' := 1) (by decide) (by decide) _ _ (exDevEvaluator_provides _ _)
    (uniformMatrix_spd 4 (1 / 2) (by norm_num) (by norm_num)) _ _ rfl (exDevMat_stores _)
    (differenceRow_independent 4 (by decide) 0) _ _ rfl (exDevMat_stores _)
    (galerkin_ne (by decide) (spd_det exDifference_spd))

example (debug host : Bool) : devBuild debug host exDevice exDeviceLib
    { base := {}, smootherType := some (chars! "Symmetric Gauss-Seidel") }
    (exDevEvaluator (uniformMatrix 4 (1 / 2)) (differenceRow 4 0))
      = .throws "Only Jacobi smoother is implemented." :=
  C91_smoother_violated debug host _ _ _ (by decide) _ _ (exDevEvaluator_provides _ _)
    (fun h => absurd (h _ rfl) (by decide))

example (debug host : Bool) : devBuild debug host exDevice exDeviceLib { base := { fastAp := some true } }
    (exDevEvaluator (uniformMatrix 4 (1 / 2)) (differenceRow 4 0)) = .throws notImplemented :=
  C91_fast_ap_violated debug host _ exDevice_valid _ _ (by decide) rfl rfl rfl (by intro t h; cases h)
    (by decide) _ _ (exDevEvaluator_provides _ _) exUniform_diagonal _ rfl

example (debug host : Bool) : ∃ H, devBuild debug host exDevice exDeviceLib
      { base := {}, solverType := some (chars! "QR") }
      (exDevEvaluator (uniformMatrix 4 (1 / 2)) (differenceRow 4 0)) = .ok H ∧
    ∀ b x : List ℚ, b.length = 4 → x.length = 4 → ∀ h : DevHeap, h.Sane →
      devVcycle debug host exDevice exDeviceLib H b x h = .throws ("The provided solver name " ++
        String.ofList (chars! "qr") ++ " is invalid.") :=
  C91_solver_violated debug host _ exDevice_valid _ exDeviceLib_correct
    { base := {}, solverType := some (chars! "QR") } rfl rfl rfl rfl
    (by intro t h; cases h) (by decide) _ _ (exDevEvaluator_provides _ _) exUniform_diagonal _ _ rfl
    (exDevMat_stores _) (galerkin_ne (by decide) (spd_det exDifference_spd)) (by decide)

/-- The matrix without its handle. -/
example : ∃ why, devBuild false true exDevice exDeviceLib exDevParams
    { exDevEvaluator (uniformMatrix 4 (1 / 2)) (differenceRow 4 0) with
      global := { exDevMat (uniformMatrix 4 (1 / 2)) with handle := false } } = .ub why :=
  C91_handle_violated false true _ exDevice_valid _ exDeviceLib_correct exDevParams (by decide) rfl rfl rfl
    (by intro t h; cases h) (by decide) _ _ (exDevEvaluator_provides _ (differenceRow 4 0)) (Or.inl rfl)
    exUniform_diagonal _ _ rfl (exDevMat_stores _) (galerkin_ne (by decide) (spd_det exDifference_spd))

example (debug host : Bool) : devBuild debug host exDevice exDeviceLib exDevParams
    { exDevEvaluator (uniformMatrix 4 (1 / 2)) (differenceRow 4 0) with
      type := chars! "CudaMatrixFreeMeshEvaluator" } = .throws notImplemented :=
  C91_matrix_free_violated debug host _ _ _ _ rfl

end

end Mfmg
