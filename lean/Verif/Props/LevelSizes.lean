import Verif.Model.LevelSizes
import Verif.Props.HostOperator

/-!
# C65: hierarchies with more than two levels
-/

set_option autoImplicit false

namespace Mfmg

section

variable {K : Type} [Field K]

/-- Applying a complete operator to a vector of the right size. -/
theorem hostApply_ok (A : GMat K) (x : List K) (hx : x.length = A.cols) (ny : ℕ)
    (hy : ny = A.rows) : ∃ y, hostApply (.assembled A true) false x ny = .ok y ∧
      y.length = A.rows := by
  obtain ⟨y, h, hl⟩ := A.mulVec_some x hx.symm
  exact ⟨y, by simp [hostApply, h]; omega, hl⟩

@[inherit_doc hostApply_ok]
theorem hostApply_tr_ok (A : GMat K) (x : List K) (hx : x.length = A.rows) (ny : ℕ)
    (hy : ny = A.cols) : ∃ y, hostApply (.assembled A true) true x ny = .ok y ∧
      y.length = A.cols := by
  obtain ⟨y, h, hl⟩ := A.transpose.mulVec_some x hx.symm
  have hl' : y.length = A.cols := hl
  exact ⟨y, by simp [hostApply, h]; omega, hl'⟩

theorem vecSub_ok (x y : List K) (h : x.length = y.length) :
    ∃ z, vecSub x y = .ok z ∧ z.length = x.length :=
  ⟨List.zipWith (· - ·) x y, by simp [vecSub, h], by simp [h]⟩

/-- A matrix applied to a vector of the wrong size. -/
theorem hostApply_source (A : GMat K) (x : List K) (hx : x.length ≠ A.cols) (ny : ℕ) :
    hostApply (.assembled A true) false x ny = .ub "size of the source" := by
  have : A.mulVec x = none := by
    unfold GMat.mulVec
    rw [dif_neg (fun h => hx h.symm)]
  simp [hostApply, this]

variable [LinearOrder K]

/-- The operator of the second level. -/
theorem coarse_square (debug fast : Bool) (eps : K) (mm : GMat K → GMat K → Outcome (HostOp K))
    (ev : Evaluator K) :
    ∃ ap C, (if fast then .ok (ev.fastAp 0) else
        hostMultiplyTranspose debug eps ev.globalOperator (ev.buildRestrictor 0)) = .ok ap ∧
      hostMultiply mm (ev.buildRestrictor 0) ap = .ok (.assembled C true) ∧
      C.rows = ev.nRows 0 ∧ C.cols = ev.nRows 0 := by
  cases fast with
  | true =>
    obtain ⟨C, h1, h2, h3⟩ := GMat.mul_some ⟨ev.nRows 0, ev.nDofs, ev.restrictor 0⟩
      ⟨ev.nDofs, ev.nRows 0, ev.ap 0⟩ rfl
    exact ⟨_, C, rfl, by simp [Evaluator.buildRestrictor, Evaluator.fastAp, hostMultiply, h1], h2, h3⟩
  | false =>
    obtain ⟨B, b1, b2, b3⟩ := GMat.mul_some ⟨ev.nDofs, ev.nDofs, ev.matrix⟩
      (GMat.transpose ⟨ev.nRows 0, ev.nDofs, ev.restrictor 0⟩) rfl
    obtain ⟨C, h1, h2, h3⟩ := GMat.mul_some ⟨ev.nRows 0, ev.nDofs, ev.restrictor 0⟩ B b2.symm
    refine ⟨.assembled B true, C, ?_, ?_, h2, h3.trans b3⟩
    · simp [Evaluator.globalOperator, Evaluator.buildRestrictor, hostMultiplyTranspose, b1]
    · simp [Evaluator.buildRestrictor, hostMultiply, h1]

/-- **C65**, up to two levels.  For every evaluator the constructor succeeds, and if smoothers and solver
keep the sizes of vectors, applying the hierarchy to vectors of the size of the finest level succeeds
and gives such a vector.  Missing: three and more levels, for which the claim is false
(`C65_debug_violated`, `C65_apply_violated`). -/
theorem C65_two_levels_partial (debug fast zero : Bool) (eps : K)
    (mm : GMat K → GMat K → Outcome (HostOp K)) (ev : Evaluator K) (numLevels : ℕ)
    (h1 : 1 ≤ numLevels) (h2 : numLevels ≤ 2)
    (smooth solve : HostOp K → List K → List K → List K)
    (hsm : ∀ o b x, (smooth o b x).length = x.length)
    (hso : ∀ o b x, (solve o b x).length = x.length)
    (b x : List K) (hb : b.length = ev.nDofs) (hx : x.length = ev.nDofs) :
    ∃ levels, sizedHierarchy debug fast eps mm ev numLevels = .ok levels ∧
      levels.length = numLevels ∧
      ∃ y, sizedApply smooth solve zero levels b x = .ok y ∧ y.length = ev.nDofs := by
  have hx0 : (if zero then List.replicate x.length (0 : K) else x).length = ev.nDofs := by
    cases zero <;> simp [hx]
  obtain rfl | rfl : numLevels = 1 ∨ numLevels = 2 := by omega
  · exact ⟨_, rfl, rfl, _, rfl, by rw [hso, hx0]⟩
  · obtain ⟨ap, C, e1, e2, hr, hc⟩ := coarse_square debug fast eps mm ev
    refine ⟨[⟨ev.globalOperator, none⟩, ⟨.assembled C true, some (ev.buildRestrictor 0)⟩], ?_, rfl, ?_⟩
    · simp only [sizedHierarchy, sizedLoop, e1, Outcome.ok_bind, e2, Outcome.pure_eq]
    · set x1 := smooth ev.globalOperator b (if zero then List.replicate x.length (0 : K) else x)
        with hx1
      have hl1 : x1.length = ev.nDofs := by rw [hx1, hsm, hx0]
      obtain ⟨y1, hy1, ly1⟩ := hostApply_ok ⟨ev.nDofs, ev.nDofs, ev.matrix⟩ x1 hl1 ev.nDofs rfl
      obtain ⟨y2, hy2, ly2⟩ := vecSub_ok y1 b (by rw [ly1, hb])
      have ly1' : y1.length = ev.nDofs := ly1
      obtain ⟨y3, hy3, ly3⟩ := hostApply_ok ⟨ev.nRows 0, ev.nDofs, ev.restrictor 0⟩ y2
        (by rw [ly2, ly1]) C.cols hc
      set xc := solve (.assembled C true) y3 (List.replicate C.cols 0) with hxc
      have lxc : xc.length = ev.nRows 0 := by rw [hxc, hso]; simp [hc]
      obtain ⟨y4, hy4, ly4⟩ := hostApply_tr_ok ⟨ev.nRows 0, ev.nDofs, ev.restrictor 0⟩ xc lxc
        ev.nDofs rfl
      have ly4' : y4.length = ev.nDofs := ly4
      obtain ⟨y5, hy5, ly5⟩ := vecSub_ok x1 y4 (by rw [hl1, ly4'])
      refine ⟨smooth ev.globalOperator b y5, ?_, by rw [hsm, ly5, hl1]⟩
      simp only [sizedApply, Outcome.deref, Outcome.ok_bind, ← hx1]
      simp only [Evaluator.globalOperator, Evaluator.buildRestrictor, HostOp.domainSize] at *
      simp only [hy1, hy2, hy3, Outcome.ok_bind, List.length_replicate, if_true, ← hxc, hy4, hy5,
        Outcome.pure_eq]

/-- **C65**, sizes of the user's vectors.  They are not checked: for every right-hand side, shorter or longer, that
has not one component for each dof, the application of a hierarchy with two levels is undefined. -/
theorem C65_sizes_violated (debug fast zero : Bool) (eps : K)
    (mm : GMat K → GMat K → Outcome (HostOp K)) (ev : Evaluator K)
    (smooth solve : HostOp K → List K → List K → List K)
    (hsm : ∀ o b x, (smooth o b x).length = x.length)
    (b x : List K) (hb : b.length ≠ ev.nDofs) (hx : x.length = ev.nDofs) :
    ∃ levels, sizedHierarchy debug fast eps mm ev 2 = .ok levels ∧
      ∃ why, sizedApply smooth solve zero levels b x = .ub why := by
  have hx0 : (if zero then List.replicate x.length (0 : K) else x).length = ev.nDofs := by
    cases zero <;> simp [hx]
  obtain ⟨ap, C, e1, e2, hr, hc⟩ := coarse_square debug fast eps mm ev
  refine ⟨[⟨ev.globalOperator, none⟩, ⟨.assembled C true, some (ev.buildRestrictor 0)⟩], ?_, ?_⟩
  · simp only [sizedHierarchy, sizedLoop, e1, Outcome.ok_bind, e2, Outcome.pure_eq]
  · set x1 := smooth ev.globalOperator b (if zero then List.replicate x.length (0 : K) else x)
      with hx1
    have hl1 : x1.length = ev.nDofs := by rw [hx1, hsm, hx0]
    obtain ⟨y1, hy1, ly1⟩ := hostApply_ok ⟨ev.nDofs, ev.nDofs, ev.matrix⟩ x1 hl1 ev.nDofs rfl
    have ly1' : y1.length = ev.nDofs := ly1
    have hy2 : vecSub y1 b = .ub "sizes of the vectors" := by
      rw [vecSub, if_neg (by rw [ly1']; exact Ne.symm hb)]
    refine ⟨"sizes of the vectors", ?_⟩
    simp only [sizedApply, Outcome.deref, Outcome.ok_bind, ← hx1]
    simp only [Evaluator.globalOperator, Evaluator.buildRestrictor, HostOp.domainSize] at *
    simp only [hy1, hy2, Outcome.ok_bind, Outcome.ub_bind]

/-- **C65**, three or more levels, debug builds.  Unless the restrictor happens to be square, the
constructor aborts: the second restrictor has been made for the finest level again. -/
theorem C65_debug_violated (eps : K) (mm : GMat K → GMat K → Outcome (HostOp K)) (ev : Evaluator K)
    (hne : ev.nRows 0 ≠ ev.nDofs) (numLevels : ℕ) (h3 : 3 ≤ numLevels) :
    sizedHierarchy true false eps mm ev numLevels = .aborted := by
  obtain ⟨k, rfl⟩ : ∃ k, numLevels = k + 3 := ⟨numLevels - 3, by omega⟩
  obtain ⟨ap, C, e1, e2, hr, hc⟩ := coarse_square true false eps mm ev
  have hm : C.mul (GMat.transpose ⟨ev.nRows 1, ev.nDofs, ev.restrictor 1⟩) = none := by
    unfold GMat.mul
    rw [dif_neg]
    simp only [GMat.transpose]
    omega
  simp only [Bool.false_eq_true, if_false] at e1
  simp only [sizedHierarchy, show k + 3 - 1 = k + 1 + 1 from rfl, sizedLoop,
    Bool.false_eq_true, if_false, e1, Outcome.ok_bind, e2, Nat.zero_add]
  simp [Evaluator.buildRestrictor, hostMultiplyTranspose, hm]

/-- **C65**, three or more levels: whenever the constructor returns (in release builds, or with
`fast_ap`), every application of the hierarchy multiplies a matrix with a vector of the wrong size,
unless the restrictor happens to be square. -/
theorem C65_apply_violated (debug fast zero : Bool) (eps : K)
    (mm : GMat K → GMat K → Outcome (HostOp K)) (ev : Evaluator K)
    (hne : ev.nRows 0 ≠ ev.nDofs) (numLevels : ℕ) (h3 : 3 ≤ numLevels)
    (levels : List (SizedLevel K))
    (hl : sizedHierarchy debug fast eps mm ev numLevels = .ok levels)
    (smooth solve : HostOp K → List K → List K → List K)
    (hsm : ∀ o b x, (smooth o b x).length = x.length)
    (b x : List K) (hb : b.length = ev.nDofs) (hx : x.length = ev.nDofs) :
    sizedApply smooth solve zero levels b x = .ub "size of the source" := by
  obtain ⟨k, rfl⟩ : ∃ k, numLevels = k + 3 := ⟨numLevels - 3, by omega⟩
  obtain ⟨ap, C, e1, e2, hr, hc⟩ := coarse_square debug fast eps mm ev
  simp only [sizedHierarchy, show k + 3 - 1 = k + 1 + 1 from rfl] at hl
  rw [sizedLoop] at hl
  simp only [e1, Outcome.ok_bind, e2, Nat.zero_add] at hl
  obtain ⟨rest, hrest, hl⟩ := Outcome.bind_eq_ok.1 hl
  rw [sizedLoop] at hrest
  obtain ⟨ap', -, hrest⟩ := Outcome.bind_eq_ok.1 hrest
  obtain ⟨a2, -, hrest⟩ := Outcome.bind_eq_ok.1 hrest
  obtain ⟨rest', hrest', hrest⟩ := Outcome.bind_eq_ok.1 hrest
  have hhead : ∃ tl, rest' = ⟨a2, some (ev.buildRestrictor 1)⟩ :: tl := by
    cases k with
    | zero =>
      rw [sizedLoop] at hrest'
      injection hrest' with h
      exact ⟨[], h.symm⟩
    | succ k =>
      rw [sizedLoop] at hrest'
      obtain ⟨_, -, h⟩ := Outcome.bind_eq_ok.1 hrest'
      obtain ⟨_, -, h⟩ := Outcome.bind_eq_ok.1 h
      obtain ⟨tl, -, h⟩ := Outcome.bind_eq_ok.1 h
      injection h with h
      exact ⟨tl, h.symm⟩
  obtain ⟨tl, rfl⟩ := hhead
  injection hrest with hrest
  subst hrest
  injection hl with hl
  subst hl
  have hx0 : (if zero then List.replicate x.length (0 : K) else x).length = ev.nDofs := by
    cases zero <;> simp [hx]
  set x1 := smooth ev.globalOperator b (if zero then List.replicate x.length (0 : K) else x)
    with hx1
  have hl1 : x1.length = ev.nDofs := by rw [hx1, hsm, hx0]
  obtain ⟨y1, hy1, ly1⟩ := hostApply_ok ⟨ev.nDofs, ev.nDofs, ev.matrix⟩ x1 hl1 ev.nDofs rfl
  obtain ⟨y2, hy2, ly2⟩ := vecSub_ok y1 b (by rw [ly1, hb])
  obtain ⟨y3, hy3, ly3⟩ := hostApply_ok ⟨ev.nRows 0, ev.nDofs, ev.restrictor 0⟩ y2
    (by rw [ly2, ly1]) C.cols hc
  have ly3' : y3.length = ev.nRows 0 := ly3
  set x2 := smooth (.assembled C true) y3 (List.replicate C.cols 0) with hx2
  have hl2 : x2.length = C.cols := by rw [hx2, hsm]; simp
  obtain ⟨z1, hz1, lz1⟩ := hostApply_ok C x2 hl2 C.cols (by omega)
  obtain ⟨z2, hz2, lz2⟩ := vecSub_ok z1 y3 (by rw [lz1, ly3', hr])
  have hz3 := hostApply_source ⟨ev.nRows 1, ev.nDofs, ev.restrictor 1⟩ z2
    (by rw [lz2, lz1, hr]; exact hne) a2.domainSize
  simp only [sizedApply, Outcome.deref, Outcome.ok_bind, ← hx1]
  simp only [Evaluator.globalOperator, Evaluator.buildRestrictor, HostOp.domainSize] at *
  simp only [hy1, hy2, hy3, Outcome.ok_bind, List.length_replicate, if_true, ← hx2, hz1, hz2, hz3,
    Outcome.ub_bind]

/-- With `fast_ap` the constructor returns for any number of levels, so that `C65_apply_violated`
applies. -/
theorem C65_fast_constructs (debug : Bool) (eps : K) (mm : GMat K → GMat K → Outcome (HostOp K))
    (ev : Evaluator K) (numLevels : ℕ) (h1 : 1 ≤ numLevels) :
    ∃ levels, sizedHierarchy debug true eps mm ev numLevels = .ok levels ∧
      levels.length = numLevels := by
  have key : ∀ (n l : ℕ) (a : HostOp K) (r : Option (HostOp K)),
      ∃ levels, sizedLoop debug true eps mm ev n l a r = .ok levels ∧ levels.length = n + 1 := by
    intro n
    induction n with
    | zero => exact fun l a r => ⟨_, rfl, rfl⟩
    | succ n ih =>
      intro l a r
      obtain ⟨C, e, -, -⟩ := GMat.mul_some ⟨ev.nRows l, ev.nDofs, ev.restrictor l⟩
        ⟨ev.nDofs, ev.nRows l, ev.ap l⟩ rfl
      obtain ⟨levels, h, hlen⟩ := ih (l + 1) (.assembled C true) (some (ev.buildRestrictor l))
      refine ⟨⟨a, r⟩ :: levels, ?_, by simp [hlen]⟩
      have e2 : hostMultiply mm (ev.buildRestrictor l) (ev.fastAp l) = .ok (.assembled C true) := by
        simp [Evaluator.buildRestrictor, Evaluator.fastAp, hostMultiply, e]
      simp only [sizedLoop, if_true, Outcome.ok_bind, e2, h, Outcome.pure_eq]
  obtain ⟨levels, h, hl⟩ := key (numLevels - 1) 0 ev.globalOperator none
  exact ⟨levels, h, by omega⟩

/-- Three dofs, two agglomerates with one eigenvector each; every call of `build_restrictor` gives the
same restrictor. -/
def exEvaluator : Evaluator ℚ where
  nDofs := 3
  matrix := exAm
  nRows := fun _ => 2
  restrictor := fun _ => exRm
  ap := fun _ => exAm * exRm.transpose

example : ∃ levels, sizedHierarchy true false (1 / 10 ^ 14) (fun _ _ => .ub "") exEvaluator 2 =
    .ok levels ∧ levels.length = 2 ∧
      ∃ y, sizedApply (fun _ _ x => x) (fun _ _ x => x) true levels [1, 2, 3] [0, 0, 0] = .ok y ∧
        y.length = 3 :=
  C65_two_levels_partial true false true _ _ exEvaluator 2 (by norm_num) (by norm_num) _ _
    (by simp) (by simp) _ _ rfl rfl

example : sizedHierarchy true false (1 / 10 ^ 14) (fun _ _ => .ub "") exEvaluator 3 = .aborted :=
  C65_debug_violated _ _ exEvaluator (by decide) 3 (by norm_num)

example : ∃ levels, sizedHierarchy true true (1 / 10 ^ 14) (fun _ _ => .ub "") exEvaluator 3 =
    .ok levels ∧ sizedApply (fun _ _ x => x) (fun _ _ x => x) true levels [1, 2, 3] [0, 0, 0] =
      .ub "size of the source" := by
  obtain ⟨levels, h, -⟩ := C65_fast_constructs true (1 / 10 ^ 14) (fun _ _ => .ub "") exEvaluator 3
    (by norm_num)
  exact ⟨levels, h, C65_apply_violated true true true _ _ exEvaluator (by decide) 3 (by norm_num)
    levels h _ _ (by simp) _ _ rfl rfl⟩

end

example := C65_sizes_violated true false true (1 / 10 ^ 14) (fun _ _ => .ub "") exEvaluator
  (fun _ _ x => x) (fun _ _ x => x) (fun _ _ _ => rfl) [1, 2] (List.replicate exEvaluator.nDofs 0)
  (by decide) (by simp)

end Mfmg
