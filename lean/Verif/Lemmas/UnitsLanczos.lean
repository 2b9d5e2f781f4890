import Verif.Lemmas.Lanczos
import Verif.Lemmas.LanczosTwo
import Verif.Spec.Units

/-!
# Lanczos for a multiple of an operator
-/

set_option autoImplicit false

namespace Mfmg

open scoped InnerProductSpace

section

variable {K : Type} [Field K] [LinearOrder K] [IsStrictOrderedRing K]

omit [LinearOrder K] [IsStrictOrderedRing K] in
theorem getD_map_mul (c : K) (l : List K) (i : ℕ) : (l.map (c * ·)).getD i 0 = c * l.getD i 0 := by
  simp only [List.getD, List.getElem?_map]
  cases l[i]? <;> simp

theorem isRepeated_units {c : K} (hc : 0 < c) (tol : K) (ev : List K) (i : ℕ) :
    isRepeated (c * tol) (ev.map (c * ·)) i = isRepeated tol ev i := by
  unfold isRepeated
  simp only [getD_map_mul, List.length_map, ← mul_add, mul_le_mul_iff_of_pos_left hc]

theorem isMarked_units {c : K} (hc : 0 < c) (tol : K) (ev : List K) (i : ℕ) :
    isMarked (c * tol) (ev.map (c * ·)) i = isMarked tol ev i := by
  unfold isMarked
  simp only [getD_map_mul, ← mul_add, gt_iff_lt, mul_lt_mul_iff_of_pos_left hc]

theorem scanInner_units {c : K} (hc : 0 < c) (tol e : K) (l : List K) (j jStart : ℕ) :
    scanInner (c * tol) (c * e) (l.map (c * ·)) j jStart = scanInner tol e l j jStart := by
  induction l generalizing j jStart with
  | nil => rfl
  | cons x xs ih =>
    simp only [List.map_cons, scanInner, ih, ← mul_add, ← mul_sub, gt_iff_lt,
      mul_lt_mul_iff_of_pos_left hc]

theorem scanOuter_units {c : K} (hc : 0 < c) (tol : K) (ev2 : List K) (l : List (K × Bool)) (jStart : ℕ) :
    scanOuter (c * tol) (ev2.map (c * ·)) (l.map fun x => (c * x.1, x.2)) jStart
      = scanOuter tol ev2 l jStart := by
  induction l generalizing jStart with
  | nil => rfl
  | cons x xs ih =>
    obtain ⟨e, rep⟩ := x
    simp only [List.map_cons, scanOuter, ih, ← List.map_drop, scanInner_units hc]

theorem spuriousFlags_units {c : K} (hc : 0 < c) (tol : K) (ev ev2 : List K) (req : ℕ) :
    spuriousFlags (c * tol) (ev.map (c * ·)) (ev2.map (c * ·)) req = spuriousFlags tol ev ev2 req := by
  unfold spuriousFlags
  simp only [List.length_map, getD_map_mul, isRepeated_units hc]
  rw [← scanOuter_units hc tol ev2, List.map_map]
  rfl

omit [LinearOrder K] [IsStrictOrderedRing K] in
theorem purgeLoop_units (c : K) (bad : ℕ → Bool) (n i : ℕ) (e v : List K) (avail : ℕ) :
    purgeLoop bad n i (e.map (c * ·), v, avail)
      = ((purgeLoop bad n i (e, v, avail)).1.map (c * ·), (purgeLoop bad n i (e, v, avail)).2) := by
  induction i generalizing e v avail with
  | zero => rfl
  | succ i ih =>
    simp only [purgeLoop]
    split_ifs
    · rw [List.eraseIdx_map, ih]
    · exact ih e v avail

/-- The tridiagonal step in other units, the tolerance included. -/
theorem calcTridiagEpairs_units {c : K} (hc : 0 < c) (sqrt : K → K) (tol2 : K)
    (dstev : List K → List K → List K × List K) (hd : DstevScales dstev c) (diag sub : List K) (req : ℕ) :
    calcTridiagEpairs sqrt (c * tol2) dstev (diag.map (c * ·)) (sub.map (c * ·)) req
      = ((calcTridiagEpairs sqrt tol2 dstev diag sub req).1.map (c * ·),
          (calcTridiagEpairs sqrt tol2 dstev diag sub req).2) := by
  unfold calcTridiagEpairs
  simp only [List.length_map, ← List.map_tail, hd diag sub, hd diag.tail sub.tail, spuriousFlags_units hc,
    isMarked_units hc, purgeLoop_units]
  split_ifs <;> simp

end

section

variable {E : Type} [NormedAddCommGroup E] [InnerProductSpace ℝ E]

/-- A state of the iteration in other units: the first vector, the guess, has none. -/
noncomputable def LanczosState.scale (c : ℝ) (s : LanczosState E) : LanczosState E :=
  { s with
    w := if s.vs = [] then s.w else c • s.w
    beta := if s.vs = [] then s.beta else c * s.beta
    diag := s.diag.map (c * ·)
    sub := s.sub.map (c * ·) }

theorem lanczosStep_units (debug : Bool) (A : E → E) {c : ℝ} (hc : 0 < c) (s : LanczosState E) :
    lanczosStep debug (fun x => c • A x) (s.scale c)
      = (do let t ← lanczosStep debug A s; .ok (t.scale c)) := by
  have hc0 : c ≠ 0 := hc.ne'
  unfold lanczosStep
  by_cases hb : s.beta = 0
  · have hb' : (s.scale c).beta = 0 := by
      simp only [LanczosState.scale]
      split_ifs
      · exact hb
      · rw [hb, mul_zero]
    rw [if_pos hb, if_pos hb']
    cases debug <;> rfl
  · have hb' : (s.scale c).beta ≠ 0 := by
      simp only [LanczosState.scale]
      split_ifs
      · exact hb
      · exact mul_ne_zero hc0 hb
    have hv : (s.scale c).beta⁻¹ • (s.scale c).w = s.beta⁻¹ • s.w := by
      simp only [LanczosState.scale]
      split_ifs
      · rfl
      · rw [smul_smul, mul_inv, mul_comm c⁻¹, mul_assoc, inv_mul_cancel₀ hc0, mul_one]
    rw [if_neg hb, if_neg hb', Outcome.ok_bind]
    simp only [hv]
    have hvs : (s.scale c).vs = s.vs := rfl
    rw [hvs]
    cases hl : s.vs.getLast? with
    | none =>
      have hnil : s.vs = [] := List.getLast?_eq_none_iff.1 hl
      simp only [LanczosState.scale, List.append_eq_nil_iff, List.cons_ne_nil, and_false, if_false,
        List.map_append, List.map_cons, List.map_nil, Outcome.ok.injEq, inner_smul_right]
      have hw : c • A (s.beta⁻¹ • s.w) + -(c * ⟪s.beta⁻¹ • s.w, A (s.beta⁻¹ • s.w)⟫_ℝ) • s.beta⁻¹ • s.w
          = c • (A (s.beta⁻¹ • s.w) + -⟪s.beta⁻¹ • s.w, A (s.beta⁻¹ • s.w)⟫_ℝ • s.beta⁻¹ • s.w) := by
        rw [smul_add, smul_smul c, mul_neg]
      rw [hw, norm_smul, Real.norm_of_nonneg hc.le]
    | some p =>
      have hne : s.vs ≠ [] := by rintro h; rw [h] at hl; cases hl
      have hbeta : (s.scale c).beta = c * s.beta := by simp [LanczosState.scale, hne]
      have hw0 : c • A (s.beta⁻¹ • s.w) + -(c * s.beta) • p
          = c • (A (s.beta⁻¹ • s.w) + -s.beta • p) := by
        rw [smul_add, smul_smul c, mul_neg]
      simp only [hbeta, hw0]
      simp only [LanczosState.scale, List.append_eq_nil_iff, List.cons_ne_nil, and_false, if_false,
        List.map_append, List.map_cons, List.map_nil, Outcome.ok.injEq, inner_smul_right]
      generalize A (s.beta⁻¹ • s.w) + -s.beta • p = u
      have hw : c • u + -(c * ⟪s.beta⁻¹ • s.w, u⟫_ℝ) • s.beta⁻¹ • s.w
          = c • (u + -⟪s.beta⁻¹ • s.w, u⟫_ℝ • s.beta⁻¹ • s.w) := by
        rw [smul_add, smul_smul c, mul_neg]
      rw [hw, norm_smul, Real.norm_of_nonneg hc.le]

theorem checkConvergence_units {c : ℝ} (hc : 0 < c) (beta : ℝ) (n req : ℕ) (tol : ℝ) (evecs : List ℝ) :
    checkConvergence (c * beta) n req (c * tol) evecs = checkConvergence beta n req tol evecs := by
  have key : ∀ left i conv, checkLoop (c * beta) (c * tol) n evecs left i conv
      = checkLoop beta tol n evecs left i conv := by
    intro left
    induction left with
    | zero => intros; rfl
    | succ left ih =>
      intro i conv
      simp only [checkLoop, ih, mul_assoc, mul_le_mul_iff_of_pos_left hc]
  unfold checkConvergence
  rw [key]

/-- The result of the loop in other units. -/
noncomputable def LanczosResult.scale (c : ℝ) (r : LanczosResult E) : LanczosResult E :=
  { r with state := r.state.scale c, evals := r.evals.map (c * ·) }

theorem lanczosStep_vs (debug : Bool) (A : E → E) (s t : LanczosState E)
    (h : lanczosStep debug A s = .ok t) : t.vs ≠ [] := by
  unfold lanczosStep at h
  by_cases hb : s.beta = 0
  · rw [if_pos hb] at h
    split at h <;> cases h
  · rw [if_neg hb] at h
    injection h with h
    subst h
    simp

theorem lanczosLoop_units (debug : Bool) (A : E → E) {c : ℝ} (hc : 0 < c)
    (tridiag tridiag' : List ℝ → List ℝ → List ℝ × List ℝ)
    (ht : ∀ d s, tridiag' (d.map (c * ·)) (s.map (c * ·)) = ((tridiag d s).1.map (c * ·), (tridiag d s).2))
    (req : ℕ) (tol : ℝ) (pct : ℤ) (maxit left it prev : ℕ) (r : LanczosResult E) :
    lanczosLoop debug (fun x => c • A x) tridiag' req (c * tol) pct maxit left it prev (r.scale c)
      = (do let r ← lanczosLoop debug A tridiag req tol pct maxit left it prev r; .ok (r.scale c)) := by
  induction left generalizing it prev r with
  | zero => rfl
  | succ left ih =>
    rw [lanczosLoop, lanczosLoop]
    have hst : (r.scale c).state = r.state.scale c := rfl
    rw [hst, lanczosStep_units debug A hc]
    cases hs : lanczosStep debug A r.state with
    | ok s =>
      have hvs := lanczosStep_vs debug A r.state s hs
      have hbeta : (s.scale c).beta = c * s.beta := by simp [LanczosState.scale, hvs]
      simp only [Outcome.ok_bind]
      split_ifs with htest
      · have e : tridiag' (s.scale c).diag (s.scale c).sub
            = ((tridiag s.diag s.sub).1.map (c * ·), (tridiag s.diag s.sub).2) := ht s.diag s.sub
        rw [e, hbeta]
        simp only
        rw [checkConvergence_units hc]
        cases checkConvergence s.beta it req tol (tridiag s.diag s.sub).2 with
        | ok conv =>
          simp only [Outcome.ok_bind]
          have hr : (⟨s.scale c, (tridiag s.diag s.sub).1.map (c * ·), (tridiag s.diag s.sub).2,
              (r.scale c).tests ++ [it], conv⟩ : LanczosResult E)
              = LanczosResult.scale c ⟨s, (tridiag s.diag s.sub).1, (tridiag s.diag s.sub).2,
                r.tests ++ [it], conv⟩ := rfl
          rw [hr]
          cases conv with
          | true => rfl
          | false => simpa using ih (it + 1) it _
        | _ => rfl
      · exact ih (it + 1) prev { r with state := s }
    | throws m => rfl
    | aborted => rfl
    | ub w => rfl

end

end Mfmg
