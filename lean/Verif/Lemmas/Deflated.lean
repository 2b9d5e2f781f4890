import Verif.Spec.Deflated
import Verif.Lemmas.Multiplicity
import Verif.Props.Deflation

/-!
# Lemmas for the Lanczos solver with deflation and multiple eigenvalues
-/

set_option autoImplicit false

namespace Mfmg

open Finset
open scoped InnerProductSpace

section

variable {E : Type} [NormedAddCommGroup E] [InnerProductSpace ℝ E]

theorem deflate_mem {F : Submodule ℝ E} {ds : List E} (hds : ∀ d ∈ ds, d ∈ F) {x : E} (hx : x ∈ F) :
    deflate ds x ∈ F := by
  have h1 : spanList ds ≤ F := Submodule.span_le.2 fun d hd => hds d hd
  have h2 := F.sub_mem hx (h1 (deflate_sub_mem ds x))
  rwa [sub_sub_cancel] at h2

theorem inner_deflate_left (ds : List E) (x y : E) (h : OrthogonalTo ds y) : ⟪deflate ds x, y⟫_ℝ = ⟪x, y⟫_ℝ := by
  rw [real_inner_comm, inner_deflate ds x y h, real_inner_comm]

/-- What one cycle returns. -/
theorem cycle_facts {debug : Bool} {A : E →ₗ[ℝ] E} {F : Submodule ℝ E} (hmaps : ∀ x ∈ F, A x ∈ F)
    (hsymm : ∀ x ∈ F, ∀ y ∈ F, ⟪A x, y⟫_ℝ = ⟪x, A y⟫_ℝ) {dstev : List ℝ → List ℝ → List ℝ × List ℝ}
    (hd : DstevContract dstev) {tol2 : ℝ} {per : ℕ} (hper : 0 < per) {p : LanczosParams} (hmax : 0 < p.maxit)
    {found : List E} {g : E} {r : LanczosResult E} {ys : List E}
    (h : IsCycle debug A F (calcTridiagEpairs Real.sqrt tol2 dstev) per p found g r ys) :
    r.evals.length = per ∧ ys.length = per ∧ OrthonormalList ys ∧
      ∀ (i : ℕ) (θ : ℝ) (y : E), r.evals[i]? = some θ → ys[i]? = some y →
        ‖y‖ = 1 ∧ y ∈ F ∧ OrthogonalTo found y ∧ ⟪A y, y⟫_ℝ = θ ∧
          (r.converged = true → ‖deflatedVmult A found y - θ • y‖ ≤ p.tol) := by
  obtain ⟨-, h2, h3, h4, h5, h6⟩ := lanczos_run_facts debug ((deflateLin found).comp A) (F ⊓ complement found)
    (fun x hx => ⟨deflate_mem h.mem (hmaps x hx.1), deflate_orthogonal found h.orth (A x)⟩) (by
      intro x hx y hy
      change ⟪deflate found (A x), y⟫_ℝ = ⟪x, deflate found (A y)⟫_ℝ
      rw [inner_deflate found _ _ hx.2, inner_deflate_left found _ _ hy.2]
      exact hsymm x hx.1 y hy.1) dstev hd tol2 per hper p hmax g ⟨h.startMem, h.startOrth⟩ r ys h.run
  refine ⟨h2, h3, ⟨fun y hy => ?_, ?_⟩, fun i θ y e1 e2 => ?_⟩
  · obtain ⟨i, hi, e⟩ := List.mem_iff_getElem.1 hy
    exact (h4 i _ y (List.getElem?_eq_getElem (by omega)) (by rw [List.getElem?_eq_getElem hi, e])).1
  · rw [List.pairwise_iff_getElem]
    intro i j hi hj hij
    exact h5 i j _ _ (by omega) (List.getElem?_eq_getElem hi) (List.getElem?_eq_getElem hj)
  · obtain ⟨a1, a2, -, a4⟩ := h4 i θ y e1 e2
    have a5 := h6 i i θ y y e1 e2 e2
    refine ⟨a1, a2.1, a2.2, ?_, a4⟩
    change ⟪deflate found (A y) - θ • y, y⟫_ℝ = 0 at a5
    rw [inner_sub_left, inner_deflate_left found _ _ a2.2, inner_smul_left, real_inner_self_eq_norm_sq, a1] at a5
    simp only [conj_trivial] at a5
    linarith

/-- What is known about the pairs collected so far. -/
structure TraceInv (debug : Bool) (A : E → E) (F : Submodule ℝ E) (tridiag : List ℝ → List ℝ → ℕ → List ℝ × List ℝ)
    (per : ℕ) (p : LanczosParams) (cycle : ℕ) (evals : List ℝ) (evecs : List E) : Prop where
  lenVals : evals.length = cycle * per
  lenVecs : evecs.length = cycle * per
  orth : OrthonormalList evecs
  mem : ∀ y ∈ evecs, y ∈ F
  cycles : ∀ (i : ℕ) (θ : ℝ) (y : E), evals[i]? = some θ → evecs[i]? = some y → ∃ ds g r ys j,
    IsCycle debug A F tridiag per p ds g r ys ∧ r.evals[j]? = some θ ∧ ys[j]? = some y ∧ j < per ∧ ds.length + j = i ∧
      spanList ds = spanList (evecs.take ds.length)

theorem TraceInv.step {debug : Bool} {A : E → E} {F : Submodule ℝ E} {tridiag : List ℝ → List ℝ → ℕ → List ℝ × List ℝ}
    {per : ℕ} {p : LanczosParams} {cycle : ℕ} {evals : List ℝ} {evecs : List E}
    (h : TraceInv debug A F tridiag per p cycle evals evecs) {ds : List E} (hdl : ds.length = cycle * per)
    (hsp : spanList ds = spanList evecs) {g : E} {r : LanczosResult E} {ys : List E}
    (hcyc : IsCycle debug A F tridiag per p ds g r ys) (hl : r.evals.length = per) (hly : ys.length = per)
    (hon : OrthonormalList ys) (yF : ∀ y ∈ ys, y ∈ F)
    (yo : ∀ y ∈ ys, OrthogonalTo ds y) :
    TraceInv debug A F tridiag per p (cycle + 1) (evals ++ r.evals) (evecs ++ ys) where
  lenVals := by rw [List.length_append, h.lenVals, hl, Nat.succ_mul]
  lenVecs := by rw [List.length_append, h.lenVecs, hly, Nat.succ_mul]
  orth := by
    constructor
    · intro x hx
      rcases List.mem_append.1 hx with hx | hx
      · exact h.orth.unit x hx
      · exact hon.unit x hx
    · rw [List.pairwise_append]
      exact ⟨h.orth.orth, hon.orth, fun x hx z hz =>
        orthogonalTo_span ds z (yo z hz) x (hsp ▸ Submodule.subset_span hx)⟩
  mem := by
    intro z hz
    rcases List.mem_append.1 hz with hz | hz
    · exact h.mem z hz
    · exact yF z hz
  cycles := by
    have hl1 := h.lenVals
    have hl2 := h.lenVecs
    intro i θ y e1 e2
    rcases Nat.lt_or_ge i (cycle * per) with hi | hi
    · rw [List.getElem?_append_left (by omega)] at e1 e2
      obtain ⟨ds', g', r', ys', j, b1, b2, b3, b4, b5, b6⟩ := h.cycles i θ y e1 e2
      refine ⟨ds', g', r', ys', j, b1, b2, b3, b4, b5, ?_⟩
      rw [List.take_append_of_le_length (by omega)]
      exact b6
    · rw [List.getElem?_append_right (by omega)] at e1 e2
      rw [hl1] at e1
      rw [hl2] at e2
      have hj : i - cycle * per < per := by
        by_contra hc
        rw [List.getElem?_eq_none (by omega)] at e1
        cases e1
      refine ⟨ds, g, r, ys, i - cycle * per, hcyc, e1, e2, hj, by omega, ?_⟩
      rw [List.take_append_of_le_length (by omega), List.take_of_length_le (by omega)]
      exact hsp

theorem spanList_congr_append {ds vs ys : List E} (h : spanList ds = spanList vs) :
    spanList (ds ++ ys) = spanList (vs ++ ys) := by
  refine le_antisymm (Submodule.span_le.2 ?_) (Submodule.span_le.2 ?_)
  · intro x hx
    rcases List.mem_append.1 (show x ∈ ds ++ ys from hx) with hx | hx
    · have h1 : x ∈ spanList vs := h ▸ Submodule.subset_span hx
      exact Submodule.span_mono (fun z (hz : z ∈ vs) => List.mem_append_left _ hz) h1
    · exact Submodule.subset_span (show x ∈ vs ++ ys from List.mem_append_right _ hx)
  · intro x hx
    rcases List.mem_append.1 (show x ∈ vs ++ ys from hx) with hx | hx
    · have h1 : x ∈ spanList ds := h ▸ Submodule.subset_span hx
      exact Submodule.span_mono (fun z (hz : z ∈ ds) => List.mem_append_left _ hz) h1
    · exact Submodule.subset_span (show x ∈ ds ++ ys from List.mem_append_right _ hx)

/-- The cycles of a solve with deflation. -/
theorem cycles_trace {debug : Bool} {A : E →ₗ[ℝ] E} {F : Submodule ℝ E} (hmaps : ∀ x ∈ F, A x ∈ F)
    (hsymm : ∀ x ∈ F, ∀ y ∈ F, ⟪A x, y⟫_ℝ = ⟪x, A y⟫_ℝ) {dstev : List ℝ → List ℝ → List ℝ × List ℝ}
    (hd : DstevContract dstev) {tol2 : ℝ} {per : ℕ} (hper : 0 < per) {p : LanczosParams} (hmax : 0 < p.maxit)
    {perturb : ℕ → E → E} (hpert : ∀ c, ∀ x ∈ F, perturb c x ∈ F) {cycles : ℕ} {guess : E} (hg : guess ∈ F)
    {evals : List ℝ} {evecs : List E}
    (h : cycleLoop debug (fun ds g => do
        let r ← solveLanczos debug (deflatedVmult A ds) (calcTridiagEpairs Real.sqrt tol2 dstev) per p g
        pure (r.1.evals, r.2)) perturb per cycles cycles 0 [] guess ([], []) = .ok (evals, evecs)) :
    TraceInv debug A F (calcTridiagEpairs Real.sqrt tol2 dstev) per p cycles evals evecs := by
  have key : ∀ (left cycle : ℕ) (ds : List E) (guess : E) (acc1 : List ℝ) (acc2 : List E),
      cycle + left = cycles → OrthonormalList ds → (∀ d ∈ ds, d ∈ F) → ds.length = cycle * per →
      spanList ds = spanList acc2 → guess ∈ F →
      TraceInv debug A F (calcTridiagEpairs Real.sqrt tol2 dstev) per p cycle acc1 acc2 →
      cycleLoop debug (fun ds g => do
        let r ← solveLanczos debug (deflatedVmult A ds) (calcTridiagEpairs Real.sqrt tol2 dstev) per p g
        pure (r.1.evals, r.2)) perturb per cycles left cycle ds guess (acc1, acc2) = .ok (evals, evecs) →
      TraceInv debug A F (calcTridiagEpairs Real.sqrt tol2 dstev) per p cycles evals evecs := by
    intro left
    induction left with
    | zero =>
      intro cycle ds guess acc1 acc2 hc _ _ _ _ _ ha h
      simp only [cycleLoop, Outcome.ok.injEq, Prod.mk.injEq] at h
      obtain ⟨rfl, rfl⟩ := h
      obtain rfl : cycle = cycles := by omega
      exact ha
    | succ left ih =>
      intro cycle ds guess acc1 acc2 hc hds hdF hdl hsp hgF ha h
      rw [cycleLoop] at h
      simp only [Outcome.bind_eq_ok] at h
      obtain ⟨ep, ⟨⟨r, ys⟩, hr, hep⟩, sv, hsv, h⟩ := h
      simp only [Outcome.pure_eq, Outcome.ok.injEq] at hep
      subst hep
      obtain ⟨start, hstart⟩ : ∃ start, start = deflate ds (if cycle > 0 then perturb cycle guess else guess) := ⟨_, rfl⟩
      rw [← hstart] at hr h
      have hsF : start ∈ F := by
        rw [hstart]
        refine deflate_mem hdF ?_
        split_ifs
        · exact hpert _ _ hgF
        · exact hgF
      have hcyc : IsCycle debug A F (calcTridiagEpairs Real.sqrt tol2 dstev) per p ds start r ys :=
        ⟨hds, hdF, hsF, hstart ▸ deflate_orthogonal ds hds _, hr⟩
      obtain ⟨c1, c2, c3, c4⟩ := cycle_facts hmaps hsymm hd hper hmax hcyc
      have hmem : ∀ y ∈ ys, y ∈ F ∧ OrthogonalTo ds y := by
        intro y hy
        obtain ⟨i, hi, e⟩ := List.mem_iff_getElem.1 hy
        obtain ⟨-, k2, k3, -⟩ := c4 i _ y (List.getElem?_eq_getElem (by omega)) (by rw [List.getElem?_eq_getElem hi, e])
        exact ⟨k2, k3⟩
      simp only [savePairs, c1, c2, le_refl, and_self, if_true, Outcome.ok.injEq] at hsv
      rw [List.take_of_length_le (by omega), List.take_of_length_le (by omega)] at hsv
      subst hsv
      simp only at h
      have ha' := ha.step hdl hsp hcyc c1 c2 c3 (fun y hy => (hmem y hy).1) (fun y hy => (hmem y hy).2)
      by_cases hlast : cycle ≠ cycles - 1
      · rw [if_pos hlast, Outcome.bind_eq_ok] at h
        obtain ⟨ds', hds', h⟩ := h
        obtain ⟨d1, d2, d3, -⟩ := C28_add debug ds ys hds ds' hds'
        have hspan : spanList ds' = spanList (acc2 ++ ys) := d2.trans (spanList_congr_append hsp)
        refine ih (cycle + 1) ds' _ _ _ (by omega) d1 ?_ (by rw [d3, hdl, c2, Nat.succ_mul]) hspan hsF ha' h
        intro d hd
        have h1 : d ∈ spanList (acc2 ++ ys) := hspan ▸ Submodule.subset_span hd
        exact (Submodule.span_le.2 fun z hz => ha'.mem z hz : spanList (acc2 ++ ys) ≤ F) h1
      · rw [if_neg hlast] at h
        have hleft : left = 0 := by push Not at hlast; omega
        subst hleft
        simp only [cycleLoop, Outcome.ok.injEq, Prod.mk.injEq] at h
        obtain ⟨rfl, rfl⟩ := h
        obtain rfl : cycle + 1 = cycles := by omega
        exact ha'
  exact key cycles 0 [] guess [] [] (by omega) ⟨by simp, List.Pairwise.nil⟩ (by simp) (by simp) rfl hg
    ⟨by simp, by simp, ⟨by simp, List.Pairwise.nil⟩, by simp, by simp⟩ h

end

/-- In a sorted list value number `k` is at most one of the first `k + 1` values of the list before sorting. -/
theorem sorted_le_some {l L : List ℝ} (hp : l.Perm L) (hs : l.Pairwise (· ≤ ·)) {k : ℕ} {θ : ℝ} (hk : l[k]? = some θ) :
    ∃ i t, i ≤ k ∧ L[i]? = some t ∧ θ ≤ t := by
  have hkl : k < l.length := by
    by_contra hc
    rw [List.getElem?_eq_none (by omega)] at hk
    cases hk
  have hlen := hp.length_eq
  by_contra hall
  push Not at hall
  have h1 : L.countP (fun t => decide (t < θ)) ≥ k + 1 := by
    have : (L.take (k + 1)).countP (fun t => decide (t < θ)) = k + 1 := by
      rw [List.countP_eq_length.2, List.length_take]
      · omega
      · intro t ht
        obtain ⟨i, hi, e⟩ := List.mem_iff_getElem.1 ht
        rw [List.length_take] at hi
        rw [List.getElem_take] at e
        exact decide_eq_true (hall i t (by omega) (by rw [← e]; exact List.getElem?_eq_getElem (by omega)))
    rw [← this]
    exact (List.take_sublist _ _).countP_le
  have h2 : l.countP (fun t => decide (t < θ)) ≤ k := by
    rw [← List.take_append_drop k l, List.countP_append]
    have h3 : (l.drop k).countP (fun t => decide (t < θ)) = 0 := by
      rw [List.countP_eq_zero]
      intro t ht
      obtain ⟨i, hi, e⟩ := List.mem_iff_getElem.1 ht
      rw [List.length_drop] at hi
      rw [List.getElem_drop] at e
      have hθ : l[k] = θ := by
        rw [List.getElem?_eq_getElem hkl] at hk
        exact Option.some.inj hk
      have : l[k] ≤ l[k + i] := by
        rcases Nat.eq_zero_or_pos i with h0 | h0
        · simp [h0]
        · exact List.pairwise_iff_getElem.1 hs _ _ hkl (by omega) (by omega)
      simp only [decide_eq_true_eq, not_lt]
      linarith
    rw [h3]
    exact (List.countP_le_length).trans (by rw [List.length_take]; omega)
  rw [hp.countP_eq] at h2
  omega

section

variable {E : Type} [NormedAddCommGroup E] [InnerProductSpace ℝ E]

/-- Among the combinations of `m` vectors there is one that is orthogonal to fewer than `m` given vectors. -/
theorem exists_combination {m : ℕ} {ι : Type} [Fintype ι] (x : Fin m → E) (d : ι → E) (h : Fintype.card ι < m) :
    ∃ c : Fin m → ℝ, c ≠ 0 ∧ ∀ j, ⟪d j, ∑ i, c i • x i⟫_ℝ = 0 := by
  let f : (Fin m → ℝ) →ₗ[ℝ] (ι → ℝ) :=
    { toFun := fun c j => ⟪d j, ∑ i, c i • x i⟫_ℝ
      map_add' := by
        intro a b
        funext lam
        simp only [Pi.add_apply, add_smul, Finset.sum_add_distrib, inner_add_right]
      map_smul' := by
        intro a b
        funext lam
        simp only [Pi.smul_apply, smul_eq_mul, mul_smul, ← Finset.smul_sum, inner_smul_right, RingHom.id_apply] }
  have hker : LinearMap.ker f ≠ ⊥ := by
    refine LinearMap.ker_ne_bot_of_finrank_lt ?_
    simp only [Module.finrank_fintype_fun_eq_card, Fintype.card_fin]
    exact h
  obtain ⟨c, hc, hc0⟩ := Submodule.exists_mem_ne_zero_of_ne_bot hker
  exact ⟨c, hc0, fun j => congrFun (LinearMap.mem_ker.1 hc) j⟩

/-- Combinations of eigenvectors for eigenvalues of at most `μ`. -/
theorem quad_span {A : E →ₗ[ℝ] E} {F : Submodule ℝ E} [FiniteDimensional ℝ F] (hmaps : ∀ x ∈ F, A x ∈ F)
    (hsymm : ∀ x ∈ F, ∀ y ∈ F, ⟪A x, y⟫_ℝ = ⟪x, A y⟫_ℝ) {m : ℕ} {x : Fin m → E} {lam : Fin m → ℝ} {μ : ℝ}
    (hx : ∀ i, x i ∈ F ∧ A (x i) = lam i • x i ∧ lam i ≤ μ) (c : Fin m → ℝ) :
    ⟪A (∑ i, c i • x i), ∑ i, c i • x i⟫_ℝ ≤ μ * ⟪∑ i, c i • x i, ∑ i, c i • x i⟫_ℝ := by
  have hmem : ∑ i, c i • x i ∈ F := Submodule.sum_mem _ fun i _ => Submodule.smul_mem _ _ (hx i).1
  have := quad_above (A := -A) (μ := -μ) (fun y hy => F.neg_mem (hmaps y hy)) (fun y hy z hz => by
    rw [LinearMap.neg_apply, LinearMap.neg_apply, inner_neg_left, inner_neg_right, hsymm y hy z hz]) hmem
    (fun t ht u hu hAu => by
      rw [inner_sum]
      refine Finset.sum_eq_zero fun i _ => ?_
      rw [inner_smul_right]
      have h1 := hsymm u hu (x i) (hx i).1
      have h2 : A u = (-t) • u := by
        rw [neg_smul, ← hAu, LinearMap.neg_apply, neg_neg]
      rw [h2, (hx i).2.1, inner_smul_left, inner_smul_right] at h1
      simp only [conj_trivial] at h1
      have h3 := (hx i).2.2
      have h4 : (-t - lam i) * ⟪u, x i⟫_ℝ = 0 := by linarith
      rcases mul_eq_zero.1 h4 with h5 | h5
      · linarith
      · rw [h5, mul_zero])
  rw [LinearMap.neg_apply, inner_neg_left] at this
  linarith

/-- With `k + 1` independent eigenvectors for eigenvalues of at most `μ` there are `j + 1` independent vectors orthogonal
to `k - j` given ones, and all their combinations have Rayleigh quotients of at most `μ`. -/
theorem small_orthogonal {A : E →ₗ[ℝ] E} {F : Submodule ℝ E} [FiniteDimensional ℝ F] (hmaps : ∀ x ∈ F, A x ∈ F)
    (hsymm : ∀ x ∈ F, ∀ y ∈ F, ⟪A x, y⟫_ℝ = ⟪x, A y⟫_ℝ) {k : ℕ} {x : Fin (k + 1) → E} {lam : Fin (k + 1) → ℝ} {μ : ℝ}
    (hx : ∀ i, x i ∈ F ∧ A (x i) = lam i • x i ∧ lam i ≤ μ) (hind : LinearIndependent ℝ x) {ds : List E} {j : ℕ}
    (hds : ds.length + j ≤ k) : ∃ z : Fin (j + 1) → E, (∀ i, z i ∈ F ∧ OrthogonalTo ds (z i)) ∧
      LinearIndependent ℝ z ∧ ∀ c : Fin (j + 1) → ℝ,
        ⟪A (∑ i, c i • z i), ∑ i, c i • z i⟫_ℝ ≤ μ * ⟪∑ i, c i • z i, ∑ i, c i • z i⟫_ℝ := by
  let T : (Fin (k + 1) → ℝ) →ₗ[ℝ] E := Fintype.linearCombination ℝ x
  have hT : ∀ c, T c = ∑ i, c i • x i := fun c => Fintype.linearCombination_apply ℝ x c
  let f : (Fin (k + 1) → ℝ) →ₗ[ℝ] (Fin ds.length → ℝ) :=
    { toFun := fun c l => ⟪ds[l], T c⟫_ℝ
      map_add' := by
        intro a b
        funext l
        simp only [map_add, inner_add_right, Pi.add_apply]
      map_smul' := by
        intro a b
        funext l
        simp only [map_smul, inner_smul_right, Pi.smul_apply, smul_eq_mul, RingHom.id_apply] }
  have hker : j + 1 ≤ Module.finrank ℝ (LinearMap.ker f) := by
    have h1 := LinearMap.finrank_range_add_finrank_ker f
    have h2 := Submodule.finrank_le (LinearMap.range f)
    simp only [Module.finrank_fintype_fun_eq_card, Fintype.card_fin] at h1 h2
    omega
  obtain ⟨u, hu⟩ := exists_linearIndependent_of_le_finrank hker
  have hu' : LinearIndependent ℝ (fun i => (u i : Fin (k + 1) → ℝ)) :=
    hu.map' (LinearMap.ker f).subtype (Submodule.ker_subtype _)
  have hTker : LinearMap.ker T = ⊥ := by
    rw [LinearMap.ker_eq_bot']
    intro c hc
    rw [hT] at hc
    exact funext (Fintype.linearIndependent_iff.1 hind c hc)
  refine ⟨fun i => T (u i), fun i => ⟨?_, ?_⟩, hu'.map' T hTker, fun c => ?_⟩
  · change T (u i) ∈ F
    rw [hT]
    exact Submodule.sum_mem _ fun l _ => Submodule.smul_mem _ _ (hx l).1
  · intro d hd
    obtain ⟨l, hl, rfl⟩ := List.mem_iff_getElem.1 hd
    exact congrFun (LinearMap.mem_ker.1 (u i).2) ⟨l, hl⟩
  · have : ∑ i, c i • T (u i) = ∑ l, (∑ i, c i • (u i : Fin (k + 1) → ℝ)) l • x l := by
      rw [← hT, map_sum]
      refine Finset.sum_congr rfl fun i _ => ?_
      rw [map_smul]
    rw [this]
    exact quad_span hmaps hsymm hx _

/-- If the form is below `μ` on the combinations of `m` vectors, there are `m` orthonormal eigenvectors for eigenvalues
below `μ`. -/
theorem many_below {A : E →ₗ[ℝ] E} {F : Submodule ℝ E} [FiniteDimensional ℝ F] (hmaps : ∀ x ∈ F, A x ∈ F)
    (hsymm : ∀ x ∈ F, ∀ y ∈ F, ⟪A x, y⟫_ℝ = ⟪x, A y⟫_ℝ) {m : ℕ} {y : Fin m → E} (hy : ∀ i, y i ∈ F) {μ : ℝ}
    (hquad : ∀ c : Fin m → ℝ, c ≠ 0 → ⟪A (∑ i, c i • y i), ∑ i, c i • y i⟫_ℝ <
      μ * ⟪∑ i, c i • y i, ∑ i, c i • y i⟫_ℝ) :
    ∃ (b : Fin m → E) (lam : Fin m → ℝ), Orthonormal ℝ b ∧ ∀ i, b i ∈ F ∧ A (b i) = lam i • b i ∧ lam i < μ := by
  obtain ⟨N, b, lam, hb, hbF, he, hs⟩ := invariant_basis hmaps hsymm
  obtain ⟨S, hS⟩ : ∃ S : Finset (Fin N), S = univ.filter (fun i => lam i < μ) := ⟨_, rfl⟩
  by_cases hcard : m ≤ S.card
  · let e : Fin m → Fin N := fun i => S.equivFin.symm (Fin.castLE hcard i)
    have hinj : Function.Injective e := fun i j hij => by
      have := S.equivFin.symm.injective (Subtype.ext hij)
      exact Fin.castLE_injective hcard this
    refine ⟨fun i => b (e i), fun i => lam (e i), hb.comp e hinj, fun i => ⟨hbF _, he _, ?_⟩⟩
    have h1 : e i ∈ S := (S.equivFin.symm (Fin.castLE hcard i)).2
    rw [hS] at h1
    exact (Finset.mem_filter.1 h1).2
  · obtain ⟨c, hc0, hc⟩ := exists_combination y (fun j : S => b j) (by rw [Fintype.card_coe]; omega)
    have hmem : ∑ i, c i • y i ∈ F := Submodule.sum_mem _ fun i _ => Submodule.smul_mem _ _ (hy i)
    have h1 := hquad c hc0
    obtain ⟨q1, q2⟩ := basis_quad hmaps hsymm hbF he hs hmem
    rw [q1, q2, Finset.mul_sum] at h1
    have h2 : ∑ i, μ * ⟪b i, ∑ i, c i • y i⟫_ℝ ^ 2 ≤ ∑ i, lam i * ⟪b i, ∑ i, c i • y i⟫_ℝ ^ 2 := by
      refine Finset.sum_le_sum fun i _ => ?_
      by_cases hi : lam i < μ
      · rw [hc ⟨i, by rw [hS]; exact Finset.mem_filter.2 ⟨Finset.mem_univ _, hi⟩⟩]
        simp
      · exact mul_le_mul_of_nonneg_right (not_lt.1 hi) (sq_nonneg _)
    linarith

/-- Vectors that almost diagonalise the operator. -/
theorem almost_diagonal {A : E →ₗ[ℝ] E} {m : ℕ} {y : Fin m → E} {θ : Fin m → ℝ} (ho : Orthonormal ℝ y) {tol : ℝ}
    (hdiag : ∀ i, ⟪A (y i), y i⟫_ℝ = θ i) (hoff : ∀ i j, i ≠ j → |⟪A (y i), y j⟫_ℝ| ≤ tol) {μ : ℝ}
    (hθ : ∀ i, θ i + ((m : ℝ) - 1) * tol < μ) (c : Fin m → ℝ) (hc : c ≠ 0) :
    ⟪A (∑ i, c i • y i), ∑ i, c i • y i⟫_ℝ < μ * ⟪∑ i, c i • y i, ∑ i, c i • y i⟫_ℝ := by
  have h1 : ⟪∑ i, c i • y i, ∑ i, c i • y i⟫_ℝ = ∑ i, c i ^ 2 := by
    have h2 : ∀ i, ⟪y i, ∑ j, c j • y j⟫_ℝ = c i := fun i => ho.inner_right_fintype c i
    rw [sum_inner]
    refine Finset.sum_congr rfl fun i _ => ?_
    rw [inner_smul_left, h2]
    simp only [conj_trivial]
    ring
  have h2 : ⟪A (∑ i, c i • y i), ∑ i, c i • y i⟫_ℝ = ∑ i, ∑ j, c i * c j * ⟪A (y i), y j⟫_ℝ := by
    rw [map_sum, sum_inner]
    refine Finset.sum_congr rfl fun i _ => ?_
    rw [inner_sum]
    refine Finset.sum_congr rfl fun j _ => ?_
    rw [map_smul, inner_smul_left, inner_smul_right]
    simp only [conj_trivial]
    ring
  have h3 : ∑ i, ∑ j, c i * c j * ⟪A (y i), y j⟫_ℝ ≤
      ∑ i, ∑ j, (tol * c i ^ 2 / 2 + tol * c j ^ 2 / 2 + if i = j then (θ i - tol) * c i ^ 2 else 0) := by
    refine Finset.sum_le_sum fun i _ => Finset.sum_le_sum fun j _ => ?_
    by_cases hij : i = j
    · subst hij
      rw [if_pos rfl, hdiag i]
      nlinarith
    · rw [if_neg hij, add_zero]
      have h4 := hoff i j hij
      have h0 : 0 ≤ tol := (abs_nonneg _).trans h4
      have h5 : c i * c j * ⟪A (y i), y j⟫_ℝ ≤ |c i * c j| * tol := by
        refine (le_abs_self _).trans ?_
        rw [abs_mul]
        exact mul_le_mul_of_nonneg_left h4 (abs_nonneg _)
      have h6 : |c i * c j| ≤ (c i ^ 2 + c j ^ 2) / 2 := by
        rw [abs_le]
        constructor <;> nlinarith [sq_nonneg (c i - c j), sq_nonneg (c i + c j)]
      nlinarith
  have h4 : ∑ i, ∑ j, (tol * c i ^ 2 / 2 + tol * c j ^ 2 / 2 + if i = j then (θ i - tol) * c i ^ 2 else 0) =
      ∑ i, (θ i + ((m : ℝ) - 1) * tol) * c i ^ 2 := by
    have h5 : ∀ i : Fin m, ∑ j, (tol * c i ^ 2 / 2 + tol * c j ^ 2 / 2 + if i = j then (θ i - tol) * c i ^ 2 else 0) =
        m * (tol * c i ^ 2 / 2) + ∑ j, tol * c j ^ 2 / 2 + (θ i - tol) * c i ^ 2 := by
      intro i
      rw [Finset.sum_add_distrib, Finset.sum_add_distrib, Finset.sum_const, Finset.card_univ, Fintype.card_fin,
        nsmul_eq_mul, Finset.sum_ite_eq]
      simp
    rw [Finset.sum_congr rfl fun i _ => h5 i, Finset.sum_add_distrib, Finset.sum_add_distrib, Finset.sum_const,
      Finset.card_univ, Fintype.card_fin, nsmul_eq_mul, Finset.mul_sum, ← Finset.sum_add_distrib,
      ← Finset.sum_add_distrib]
    refine Finset.sum_congr rfl fun i _ => ?_
    ring
  rw [h1, h2]
  refine (h3.trans h4.le).trans_lt ?_
  rw [Finset.mul_sum]
  obtain ⟨i, hi⟩ : ∃ i, c i ≠ 0 := by
    by_contra hall
    push Not at hall
    exact hc (funext hall)
  refine Finset.sum_lt_sum (fun j _ => mul_le_mul_of_nonneg_right (hθ j).le (sq_nonneg _)) ⟨i, Finset.mem_univ _, ?_⟩
  exact mul_lt_mul_of_pos_right (hθ i) (by positivity)

end

section

variable {size : ℕ} {M : ℕ → ℕ → ℝ} {constrained : ℕ → Bool}

omit M constrained in
/-- One cycle returns its values in increasing order. -/
theorem one_cycle_sorted {E : Type} [NormedAddCommGroup E] [InnerProductSpace ℝ E] {debug : Bool} {A : E →ₗ[ℝ] E}
    {F : Submodule ℝ E} (hmaps : ∀ x ∈ F, A x ∈ F)
    (hsymm : ∀ x ∈ F, ∀ y ∈ F, ⟪A x, y⟫_ℝ = ⟪x, A y⟫_ℝ) {dstev : List ℝ → List ℝ → List ℝ × List ℝ}
    (hd : DstevContract dstev) {per : ℕ} (hper : 0 < per) {p : LanczosParams} (hmax : 0 < p.maxit)
    {perturb : ℕ → E → E} {guess : E} (hg : guess ∈ F) {evals : List ℝ} {evecs : List E}
    (h : cycleLoop debug (fun ds g => do
        let r ← solveLanczos debug (deflatedVmult A ds) (calcTridiagEpairs Real.sqrt 5e-12 dstev) per p g
        pure (r.1.evals, r.2)) perturb per 1 1 0 [] guess ([], []) = .ok (evals, evecs)) :
    evals.Pairwise (· ≤ ·) := by
  rw [cycleLoop] at h
  simp only [Outcome.bind_eq_ok] at h
  obtain ⟨ep, ⟨⟨r, ys⟩, hr, hep⟩, sv, hsv, h⟩ := h
  simp only [Outcome.pure_eq, Outcome.ok.injEq] at hep
  subst hep
  have hr' : solveLanczos debug A (calcTridiagEpairs Real.sqrt 5e-12 dstev) per p guess = .ok (r, ys) := hr
  obtain ⟨hinv, c1, c2, -⟩ := lanczos_run_facts debug A F hmaps hsymm dstev hd 5e-12 per hper p hmax guess hg r ys hr'
  simp only [savePairs, c1, c2, le_refl, and_self, if_true, Outcome.ok.injEq] at hsv
  rw [List.take_of_length_le (by omega), List.take_of_length_le (by omega)] at hsv
  subst hsv
  rw [if_neg (by simp)] at h
  simp only [cycleLoop, Outcome.ok.injEq, Prod.mk.injEq, List.nil_append] at h
  obtain ⟨rfl, rfl⟩ := h
  exact (run_sorted debug A dstev hd 5e-12 (by norm_num) per hper p hmax guess hinv hr' c1).imp fun h => h.le

theorem libraryNoise_free (noise : ℕ → ℕ → ℝ) (c : ℕ) (x : EuclideanSpace ℝ (Fin size))
    (hx : x ∈ freeVectors size constrained) : libraryNoise size noise c x ∈ freeVectors size constrained := by
  intro i hi
  change (1 + noise c i) * x i = 0
  rw [hx i hi, mul_zero]

/-- A call of the library with deflation. -/
theorem localLanczos_deflated {debug : Bool} {dstev : List ℝ → List ℝ → List ℝ × List ℝ} (hd : DstevContract dstev)
    {sortPerm : List ℝ → List ℕ} (hs : SortsIndices sortPerm) {noise : ℕ → ℕ → ℝ}
    (h : SymmetricUncoupled size M constrained) {draw : ℕ → ℝ} {emptyVec : EuclideanSpace ℝ (Fin size)} {n per cycles : ℕ}
    (hper : 0 < per) (hn : n ≤ cycles * per) {tolerance : ℝ} {o : LanczosOptions}
    (hdef : o.deflated = some (per, cycles))
    (hmax : 0 < o.maxIterations.getD 200) {es : List ℝ} {ys : List (EuclideanSpace ℝ (Fin size))}
    (hrun : localLanczos debug dstev sortPerm noise size M constrained draw emptyVec n tolerance o = .ok (es, ys)) :
    ∃ evals evecs, TraceInv debug (matOp size M) (freeVectors size constrained) (calcTridiagEpairs Real.sqrt 5e-12 dstev)
        per (localLanczosParams tolerance o) cycles evals evecs ∧ es.length = n ∧ ys.length = n ∧ es.Pairwise (· ≤ ·) ∧
        (es.zip ys).Perm ((evals.take n).zip (evecs.take n)) := by
  unfold localLanczos at hrun
  rw [hdef] at hrun
  simp only [lanczosSolve, Outcome.bind_eq_ok, Outcome.pure_eq] at hrun
  obtain ⟨q, ⟨-, -, -, -, ⟨evals, evecs⟩, hacc, hq⟩, -, -, es', hes, hout⟩ := hrun
  simp only [Outcome.ok.injEq, Prod.mk.injEq] at hq hout
  obtain ⟨rfl, rfl⟩ := hout
  have ht := cycles_trace h.maps (fun x _ y _ => matOp_symm h.symm x y) hd hper (p := localLanczosParams tolerance o) hmax
    (fun c x hx => libraryNoise_free noise c x hx) (libraryGuess_free draw) hacc
  have hl1 := ht.lenVals
  have hl2 := ht.lenVecs
  have hfin : (finishPairs emptyVec sortPerm n cycles evals evecs).1.length = n ∧
      (finishPairs emptyVec sortPerm n cycles evals evecs).2.length = n ∧
      (finishPairs emptyVec sortPerm n cycles evals evecs).1.Pairwise (· ≤ ·) ∧
      ((finishPairs emptyVec sortPerm n cycles evals evecs).1.zip
        (finishPairs emptyVec sortPerm n cycles evals evecs).2).Perm ((evals.take n).zip (evecs.take n)) := by
    by_cases hc : 1 < cycles
    · exact finishPairs_cut emptyVec sortPerm hs n cycles hc evals evecs (by omega) (by omega)
    · have h1 : n - evals.length = 0 := by omega
      have h2 : n - evecs.length = 0 := by omega
      simp only [finishPairs, h1, h2, List.replicate_zero, List.append_nil, gt_iff_lt, hc, if_false, List.Perm.refl,
        and_true, List.length_take]
      refine ⟨by omega, by omega, ?_⟩
      refine List.Pairwise.sublist (List.take_sublist _ _) ?_
      rcases Nat.lt_or_ge 0 cycles with h0 | h0
      · obtain rfl : cycles = 1 := by omega
        exact one_cycle_sorted h.maps (fun x _ y _ => matOp_symm h.symm x y) hd hper hmax (libraryGuess_free draw) hacc
      · have : evals.length = 0 := by
          rw [hl1, Nat.le_zero.1 h0, Nat.zero_mul]
        rw [List.length_eq_zero_iff.1 this]
        exact List.Pairwise.nil
  rw [hq] at hfin
  obtain ⟨f1, f2, f3, f4⟩ := hfin
  have hes' : es' = q.1 := by
    rw [copyInto, if_neg (by simp [f1]), Outcome.ok.injEq] at hes
    rw [← hes]
    simp [f1]
  subst hes'
  exact ⟨evals, evecs, ht, f1, f2, f3, f4⟩

/-- Independence of vectors and of their entries. -/
theorem entriesVec_independent {m : ℕ} {x : Fin m → ℕ → ℝ} :
    LinearIndependent ℝ (fun i (j : Fin size) => x i j) ↔ LinearIndependent ℝ (fun i => entriesVec size (x i)) := by
  have e : (fun i => entriesVec size (x i)) =
      (WithLp.linearEquiv 2 ℝ (Fin size → ℝ)).symm ∘ (fun i (j : Fin size) => x i j) := rfl
  rw [e]
  exact ((WithLp.linearEquiv 2 ℝ (Fin size → ℝ)).symm.toLinearMap.linearIndependent_iff
    (LinearEquiv.ker _)).symm

end

end Mfmg
