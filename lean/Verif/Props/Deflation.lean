import Verif.Lemmas.Deflation
import Verif.Props.Lanczos

/-!
# Deflation and the Lanczos driver (C28, C31)
-/

set_option autoImplicit false

namespace Mfmg

open scoped InnerProductSpace

section

variable {E : Type} [NormedAddCommGroup E] [InnerProductSpace ℝ E]

/-- **C28.** With orthonormal deflation vectors, `deflate` and `vmult` return vectors orthogonal to
all of them; `deflate` changes a vector only by an element of their span, is idempotent and leaves
orthogonal vectors alone. -/
theorem C28_projection (ds : List E) (hd : OrthonormalList ds) (A : E → E) (x : E) :
    OrthogonalTo ds (deflate ds x) ∧ OrthogonalTo ds (deflatedVmult A ds x) ∧
      x - deflate ds x ∈ spanList ds ∧ deflate ds (deflate ds x) = deflate ds x ∧
      (OrthogonalTo ds x → deflate ds x = x) ∧
      (OrthogonalTo ds (A x) → deflatedVmult A ds x = A x) :=
  ⟨deflate_orthogonal ds hd x, deflate_orthogonal ds hd (A x), deflate_sub_mem ds x,
    deflate_orth_self ds _ (deflate_orthogonal ds hd x), deflate_orth_self ds x,
    deflate_orth_self ds (A x)⟩

theorem spanList_append_deflate (ds vecs : List E) :
    spanList (ds ++ vecs.map (deflate ds)) = spanList (ds ++ vecs) := by
  have hsub : ∀ l : List E, spanList ds ≤ spanList (ds ++ l) := fun l =>
    Submodule.span_mono (fun y (hy : y ∈ ds) => List.mem_append_left _ hy)
  apply le_antisymm
  · refine Submodule.span_le.2 ?_
    intro x hx
    rcases List.mem_append.1 (show x ∈ ds ++ vecs.map (deflate ds) from hx) with hx | hx
    · exact hsub _ (Submodule.subset_span hx)
    · obtain ⟨y, hy, rfl⟩ := List.mem_map.1 hx
      have h1 : y ∈ spanList (ds ++ vecs) :=
        Submodule.subset_span (show y ∈ ds ++ vecs from List.mem_append_right _ hy)
      have h2 := Submodule.sub_mem _ h1 (hsub vecs (deflate_sub_mem ds y))
      rwa [sub_sub_cancel] at h2
  · refine Submodule.span_le.2 ?_
    intro x hx
    rcases List.mem_append.1 (show x ∈ ds ++ vecs from hx) with hx | hx
    · exact hsub _ (Submodule.subset_span hx)
    · have h1 : deflate ds x ∈ spanList (ds ++ vecs.map (deflate ds)) :=
        Submodule.subset_span (show _ ∈ ds ++ vecs.map (deflate ds) from
          List.mem_append_right _ (List.mem_map_of_mem hx))
      have h2 := Submodule.add_mem _ h1 (hsub (vecs.map (deflate ds)) (deflate_sub_mem ds x))
      rwa [add_sub_cancel] at h2

theorem span_image_getD (l : List E) (n : ℕ) (hn : n = l.length) :
    Submodule.span ℝ ((fun k => l.getD k 0) '' Set.Iio n) = spanList l := by
  subst hn
  congr 1
  ext x
  constructor
  · rintro ⟨k, hk, rfl⟩; exact getD_mem l 0 k hk
  · intro hx
    obtain ⟨k, hk, rfl⟩ := List.mem_iff_getElem.1 hx
    exact ⟨k, hk, getD_of_lt l 0 k hk⟩

theorem span_map_range (v : ℕ → E) (n : ℕ) :
    spanList ((List.range n).map v) = Submodule.span ℝ (v '' Set.Iio n) := by
  unfold spanList
  congr 1
  ext x
  simp

theorem OrthonormalList.inner_get {l : List E} (h : OrthonormalList l) (i j : ℕ)
    (hi : i < l.length) (hj : j < l.length) :
    ⟪l[i], l[j]⟫_ℝ = if i = j then 1 else 0 := by
  rcases lt_trichotomy i j with hij | rfl | hij
  · rw [if_neg (by omega)]
    exact List.pairwise_iff_getElem.1 h.orth i j hi hj hij
  · rw [if_pos rfl, real_inner_self_eq_norm_sq, h.unit _ (List.getElem_mem hi)]; norm_num
  · rw [if_neg (by omega), real_inner_comm]
    exact List.pairwise_iff_getElem.1 h.orth j i hj hi hij

theorem orthonormalList_iff (l : List E) :
    OrthonormalList l ↔ Orthonormal ℝ (fun i : Fin l.length => l[i]) := by
  rw [orthonormal_iff_ite]
  constructor
  · intro h i j
    have := h.inner_get i j i.2 j.2
    simp only [Fin.ext_iff]
    exact this
  · intro h
    constructor
    · intro x hx
      obtain ⟨k, hk, rfl⟩ := List.mem_iff_getElem.1 hx
      have := h ⟨k, hk⟩ ⟨k, hk⟩
      rw [if_pos rfl, real_inner_self_eq_norm_sq] at this
      have h0 := norm_nonneg l[k]
      simp only [Fin.getElem_fin] at this
      nlinarith
    · rw [List.pairwise_iff_getElem]
      intro i j hi hj hij
      have := h ⟨i, hi⟩ ⟨j, hj⟩
      rwa [if_neg (by simp only [Fin.mk.injEq]; omega)] at this

/-- Independence of the vectors of a list. -/
def IndependentList (l : List E) : Prop := LinearIndependent ℝ (fun i : Fin l.length => l[i])

theorem independentList_iff (l : List E) :
    IndependentList l ↔ l.length = Module.finrank ℝ (spanList l) := by
  unfold IndependentList
  rw [linearIndependent_iff_card_eq_finrank_span, Fintype.card_fin]
  have : Set.range (fun i : Fin l.length => l[i]) = {x | x ∈ l} := by
    ext x
    simp only [Set.mem_range, Fin.getElem_fin, Set.mem_setOf_eq, List.mem_iff_getElem]
    constructor
    · rintro ⟨i, h⟩; exact ⟨i, i.2, h⟩
    · rintro ⟨i, hi, h⟩; exact ⟨⟨i, hi⟩, h⟩
  rw [this]
  rfl

/-- The start of the loop. -/
theorem gsInv_start (ds vecs : List E) (hd : OrthonormalList ds) :
    GSInv ds (spanList (ds ++ vecs)) vecs.length 0 1
      (fun k => (ds ++ vecs.map (deflate ds)).getD k 0) where
  fix := fun _ _ => rfl
  old := by
    intro k hk
    simp only [List.getD]
    rw [List.getElem?_append_left hk]
  span := by
    rw [span_image_getD _ _ (by simp), spanList_append_deflate]
  orthD := by
    intro k hk b hb
    simp only [List.getD, Equiv.Perm.coe_one, id]
    rw [List.getElem?_append_left hk, List.getElem?_append_right (by omega),
      List.getElem?_eq_getElem hk, Nat.add_sub_cancel_left, List.getElem?_map,
      List.getElem?_eq_getElem hb]
    exact deflate_orthogonal ds hd _ _ (List.getElem_mem hk)
  unit := by intro a ha; omega
  orth := by intro a ha; omega

/-- **C28**, `add_deflation_vecs`: if the call returns, the stored vectors are orthonormal, there is
one per vector added, they span the same space as the old ones and the added ones together, and the
old ones are unchanged. -/
theorem C28_add (debug : Bool) (ds vecs : List E) (hd : OrthonormalList ds) (res : List E)
    (h : addDeflationVecs debug ds vecs = .ok res) :
    OrthonormalList res ∧ spanList res = spanList (ds ++ vecs) ∧
      res.length = ds.length + vecs.length ∧ res.take ds.length = ds := by
  unfold addDeflationVecs at h
  rcases gramSchmidt_spec debug ds (spanList (ds ++ vecs)) vecs.length vecs.length 0 1 _
      (by omega) (gsInv_start ds vecs hd) with ⟨v', σ, hok, hinv⟩ | ⟨hno, -⟩
  · simp only [Equiv.Perm.coe_one, id] at hok
    simp only [hok, Outcome.ok_bind, Outcome.pure_eq, Outcome.ok.injEq] at h
    subst h
    have hlen : (ds ++ vecs.map (deflate ds)).length = ds.length + vecs.length := by simp
    rw [hlen]
    have hpos : ∀ k, ds.length ≤ k → k < ds.length + vecs.length →
        ∃ a, a < vecs.length ∧ k = ds.length + σ a := by
      intro k h1 h2
      refine ⟨σ.symm (k - ds.length), ?_, ?_⟩
      · by_contra hc
        have h3 := hinv.fix _ (Nat.not_lt.1 hc)
        rw [Equiv.apply_symm_apply] at h3
        omega
      · rw [Equiv.apply_symm_apply]; omega
    have hold : ∀ k (hk : k < ds.length), v' k = ds[k] := by
      intro k hk; rw [hinv.old k hk, getD_of_lt _ _ _ hk]
    refine ⟨⟨?_, ?_⟩, ?_, by simp, ?_⟩
    · intro x hx
      obtain ⟨k, hk, rfl⟩ := List.mem_map.1 hx
      rw [List.mem_range] at hk
      rcases Nat.lt_or_ge k ds.length with h1 | h1
      · rw [hold k h1]; exact hd.unit _ (List.getElem_mem h1)
      · obtain ⟨a, ha, rfl⟩ := hpos k h1 hk
        exact hinv.unit a ha
    · rw [List.pairwise_map]
      refine List.Pairwise.imp_of_mem ?_ List.pairwise_lt_range
      intro a b ha hb hab
      rw [List.mem_range] at ha hb
      rcases Nat.lt_or_ge a ds.length with h1 | h1
      · rcases Nat.lt_or_ge b ds.length with h2 | h2
        · rw [hold a h1, hold b h2]
          exact List.pairwise_iff_getElem.1 hd.orth a b h1 h2 hab
        · obtain ⟨c, hc, rfl⟩ := hpos b h2 hb
          exact hinv.orthD a h1 c hc
      · obtain ⟨c, hc, rfl⟩ := hpos a h1 ha
        obtain ⟨e, he, rfl⟩ := hpos b (by omega) hb
        exact hinv.orth c hc e he (fun h => by subst h; omega)
    · rw [span_map_range]; exact hinv.span
    · apply List.ext_getElem
      · simp
      · intro k h1 h2
        simp only [List.getElem_take, List.getElem_map, List.getElem_range]
        exact hold k h2
  · exfalso
    simp only [Equiv.Perm.coe_one, id] at hno
    rw [Outcome.bind_eq_ok] at h
    obtain ⟨v', hv, -⟩ := h
    exact hno v' hv

/-- **C28**: the call returns iff old and new vectors together are linearly independent.  (Otherwise
it divides by a zero norm.) -/
theorem C28_add_returns_iff (debug : Bool) (ds vecs : List E) (hd : OrthonormalList ds) :
    (∃ res, addDeflationVecs debug ds vecs = .ok res) ↔ IndependentList (ds ++ vecs) := by
  rw [independentList_iff]
  constructor
  · rintro ⟨res, h⟩
    obtain ⟨h1, h2, h3, -⟩ := C28_add debug ds vecs hd res h
    have := (independentList_iff res).1 ((orthonormalList_iff res).1 h1).linearIndependent
    rw [← h2, ← this, h3, List.length_append]
  · intro hfr
    rcases gramSchmidt_spec debug ds (spanList (ds ++ vecs)) vecs.length vecs.length 0 1 _
      (by omega) (gsInv_start ds vecs hd) with ⟨v', σ, hok, hinv⟩ | ⟨-, -, hlt⟩
    · simp only [Equiv.Perm.coe_one, id] at hok
      unfold addDeflationVecs
      simp only [hok, Outcome.ok_bind]
      exact ⟨_, rfl⟩
    · rw [List.length_append] at hfr; omega

/-- **C28**, any sequence of additions. -/
theorem C28_history (debug : Bool) (batches : List (List E)) (ds : List E)
    (h : batches.foldlM (addDeflationVecs debug) [] = .ok ds) :
    OrthonormalList ds ∧ spanList ds = spanList batches.flatten ∧
      ds.length = batches.flatten.length := by
  have key : ∀ (batches : List (List E)) (ds0 ds : List E), OrthonormalList ds0 →
      batches.foldlM (addDeflationVecs debug) ds0 = .ok ds →
      OrthonormalList ds ∧ spanList ds = spanList (ds0 ++ batches.flatten) ∧
        ds.length = ds0.length + batches.flatten.length := by
    intro batches
    induction batches with
    | nil =>
      intro ds0 ds h0 h
      simp only [List.foldlM_nil, Outcome.pure_eq, Outcome.ok.injEq] at h
      subst h
      simp [h0]
    | cons b bs ih =>
      intro ds0 ds h0 h
      rw [List.foldlM_cons, Outcome.bind_eq_ok] at h
      obtain ⟨ds1, h1, h2⟩ := h
      obtain ⟨a1, a2, a3, -⟩ := C28_add debug ds0 b h0 ds1 h1
      obtain ⟨b1, b2, b3⟩ := ih ds1 ds a1 h2
      refine ⟨b1, ?_, ?_⟩
      · rw [b2, List.flatten_cons, ← List.append_assoc]
        have happ : ∀ l m : List E, spanList (l ++ m) = spanList l ⊔ spanList m := by
          intro l m
          unfold spanList
          rw [← Submodule.span_union]
          congr 1
          ext x
          simp
        rw [happ, a2, ← happ]
      · rw [b3, a3, List.flatten_cons, List.length_append]; omega
  have := key batches [] ds ⟨by simp, List.Pairwise.nil⟩ h
  simpa using this

/-! ## Lanczos on the deflated operator -/

/-- The vectors orthogonal to the deflation vectors. -/
def complement (ds : List E) : Submodule ℝ E where
  carrier := {x | OrthogonalTo ds x}
  add_mem' := by
    intro a b ha hb d hd
    rw [inner_add_right, ha d hd, hb d hd, add_zero]
  zero_mem' := fun d _ => inner_zero_right d
  smul_mem' := by
    intro c a ha d hd
    rw [inner_smul_right, ha d hd, mul_zero]

/-- `deflate` as a linear map. -/
noncomputable def deflateLin (ds : List E) : E →ₗ[ℝ] E where
  toFun := deflate ds
  map_add' := by
    induction ds with
    | nil => intro x y; rfl
    | cons d ds ih =>
      intro x y
      rw [deflate_cons, deflate_cons, deflate_cons, ← ih]
      congr 1
      rw [inner_add_left, neg_add, add_smul]
      abel
  map_smul' := by
    induction ds with
    | nil => intro c x; rfl
    | cons d ds ih =>
      intro c x
      rw [deflate_cons, deflate_cons, ← ih]
      congr 1
      rw [inner_smul_left, smul_add, smul_smul]
      congr 2
      simp

/-- **C28**, Lanczos cycle on the deflated operator: started from a deflated vector, all Lanczos
vectors and all returned vectors are orthogonal to the deflated ones, the returned ones are
orthonormal, and the relation of C26 holds for the deflated operator. -/
theorem C28_lanczos_cycle (debug : Bool) (A : E →ₗ[ℝ] E) (hA : A.IsSymmetric) (ds : List E)
    (hds : OrthonormalList ds) (dstev : List ℝ → List ℝ → List ℝ × List ℝ)
    (hd : DstevContract dstev) (tol2 : ℝ) (req : ℕ) (hreq : 0 < req) (p : LanczosParams)
    (hmax : 0 < p.maxit) (guess : E) (r : LanczosResult E) (ys : List E)
    (h : solveLanczos debug (deflatedVmult A ds) (calcTridiagEpairs Real.sqrt tol2 dstev) req p
      (deflate ds guess) = .ok (r, ys)) :
    (∀ v ∈ r.state.vs, OrthogonalTo ds v) ∧ (∀ y ∈ ys, OrthogonalTo ds y) ∧
      OrthonormalList ys ∧ ys.length = req ∧ r.evals.length = req ∧
      LanczosRelation (deflatedVmult A ds) r.state.vs.length (fun i => r.state.vs.getD i 0)
        (tridiagEntry r.state.diag r.state.sub) r.state.w ∧
      (r.converged = true → ∀ (i : ℕ) (θ : ℝ) (y : E), r.evals[i]? = some θ → ys[i]? = some y →
        ‖deflatedVmult A ds y - θ • y‖ ≤ p.tol) := by
  obtain ⟨h1, h2, h3, h4, h5, -⟩ := lanczos_run_facts debug ((deflateLin ds).comp A) (complement ds)
    (fun x _ => deflate_orthogonal ds hds (A x)) (by
      intro x hx y hy
      change ⟪deflate ds (A x), y⟫_ℝ = ⟪x, deflate ds (A y)⟫_ℝ
      rw [inner_deflate ds _ _ hx, real_inner_comm, inner_deflate ds _ _ hy, real_inner_comm]
      exact hA x y) dstev hd tol2 req hreq p hmax (deflate ds guess)
    (deflate_orthogonal ds hds guess) r ys h
  have hex : ∀ (i : ℕ) (y : E), ys[i]? = some y → ∃ θ, r.evals[i]? = some θ := by
    intro i y hy
    have : i < ys.length := by
      by_contra hc
      rw [List.getElem?_eq_none (by omega)] at hy
      cases hy
    exact ⟨_, List.getElem?_eq_getElem (by omega)⟩
  refine ⟨h1.mem, ?_, ⟨?_, ?_⟩, h3, h2, h1.rel, ?_⟩
  · intro y hy
    obtain ⟨i, hi⟩ := List.mem_iff_getElem?.1 hy
    obtain ⟨θ, hθ⟩ := hex i y hi
    exact (h4 i θ y hθ hi).2.1
  · intro y hy
    obtain ⟨i, hi⟩ := List.mem_iff_getElem?.1 hy
    obtain ⟨θ, hθ⟩ := hex i y hi
    exact (h4 i θ y hθ hi).1
  · rw [List.pairwise_iff_getElem]
    intro i j hi hj hij
    exact h5 i j _ _ (by omega) (List.getElem?_eq_getElem hi) (List.getElem?_eq_getElem hj)
  · intro hc i θ y e1 e2
    exact (h4 i θ y e1 e2).2.2.2 hc

/-- **C28**, the whole driver: in a deflated solve with any number of cycles, adding deflation
vectors never breaks down, and all pairs collected over the cycles have orthonormal vectors. -/
theorem C28_all_cycles (debug : Bool) (A : E →ₗ[ℝ] E) (hA : A.IsSymmetric)
    (dstev : List ℝ → List ℝ → List ℝ × List ℝ) (hd : DstevContract dstev) (tol2 : ℝ) (per : ℕ)
    (hper : 0 < per) (p : LanczosParams) (hmax : 0 < p.maxit) (perturb : ℕ → E → E) (cycles : ℕ)
    (guess : E) (evals : List ℝ) (evecs : List E)
    (h : cycleLoop debug (fun ds g => do
        let r ← solveLanczos debug (deflatedVmult A ds) (calcTridiagEpairs Real.sqrt tol2 dstev)
          per p g
        pure (r.1.evals, r.2)) perturb per cycles cycles 0 [] guess ([], []) = .ok (evals, evecs)) :
    OrthonormalList evecs ∧ evecs.length = cycles * per ∧ evals.length = cycles * per := by
  have key : ∀ (left cycle : ℕ) (ds : List E) (guess : E) (acc : List ℝ × List E),
      cycle + left = cycles → OrthonormalList ds → OrthonormalList acc.2 →
      (∀ x ∈ acc.2, x ∈ spanList ds) → acc.2.length = cycle * per → acc.1.length = cycle * per →
      cycleLoop debug (fun ds g => do
        let r ← solveLanczos debug (deflatedVmult A ds) (calcTridiagEpairs Real.sqrt tol2 dstev)
          per p g
        pure (r.1.evals, r.2)) perturb per cycles left cycle ds guess acc = .ok (evals, evecs) →
      OrthonormalList evecs ∧ evecs.length = cycles * per ∧ evals.length = cycles * per := by
    intro left
    induction left with
    | zero =>
      intro cycle ds guess acc hc _ ha _ hl1 hl2 h
      simp only [cycleLoop, Outcome.ok.injEq] at h
      subst h
      obtain rfl : cycle = cycles := by omega
      exact ⟨ha, hl1, hl2⟩
    | succ left ih =>
      intro cycle ds guess acc hc hds ha hsp hl1 hl2 h
      rw [cycleLoop] at h
      simp only [Outcome.bind_eq_ok] at h
      obtain ⟨ep, ⟨r, hr, hep⟩, sv, hsv, h⟩ := h
      simp only [Outcome.pure_eq, Outcome.ok.injEq] at hep
      obtain ⟨r1, ys⟩ := r
      simp only at hep
      subst hep
      obtain ⟨-, c2, c3, c4, c5, -⟩ := C28_lanczos_cycle debug A hA ds hds dstev hd tol2 per hper p
        hmax _ r1 ys hr
      simp only [savePairs, c4, c5, le_refl, and_self, if_true, Outcome.ok.injEq] at hsv
      rw [List.take_of_length_le (by omega), List.take_of_length_le (by omega)] at hsv
      subst hsv
      simp only at h
      have hacc : OrthonormalList (acc.2 ++ ys) := by
        constructor
        · intro x hx
          rcases List.mem_append.1 hx with hx | hx
          · exact ha.unit x hx
          · exact c3.unit x hx
        · rw [List.pairwise_append]
          exact ⟨ha.orth, c3.orth, fun x hx y hy => orthogonalTo_span ds y (c2 y hy) x (hsp x hx)⟩
      have hll1 : (acc.2 ++ ys).length = (cycle + 1) * per := by
        rw [List.length_append, hl1, c4, Nat.succ_mul]
      have hll2 : (acc.1 ++ r1.evals).length = (cycle + 1) * per := by
        rw [List.length_append, hl2, c5, Nat.succ_mul]
      by_cases hlast : cycle ≠ cycles - 1
      · rw [if_pos hlast, Outcome.bind_eq_ok] at h
        obtain ⟨ds', hds', h⟩ := h
        obtain ⟨d1, d2, -, -⟩ := C28_add debug ds ys hds ds' hds'
        refine ih (cycle + 1) ds' _ _ (by omega) d1 hacc ?_ hll1 hll2 h
        intro x hx
        rw [d2]
        rcases List.mem_append.1 hx with hx | hx
        · exact Submodule.span_mono (fun y (hy : y ∈ ds) => List.mem_append_left _ hy) (hsp x hx)
        · exact Submodule.subset_span (show x ∈ ds ++ ys from List.mem_append_right _ hx)
      · rw [if_neg hlast] at h
        have hleft : left = 0 := by push Not at hlast; omega
        subst hleft
        simp only [cycleLoop, Outcome.ok.injEq, Prod.mk.injEq] at h
        obtain ⟨rfl, rfl⟩ := h
        obtain rfl : cycle + 1 = cycles := by omega
        exact ⟨hacc, hll1, hll2⟩
  exact key cycles 0 [] guess ([], []) (by omega) ⟨by simp, List.Pairwise.nil⟩
    ⟨by simp, List.Pairwise.nil⟩ (by simp) (by simp) (by simp) h

/-- **C28**: in the driver the added vectors are always independent of the earlier ones, so
`add_deflation_vecs` returns. -/
theorem C28_no_breakdown (debug : Bool) (ds ys : List E) (hds : OrthonormalList ds)
    (hys : OrthonormalList ys) (ho : ∀ y ∈ ys, OrthogonalTo ds y) :
    ∃ res, addDeflationVecs debug ds ys = .ok res := by
  rw [C28_add_returns_iff debug ds ys hds]
  refine ((orthonormalList_iff (ds ++ ys)).1 ⟨?_, ?_⟩).linearIndependent
  · intro x hx
    rcases List.mem_append.1 hx with hx | hx
    · exact hds.unit x hx
    · exact hys.unit x hx
  · rw [List.pairwise_append]
    exact ⟨hds.orth, hys.orth, fun x hx y hy => ho y hy x hx⟩

/-! ## The driver (C31) -/

omit [InnerProductSpace ℝ E] in
/-- Cut and sort: the result is sorted and consists of the first `n` collected pairs. -/
theorem finishPairs_cut {α : Type} (emptyVec : α) (sortPerm : List ℝ → List ℕ)
    (hs : SortsIndices sortPerm) (n numCycles : ℕ) (hc : 1 < numCycles) (evals : List ℝ)
    (evecs : List α) (hlen : evecs.length = evals.length) (hn : n ≤ evals.length) :
    (finishPairs emptyVec sortPerm n numCycles evals evecs).1.length = n ∧
    (finishPairs emptyVec sortPerm n numCycles evals evecs).2.length = n ∧
    (finishPairs emptyVec sortPerm n numCycles evals evecs).1.Pairwise (· ≤ ·) ∧
    ((finishPairs emptyVec sortPerm n numCycles evals evecs).1.zip
      (finishPairs emptyVec sortPerm n numCycles evals evecs).2).Perm
        ((evals.take n).zip (evecs.take n)) := by
  have h1 : n - evals.length = 0 := by omega
  have h2 : n - evecs.length = 0 := by omega
  simp only [finishPairs, h1, h2, List.replicate_zero, List.append_nil, gt_iff_lt, hc, if_true]
  obtain ⟨p1, p2⟩ := hs (evals.take n)
  have hl1 : (evals.take n).length = n := by simp; omega
  have hl2 : (evecs.take n).length = n := by simp; omega
  rw [hl1] at p1
  have hpl : (sortPerm (evals.take n)).length = n := by rw [p1.length_eq, List.length_range]
  refine ⟨by rw [List.length_map, hpl], by rw [List.length_map, hpl], ?_, ?_⟩
  · rw [List.pairwise_map]; exact p2
  · rw [List.zip_map']
    have hrange : (evals.take n).zip (evecs.take n) = (List.range n).map
        (fun i => ((evals.take n).getD i 0, (evecs.take n).getD i emptyVec)) := by
      apply List.ext_getElem
      · rw [List.length_zip, hl1, hl2]; simp
      · intro i e1 e2
        have hi : i < n := by simpa using e2
        simp only [List.getElem_zip, List.getElem_map, List.getElem_range]
        rw [getD_of_lt _ _ _ (by omega), getD_of_lt _ _ _ (by omega)]
    rw [hrange]
    exact p1.map _

omit [InnerProductSpace ℝ E] in
/-- **C31**, several cycles, as far as it holds: with enough pairs the result is what the property
asks for (`SmallestPairs`) exactly when no pair beyond the first `n` collected ones is smaller than
one of these. -/
theorem C31_cut_iff_partial {α : Type} (emptyVec : α) (sortPerm : List ℝ → List ℕ)
    (hs : SortsIndices sortPerm) (n numCycles : ℕ) (hc : 1 < numCycles) (evals : List ℝ)
    (evecs : List α) (hlen : evecs.length = evals.length) (hn : n ≤ evals.length) :
    SmallestPairs n evals evecs (finishPairs emptyVec sortPerm n numCycles evals evecs) ↔
      ∀ x ∈ evals.take n, ∀ y ∈ evals.drop n, x ≤ y := by
  obtain ⟨h1, h2, h3, h4⟩ := finishPairs_cut emptyVec sortPerm hs n numCycles hc evals evecs hlen hn
  set res := finishPairs emptyVec sortPerm n numCycles evals evecs with hres
  have hsplit : evals.zip evecs = (evals.take n).zip (evecs.take n) ++
      (evals.drop n).zip (evecs.drop n) := by
    rw [← List.zip_append (by simp; omega), List.take_append_drop, List.take_append_drop]
  have hfst : ∀ (l : List ℝ) (m : List α), m.length = l.length → (l.zip m).map Prod.fst = l := by
    intro l m h
    rw [List.map_fst_zip (by omega)]
  have hvals : res.1.Perm (evals.take n) := by
    have := h4.map Prod.fst
    rwa [hfst _ _ (by omega), hfst _ _ (by simp; omega)] at this
  constructor
  · rintro ⟨-, -, -, rest, hr, hle⟩ x hx y hy
    have hrest : rest.Perm ((evals.drop n).zip (evecs.drop n)) := by
      rw [hsplit] at hr
      exact (List.perm_append_left_iff _).1 ((h4.symm.append_right rest).trans hr)
    have hy' : y ∈ rest.map Prod.fst := by
      have := hrest.map Prod.fst
      rw [hfst _ _ (by simp; omega)] at this
      exact this.symm.subset hy
    obtain ⟨q, hq, rfl⟩ := List.mem_map.1 hy'
    exact hle x (hvals.symm.subset hx) q hq
  · intro h
    refine ⟨h1, h2, h3, (evals.drop n).zip (evecs.drop n), ?_, ?_⟩
    · rw [hsplit]; exact h4.append_right _
    · intro x hx y hy
      refine h x (hvals.subset hx) y.1 ?_
      have := List.mem_map_of_mem (f := Prod.fst) hy
      rwa [hfst _ _ (by simp; omega)] at this

/-- **C31**, one cycle: a plain solve returns the requested number of pairs, values strictly
ascending, orthonormal vectors; they are the pairs of one Lanczos run from the given start vector
(so C27 and C30 apply to them). -/
theorem C31_one_cycle_partial (debug : Bool) (A : E →ₗ[ℝ] E) (hA : A.IsSymmetric)
    (dstev : List ℝ → List ℝ → List ℝ × List ℝ) (hd : DstevContract dstev) (tol2 : ℝ)
    (htol2 : 0 ≤ tol2) (sortPerm : List ℝ → List ℕ) (perturb : ℕ → E → E) (emptyVec : E) (n : ℕ)
    (hn : 0 < n) (p : LanczosParams) (hmax : 0 < p.maxit) (guess : E) (evals : List ℝ)
    (evecs : List E)
    (h : lanczosSolve debug A (calcTridiagEpairs Real.sqrt tol2 dstev) sortPerm perturb emptyVec n
      none p guess = .ok (evals, evecs)) :
    evals.length = n ∧ evecs.length = n ∧ evals.Pairwise (· < ·) ∧ OrthonormalList evecs ∧
      ∃ r, solveLanczos debug A (calcTridiagEpairs Real.sqrt tol2 dstev) n p guess = .ok (r, evecs) ∧
        evals = r.evals := by
  unfold lanczosSolve at h
  simp only [Outcome.bind_eq_ok] at h
  obtain ⟨_, -, _, -, acc, hacc, h⟩ := h
  rw [cycleLoop] at hacc
  simp only [Outcome.bind_eq_ok] at hacc
  obtain ⟨ep, ⟨⟨r, ys⟩, hr, hep⟩, sv, hsv, hacc⟩ := hacc
  simp only [Outcome.pure_eq, Outcome.ok.injEq] at hep
  subst hep
  have hdef : deflatedVmult (⇑A) [] = ⇑A := rfl
  have hdg : ∀ x : E, deflate [] x = x := fun _ => rfl
  rw [hdg, if_neg (by omega), hdef] at hr
  obtain ⟨f1, f2, f3, f4⟩ := C27_residual debug A hA dstev hd tol2 n hn p hmax guess r ys hr
  simp only [savePairs, f1, f2, le_refl, and_self, if_true, Outcome.ok.injEq] at hsv
  rw [List.take_of_length_le (by omega), List.take_of_length_le (by omega)] at hsv
  subst hsv
  simp only [ne_eq, Nat.sub_self, not_true_eq_false, if_false, cycleLoop, List.nil_append,
    Outcome.ok.injEq] at hacc
  subst hacc
  simp only [finishPairs, f1, f2, Nat.sub_self, List.replicate_zero, List.append_nil,
    gt_iff_lt, lt_irrefl, if_false, Outcome.pure_eq, Outcome.ok.injEq, Prod.mk.injEq] at h
  rw [List.take_of_length_le (by omega), List.take_of_length_le (by omega)] at h
  obtain ⟨rfl, rfl⟩ := h
  refine ⟨f1, f2, ?_, ⟨?_, ?_⟩, r, hr, rfl⟩
  · obtain ⟨hinv, -, -, hrest⟩ := solveLanczos_ok debug A (LanczosInv A ⊤)
      (fun s s' hs hst => (lanczosStep_inv debug A ⊤ (fun _ _ => trivial)
        (fun x _ y _ => hA x y) s hs s' hst).1) (calcTridiagEpairs Real.sqrt tol2 dstev) n p guess
      (lanczosInit_inv A ⊤ guess trivial) r ys hr
    obtain ⟨-, -, -, hep, -, -, hm⟩ := hrest hmax
    have hsz : r.state.sub.length + 1 = r.state.diag.length := by
      rw [hinv.lenSub, hinv.lenDiag]; omega
    have hev : r.evals
        = (calcTridiagEpairs Real.sqrt tol2 dstev r.state.diag r.state.sub n).1 := by rw [← hep]
    rcases Nat.lt_or_ge 1 r.state.diag.length with hd1 | hd1
    · have hsz2 : r.state.sub.tail.length + 1 = r.state.diag.tail.length := by
        rw [List.length_tail, List.length_tail]; omega
      obtain ⟨kept, -, -, k1, k2⟩ := C30_all_or_nothing Real.sqrt tol2 htol2 dstev r.state.diag
        r.state.sub n (hd.len _ _ hsz) (hd.flat _ _ hsz) (hd.sorted _ _ hsz)
        (hd.sorted _ _ hsz2)
      rcases Nat.lt_or_ge kept.length n with hk | hk
      · have := k1 hk
        rw [← hep] at this
        injection this with h1 h2
        rw [h1, List.length_nil] at f1
        omega
      · rw [hev]; exact (k2 hk).2.2.1
    · -- one Lanczos vector: at most one value
      have hle : r.evals.length ≤ 1 := by
        rw [hev, calcTridiagEpairs_eq Real.sqrt tol2 dstev r.state.diag r.state.sub n
          (hd.len _ _ hsz) (hd.flat _ _ hsz)]
        split_ifs
        · simp
        · simp only [List.length_map, List.length_take]
          refine (Nat.min_le_right _ _).trans ((List.length_filter_le _ _).trans ?_)
          rw [List.length_range]; exact hd1
      match hr1 : r.evals, hle with
      | [], _ => exact List.Pairwise.nil
      | [a], _ => simp
  · intro y hy
    obtain ⟨i, hi⟩ := List.mem_iff_getElem?.1 hy
    have : i < ys.length := by
      by_contra hc
      rw [List.getElem?_eq_none (by omega)] at hi
      cases hi
    exact (f3 i _ y (List.getElem?_eq_getElem (by omega)) hi).1
  · rw [List.pairwise_iff_getElem]
    intro i j hi hj hij
    exact f4 i j _ _ (by omega) (List.getElem?_eq_getElem hi) (List.getElem?_eq_getElem hj)

/-- **C31** is false with too few cycles: every deflated solve that returns and has
`num_cycles * num_eigenpairs_per_cycle < num_eigenpairs` returns a pair of the value zero and a
default-constructed vector. -/
theorem C31_padding_violated (debug : Bool) (A : E →ₗ[ℝ] E) (hA : A.IsSymmetric)
    (dstev : List ℝ → List ℝ → List ℝ × List ℝ) (hd : DstevContract dstev) (tol2 : ℝ)
    (sortPerm : List ℝ → List ℕ) (hs : SortsIndices sortPerm) (perturb : ℕ → E → E) (emptyVec : E)
    (n per cycles : ℕ) (hper : 0 < per) (hfew : cycles * per < n) (p : LanczosParams)
    (hmax : 0 < p.maxit) (guess : E) (evals : List ℝ) (evecs : List E)
    (h : lanczosSolve debug A (calcTridiagEpairs Real.sqrt tol2 dstev) sortPerm perturb emptyVec n
      (some (per, cycles)) p guess = .ok (evals, evecs)) :
    ∃ i : ℕ, evals[i]? = some 0 ∧ evecs[i]? = some emptyVec := by
  unfold lanczosSolve at h
  simp only [Outcome.bind_eq_ok] at h
  obtain ⟨_, -, _, -, acc, hacc, h⟩ := h
  obtain ⟨-, l1, l2⟩ := C28_all_cycles debug A hA dstev hd tol2 per hper p hmax perturb cycles guess
    acc.1 acc.2 hacc
  simp only [Outcome.pure_eq, Outcome.ok.injEq] at h
  unfold finishPairs at h
  have hlast1 : (acc.1.take n ++ List.replicate (n - acc.1.length) 0)[cycles * per]? = some 0 := by
    rw [List.take_of_length_le (by omega), List.getElem?_append_right (by omega), l2, Nat.sub_self,
      List.getElem?_replicate_of_lt (by omega)]
  have hlast2 : (acc.2.take n ++ List.replicate (n - acc.2.length) emptyVec)[cycles * per]?
      = some emptyVec := by
    rw [List.take_of_length_le (by omega), List.getElem?_append_right (by omega), l1, Nat.sub_self,
      List.getElem?_replicate_of_lt (by omega)]
  split_ifs at h with hc
  · obtain ⟨p1, -⟩ := hs (acc.1.take n ++ List.replicate (n - acc.1.length) 0)
    have hmem : cycles * per ∈ sortPerm (acc.1.take n ++ List.replicate (n - acc.1.length) 0) := by
      rw [p1.mem_iff, List.mem_range, List.length_append, List.length_take, List.length_replicate]
      omega
    obtain ⟨i, hi⟩ := List.mem_iff_getElem?.1 hmem
    simp only [Prod.mk.injEq] at h
    obtain ⟨rfl, rfl⟩ := h
    refine ⟨i, ?_, ?_⟩
    · rw [List.getElem?_map, hi, Option.map_some, List.getD, hlast1]; rfl
    · rw [List.getElem?_map, hi, Option.map_some, List.getD, hlast2]; rfl
  · simp only [Prod.mk.injEq] at h
    obtain ⟨rfl, rfl⟩ := h
    exact ⟨cycles * per, hlast1, hlast2⟩

/-- A run from an eigenvector ends after one iteration. -/
theorem lanczos_eigenvector (debug : Bool) (A : E → E) (lam : ℝ) (v : E) (hv : ‖v‖ = 1)
    (hAv : A v = lam • v) (c : ℝ) (hc : 0 < c) (dstev : List ℝ → List ℝ → List ℝ × List ℝ)
    (hd : DstevContract dstev) (tol2 : ℝ) (p : LanczosParams) (hmax : 0 < p.maxit)
    (htol : 0 ≤ p.tol) (hpct : 0 ≤ p.pct) (hpct' : p.pct < 100) :
    ∃ (r : LanczosResult E) (s : ℝ), |s| = 1 ∧ r.evals = [lam] ∧
      solveLanczos debug A (calcTridiagEpairs Real.sqrt tol2 dstev) 1 p (c • v)
        = .ok (r, [s • v]) := by
  obtain ⟨s, hs, hs1⟩ := tridiag_one dstev hd tol2 lam
  obtain ⟨n, hn⟩ : ∃ n, p.maxit = n + 1 := ⟨p.maxit - 1, by omega⟩
  have hnorm : ‖c • v‖ = c := by rw [norm_smul, hv, mul_one, Real.norm_eq_abs, abs_of_pos hc]
  have hstep : lanczosStep debug A (lanczosInit (c • v)) = .ok ⟨[v], 0, 0, [lam], []⟩ := by
    unfold lanczosStep lanczosInit
    simp only [hnorm, if_neg hc.ne', smul_smul, inv_mul_cancel₀ hc.ne', one_smul, List.getLast?_nil,
      List.nil_append, hAv, inner_smul_right, real_inner_self_eq_norm_sq, hv]
    have : lam • v + (-(lam * 1 ^ 2)) • v = 0 := by
      rw [one_pow, mul_one, neg_smul, add_neg_cancel]
    rw [this, norm_zero]
    norm_num
  refine ⟨⟨⟨[v], 0, 0, [lam], []⟩, [lam], [s], [1], true⟩, s, hs1, rfl, ?_⟩
  unfold solveLanczos
  have a1 : Outcome.assert debug (decide (0 ≤ p.pct ∧ p.pct < 100)) = .ok () := by
    simp [Outcome.assert, hpct, hpct']
  have a2 : Outcome.assert debug (decide (0 ≤ p.tol)) = .ok () := by
    simp [Outcome.assert, htol]
  have a3 : Outcome.assert debug (decide (1 ≤ p.maxit)) = .ok () := by
    simp [Outcome.assert, show 1 ≤ p.maxit by omega]
  rw [a1, a2, a3]
  simp only [Outcome.ok_bind]
  rw [hn, lanczosLoop]
  simp only [hstep, Outcome.ok_bind, true_or, if_true, hs]
  have hchk : checkConvergence 0 1 1 p.tol [s] = .ok true := by
    rw [checkConvergence, if_neg (by omega), checkLoop_eq _ _ _ (by omega) _ _ _ _ (by simp)]
    simp only [zero_mul, Bool.true_and, Outcome.ok.injEq, decide_eq_true_eq]
    intro _ _; exact htol
  simp only [hchk, Outcome.ok_bind, if_true, List.nil_append]
  have a4 : Outcome.assert debug (decide (1 ≤ [v].length)) = .ok () := by simp [Outcome.assert]
  rw [a4, Outcome.ok_bind, calcEvecs_eq [v] [s] 1 0 (by simp)]
  simp

/-- **C31** is false with enough cycles too: for every operator with orthonormal eigenvectors `d₁`,
`d₂`, eigenvalues `lam₂ < lam₁`, a start vector along `d₁` and a second start vector with a component
along `d₂`, a solve for one pair with two cycles of one pair finds both pairs and returns the larger
one. -/
theorem C31_cut_violated (debug : Bool) (A : E → E) (d₁ d₂ : E) (h1 : ‖d₁‖ = 1) (h2 : ‖d₂‖ = 1)
    (h12 : ⟪d₁, d₂⟫_ℝ = 0) (lam₁ lam₂ : ℝ) (hA1 : A d₁ = lam₁ • d₁) (hA2 : A d₂ = lam₂ • d₂)
    (hlt : lam₂ < lam₁) (dstev : List ℝ → List ℝ → List ℝ × List ℝ) (hd : DstevContract dstev)
    (tol2 : ℝ) (sortPerm : List ℝ → List ℕ) (hs : SortsIndices sortPerm) (perturb : ℕ → E → E)
    (x y c : ℝ) (hc : 0 < c) (hy : 0 < y) (hp : perturb 1 (c • d₁) = x • d₁ + y • d₂) (emptyVec : E)
    (p : LanczosParams) (hmax : 0 < p.maxit) (htol : 0 ≤ p.tol) (hpct : 0 ≤ p.pct)
    (hpct' : p.pct < 100) :
    ∃ s t : ℝ, |s| = 1 ∧ |t| = 1 ∧
      lanczosSolve debug A (calcTridiagEpairs Real.sqrt tol2 dstev) sortPerm perturb emptyVec 1
        (some (1, 2)) p (c • d₁) = .ok ([lam₁], [s • d₁]) ∧
      cycleLoop debug (fun ds g => do
          let r ← solveLanczos debug (deflatedVmult A ds) (calcTridiagEpairs Real.sqrt tol2 dstev)
            1 p g
          pure (r.1.evals, r.2)) perturb 1 2 2 0 [] (c • d₁) ([], [])
        = .ok ([lam₁, lam₂], [s • d₁, t • d₂]) ∧
      ¬ SmallestPairs 1 [lam₁, lam₂] [s • d₁, t • d₂] ([lam₁], [s • d₁]) := by
  obtain ⟨r1, s, hs1, he1, hr1⟩ := lanczos_eigenvector debug A lam₁ d₁ h1 hA1 c hc dstev hd tol2 p
    hmax htol hpct hpct'
  have hun : ‖s • d₁‖ = 1 := by rw [norm_smul, h1, mul_one, Real.norm_eq_abs, hs1]
  obtain ⟨ds, hds⟩ := C28_no_breakdown debug [] [s • d₁] ⟨by simp, List.Pairwise.nil⟩
    ⟨by simpa using hun, by simp⟩ (by intro z _ d hd; cases hd)
  obtain ⟨o1, o2, o3, -⟩ := C28_add debug [] [s • d₁] ⟨by simp, List.Pairwise.nil⟩ ds hds
  -- the deflation vectors span the line of `d₁`
  have hs0 : s ≠ 0 := by intro h; rw [h, abs_zero] at hs1; norm_num at hs1
  have hmem1 : d₁ ∈ spanList ds := by
    rw [o2]
    have : s • d₁ ∈ spanList ([] ++ [s • d₁]) := Submodule.subset_span (by simp)
    have := Submodule.smul_mem _ s⁻¹ this
    rwa [smul_smul, inv_mul_cancel₀ hs0, one_smul] at this
  have horth2 : OrthogonalTo ds d₂ := by
    intro d hd
    have hdm : d ∈ spanList ds := Submodule.subset_span hd
    rw [o2] at hdm
    obtain ⟨a, rfl⟩ : ∃ a : ℝ, a • (s • d₁) = d := by
      have : spanList ([] ++ [s • d₁]) = Submodule.span ℝ {s • d₁} := by
        unfold spanList; congr 1; ext z; simp
      rw [this] at hdm
      exact Submodule.mem_span_singleton.1 hdm
    rw [inner_smul_left, inner_smul_left, h12]; simp
  have hdef : deflate ds (perturb 1 (c • d₁)) = y • d₂ := by
    have hlin : deflate ds (x • d₁ + y • d₂) = x • deflate ds d₁ + y • deflate ds d₂ := by
      have := (deflateLin ds).map_add (x • d₁) (y • d₂)
      rw [map_smul, map_smul] at this
      exact this
    have hz : deflate ds d₁ = 0 := by
      have e1 := deflate_orthogonal ds o1 d₁
      have e2 : deflate ds d₁ ∈ spanList ds := by
        have := Submodule.sub_mem _ hmem1 (deflate_sub_mem ds d₁)
        rwa [sub_sub_cancel] at this
      exact inner_self_eq_zero.1 (orthogonalTo_span ds _ e1 _ e2)
    rw [hp, hlin, hz, deflate_orth_self ds d₂ horth2, smul_zero, zero_add]
  have hAd2 : deflatedVmult A ds d₂ = lam₂ • d₂ := by
    unfold deflatedVmult
    rw [hA2]
    refine deflate_orth_self ds _ (fun d hd => ?_)
    rw [inner_smul_right, horth2 d hd, mul_zero]
  obtain ⟨r2, t, ht1, he2, hr2⟩ := lanczos_eigenvector debug (deflatedVmult A ds) lam₂ d₂ h2 hAd2 y hy
    dstev hd tol2 p hmax htol hpct hpct'
  have hloop : cycleLoop debug (fun ds g => do
          let r ← solveLanczos debug (deflatedVmult A ds) (calcTridiagEpairs Real.sqrt tol2 dstev)
            1 p g
          pure (r.1.evals, r.2)) perturb 1 2 2 0 [] (c • d₁) ([], [])
        = .ok ([lam₁, lam₂], [s • d₁, t • d₂]) := by
    rw [cycleLoop]
    have hd0 : deflatedVmult A [] = A := rfl
    have hdg : ∀ z : E, deflate [] z = z := fun _ => rfl
    simp only [gt_iff_lt, lt_irrefl, if_false, hdg, hd0, hr1, Outcome.ok_bind, Outcome.pure_eq, he1,
      savePairs, List.length_singleton, le_refl, and_self, if_true, List.take_succ_cons,
      List.take_zero, List.nil_append]
    rw [if_pos (by omega), hds, Outcome.ok_bind, cycleLoop]
    simp only [Nat.zero_add, gt_iff_lt, Nat.lt_one_iff, if_true, hdef, hr2, Outcome.ok_bind,
      Outcome.pure_eq, he2,
      savePairs, List.length_singleton, le_refl, and_self, List.take_succ_cons,
      List.take_zero, cycleLoop]
    simp
  refine ⟨s, t, hs1, ht1, ?_, hloop, ?_⟩
  · unfold lanczosSolve
    have a1 : Outcome.assert debug (decide (1 ≤ 2)) = .ok () := by simp [Outcome.assert]
    have a2 : Outcome.assert debug (decide (1 ≤ 1)) = .ok () := by simp [Outcome.assert]
    simp only [a1, a2, Outcome.ok_bind]
    rw [hloop, Outcome.ok_bind]
    have hperm : sortPerm [lam₁] = [0] := by
      have := (hs [lam₁]).1
      simpa using this
    simp [finishPairs, hperm]
  · have hiff := C31_cut_iff_partial emptyVec sortPerm hs 1 2 (by omega) [lam₁, lam₂]
      [s • d₁, t • d₂] rfl (by simp)
    have hperm : sortPerm [lam₁] = [0] := by
      have := (hs [lam₁]).1
      simpa using this
    have hfin : finishPairs emptyVec sortPerm 1 2 [lam₁, lam₂] [s • d₁, t • d₂]
        = ([lam₁], [s • d₁]) := by simp [finishPairs, hperm]
    rw [hfin] at hiff
    rw [hiff]
    intro h
    have := h lam₁ (by simp) lam₂ (by simp)
    linarith

end

/-! ## Examples -/

/-- The indices sorted by insertion: an admissible `std::sort`. -/
noncomputable def exSort (l : List ℝ) : List ℕ :=
  (List.range l.length).mergeSort (fun i j => decide (l.getD i 0 ≤ l.getD j 0))

theorem exSort_sorts : SortsIndices exSort := by
  intro l
  refine ⟨List.mergeSort_perm _ _, ?_⟩
  have := List.pairwise_mergeSort (le := fun i j => decide (l.getD i 0 ≤ l.getD j 0))
    (by intro a b c h1 h2; simp only [decide_eq_true_eq] at *; linarith)
    (by intro a b; simp only [Bool.or_eq_true, decide_eq_true_eq]; exact le_total _ _)
    (List.range l.length)
  exact this.imp (fun h => by simpa using h)

/-- Two independent vectors that are not orthogonal can be added. -/
example (debug : Bool) : ∃ res : List (EuclideanSpace ℝ (Fin 2)),
    addDeflationVecs debug [] [EuclideanSpace.single 0 1,
      EuclideanSpace.single 0 1 + EuclideanSpace.single 1 1] = .ok res ∧ OrthonormalList res := by
  have hind : IndependentList ([] ++ [EuclideanSpace.single (0 : Fin 2) (1 : ℝ),
      EuclideanSpace.single 0 1 + EuclideanSpace.single 1 1]) := by
    unfold IndependentList
    rw [Fintype.linearIndependent_iff]
    intro g hg
    simp only [List.nil_append, List.length_cons, List.length_nil] at g hg ⊢
    rw [Fin.sum_univ_two] at hg
    have h0 := congrArg (fun v => v 0) hg
    have h1 := congrArg (fun v => v 1) hg
    simp at h0 h1
    intro i
    fin_cases i
    · simp only [Fin.zero_eta]; linarith
    · exact h1
  obtain ⟨res, h⟩ := (C28_add_returns_iff debug [] _ ⟨by simp, List.Pairwise.nil⟩).2 hind
  exact ⟨res, h, (C28_add debug _ _ ⟨by simp, List.Pairwise.nil⟩ res h).1⟩

/-- `diag(2, 1)`, start vector `(1, 0)`, second start vector `(1, 1)`. -/
example (debug : Bool) : ∃ s : ℝ, |s| = 1 ∧
    lanczosSolve debug (Matrix.toEuclideanLin !![(2 : ℝ), 0; 0, 1])
      (calcTridiagEpairs Real.sqrt 5e-12 exactDstev) exSort
      (fun _ v => v + EuclideanSpace.single 1 1) 0 1 (some (1, 2)) ⟨200, 1e-4, 5⟩
      ((1 : ℝ) • EuclideanSpace.single 0 1) = .ok ([2], [s • EuclideanSpace.single 0 1]) := by
  obtain ⟨s, t, h1, -, h2, -⟩ := C31_cut_violated debug
    (Matrix.toEuclideanLin !![(2 : ℝ), 0; 0, 1]) (EuclideanSpace.single (0 : Fin 2) (1 : ℝ))
    (EuclideanSpace.single 1 1) (by simp) (by simp) (by rw [EuclideanSpace.inner_single_left]; simp)
    2 1 (by ext i; fin_cases i <;> simp) (by ext i; fin_cases i <;> simp) (by norm_num)
    exactDstev exactDstev_contract 5e-12 exSort exSort_sorts
    (fun _ v => v + EuclideanSpace.single 1 1) 1 1 1 (by norm_num) (by norm_num) (by simp)
    0 ⟨200, 1e-4, 5⟩ (by norm_num) (by norm_num) (by norm_num) (by norm_num)
  exact ⟨s, h1, h2⟩

/-- A plain solve that returns. -/
example (debug : Bool) : ∃ evals evecs,
    lanczosSolve debug (exOp 2 1) (calcTridiagEpairs Real.sqrt (5e-12) exactDstev) exSort
      (fun _ v => v) 0 1 none ⟨10, 1e-10, 5⟩ (EuclideanSpace.single 0 1) = .ok (evals, evecs) := by
  obtain ⟨r, ys, h, -, -, hev⟩ := exRun debug
  have hl := (C27_residual debug (exOp 2 1) (exOp_symm 2 1) exactDstev exactDstev_contract
    _ 1 (by omega) _ (by simp) _ r ys h).2.1
  have hdef : deflatedVmult (⇑(exOp 2 1)) [] = ⇑(exOp 2 1) := rfl
  have hdg : ∀ x : EuclideanSpace ℝ (Fin 2), deflate [] x = x := fun _ => rfl
  refine ⟨[1], ys, ?_⟩
  unfold lanczosSolve
  have a2 : Outcome.assert debug (decide (1 ≤ 1)) = .ok () := by simp [Outcome.assert]
  simp only [a2, Outcome.ok_bind]
  rw [cycleLoop]
  simp [hdef, hdg, h, hev, savePairs, hl, cycleLoop, finishPairs]
  rw [List.take_of_length_le (l := ys) (by omega), List.take_of_length_le (by omega)]

/-- Too few cycles: one cycle of one pair, two pairs requested. -/
example (debug : Bool) : ∃ evals evecs,
    lanczosSolve debug (exOp 2 1) (calcTridiagEpairs Real.sqrt (5e-12) exactDstev) exSort
      (fun _ v => v) 0 2 (some (1, 1)) ⟨10, 1e-10, 5⟩ (EuclideanSpace.single 0 1)
      = .ok (evals, evecs) := by
  obtain ⟨r, ys, h, -, -, hev⟩ := exRun debug
  have hl := (C27_residual debug (exOp 2 1) (exOp_symm 2 1) exactDstev exactDstev_contract
    _ 1 (by omega) _ (by simp) _ r ys h).2.1
  have hdef : deflatedVmult (⇑(exOp 2 1)) [] = ⇑(exOp 2 1) := rfl
  have hdg : ∀ x : EuclideanSpace ℝ (Fin 2), deflate [] x = x := fun _ => rfl
  refine ⟨[1, 0], ys ++ [0], ?_⟩
  unfold lanczosSolve
  have a2 : Outcome.assert debug (decide (1 ≤ 1)) = .ok () := by simp [Outcome.assert]
  simp only [a2, Outcome.ok_bind]
  rw [cycleLoop]
  simp [hdef, hdg, h, hev, savePairs, hl, cycleLoop, finishPairs]
  rw [List.take_of_length_le (l := ys) (by omega), List.take_of_length_le (by omega)]

end Mfmg
