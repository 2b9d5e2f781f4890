import Verif.Lemmas.Deflated
import Verif.Props.LanczosEnd
import Verif.Props.Multiplicity

/-!
# Eigenvalues counted with multiplicity: the Lanczos solver with deflation (C106)
-/

set_option autoImplicit false

namespace Mfmg

open Finset
open scoped InnerProductSpace

section

variable {E : Type} [NormedAddCommGroup E] [InnerProductSpace ℝ E]

/-- **C106 (one cycle).** A cycle ended with a zero remainder and the filter for spurious values left its values alone.
If value number `j` of the cycle is larger than eigenvalue number `j` on the complement of the vectors found before
(counted with multiplicity), then the deflated operator has there an eigenvalue that is smaller than the value and whose
eigenvectors are all orthogonal to the start vector of the cycle, or (only for `j > 0`) that is multiple.  For `j = 0` all
eigenvectors for all smaller eigenvalues are orthogonal to the start vector. -/
theorem C106_exact_cycle (debug : Bool) (A : E →ₗ[ℝ] E) (F : Submodule ℝ E) [FiniteDimensional ℝ F]
    (hmaps : ∀ x ∈ F, A x ∈ F) (hsymm : ∀ x ∈ F, ∀ y ∈ F, ⟪A x, y⟫_ℝ = ⟪x, A y⟫_ℝ)
    (dstev : List ℝ → List ℝ → List ℝ × List ℝ) (hd : DstevContract dstev) (tol2 : ℝ) (per : ℕ) (p : LanczosParams)
    (hmax : 0 < p.maxit) (found : List E) (g : E) (r : LanczosResult E) (ys : List E)
    (h : IsCycle debug A F (calcTridiagEpairs Real.sqrt tol2 dstev) per p found g r ys)
    (hb : r.state.beta = 0) (hkeep : r.evals = (dstev r.state.diag r.state.sub).1.take per)
    (j : ℕ) (θ : ℝ) (hθ : r.evals[j]? = some θ) (hmiss : Misses A F found j 0 θ) :
    (∃ lam, lam < θ ∧ (∃ u, DeflatedEigenvector A F found lam u) ∧
      ((∀ u, DeflatedEigenvector A F found lam u → ⟪u, g⟫_ℝ = 0) ∨
        0 < j ∧ ∃ u v, DeflatedEigenvector A F found lam u ∧ DeflatedEigenvector A F found lam v ∧ ⟪u, v⟫_ℝ = 0)) ∧
      (j = 0 → ∀ lam u, lam < θ → DeflatedEigenvector A F found lam u → ⟪u, g⟫_ℝ = 0) := by
  have hm' : ∀ x ∈ F ⊓ complement found, ((deflateLin found).comp A) x ∈ F ⊓ complement found := fun x hx =>
    ⟨deflate_mem h.mem (hmaps x hx.1), deflate_orthogonal found h.orth (A x)⟩
  have hs' : ∀ x ∈ F ⊓ complement found, ∀ y ∈ F ⊓ complement found,
      ⟪((deflateLin found).comp A) x, y⟫_ℝ = ⟪x, ((deflateLin found).comp A) y⟫_ℝ := by
    intro x hx y hy
    change ⟪deflate found (A x), y⟫_ℝ = ⟪x, deflate found (A y)⟫_ℝ
    rw [inner_deflate found _ _ hx.2, real_inner_comm, inner_deflate found _ _ hy.2, real_inner_comm]
    exact hsymm x hx.1 y hy.1
  -- a smaller eigenvalue that the start vector sees is a Ritz value with a smaller index
  have hseen : ∀ lam u, lam < θ → DeflatedEigenvector A F found lam u → ⟪u, g⟫_ℝ ≠ 0 →
      ∃ k, k < j ∧ (dstev r.state.diag r.state.sub).1.getD k 0 = lam := by
    intro lam u hlam hu hug
    obtain ⟨hfrom, -, -, hrest⟩ := solveLanczos_ok debug ((deflateLin found).comp A)
      (LanczosFrom ((deflateLin found).comp A) (F ⊓ complement found) g)
      (fun s s' hs hst => lanczosStep_from hm' hs' s s' hs hst) _ per p g
      (lanczosInit_from _ _ g ⟨h.startMem, h.startOrth⟩) r ys h.run
    obtain ⟨-, -, -, -, -, -, hm⟩ := hrest hmax
    have hinv := hfrom.inv
    have hsz : r.state.sub.length + 1 = r.state.diag.length := by rw [hinv.lenSub, hinv.lenDiag]; omega
    obtain ⟨k, hk, e⟩ := seen_value hs' hfrom hm hb hd (u := u) ⟨hu.1, hu.2.1⟩ (lam := lam) hu.2.2.2 hug
    refine ⟨k, ?_, e⟩
    by_contra hjk
    have hlen := hd.len _ _ hsz
    have hmono := getD_mono _ (hd.sorted _ _ hsz) j k (by omega) (by rw [hlen, hinv.lenDiag]; exact hk)
    have h0 : (dstev r.state.diag r.state.sub).1.getD j 0 = θ := by
      rw [hkeep, List.getElem?_take] at hθ
      split_ifs at hθ
      rw [List.getD_eq_getElem?_getD, hθ, Option.getD_some]
    rw [e, h0] at hmono
    linarith
  constructor
  · obtain ⟨x, hx, hlt⟩ := hmiss
    have hfd : FiniteDimensional ℝ (F ⊓ complement found : Submodule ℝ E) :=
      Submodule.finiteDimensional_of_le (inf_le_left : F ⊓ complement found ≤ F)
    obtain ⟨b, lam, hbo, hbe⟩ := many_below hm' hs' (y := x) (fun i => ⟨(hx i).1, (hx i).2⟩) (μ := θ) (by
      intro c hc
      have hmem : ∑ i, c i • x i ∈ complement found :=
        Submodule.sum_mem _ fun i _ => Submodule.smul_mem _ _ (hx i).2
      have := hlt c hc
      rw [sub_zero] at this
      change ⟪deflate found (A (∑ i, c i • x i)), ∑ i, c i • x i⟫_ℝ < _
      rw [inner_deflate_left found _ _ hmem]
      exact this)
    have hev : ∀ i, DeflatedEigenvector A F found (lam i) (b i) := fun i =>
      ⟨(hbe i).1.1, (hbe i).1.2, hbo.ne_zero i, (hbe i).2.1⟩
    by_contra hno
    push Not at hno
    have hall := fun i => hno (lam i) (hbe i).2.2 ⟨b i, hev i⟩
    have hinj : Function.Injective lam := by
      intro i i' hii
      by_contra hne
      refine (hall i).2 ?_ (b i) (b i') (hev i) (hii ▸ hev i') (hbo.2 hne)
      have h1 := i.2
      have h2 := i'.2
      have h3 : (i : ℕ) ≠ i' := fun h => hne (Fin.ext h)
      omega
    have hk : ∀ i, ∃ k : Fin j, (dstev r.state.diag r.state.sub).1.getD k 0 = lam i := by
      intro i
      obtain ⟨u, hu, hug⟩ := (hall i).1
      obtain ⟨k, hk, e⟩ := hseen (lam i) u (hbe i).2.2 hu hug
      exact ⟨⟨k, hk⟩, e⟩
    choose k hk using hk
    have hkinj : Function.Injective k := fun i i' hii => hinj (by rw [← hk i, ← hk i', hii])
    have := Fintype.card_le_of_injective k hkinj
    simp at this
  · rintro rfl lam u hlam hu
    by_contra hug
    obtain ⟨k, hk, -⟩ := hseen lam u hlam hu hug
    omega

end

section

variable {size : ℕ} {M : ℕ → ℕ → ℝ} {constrained : ℕ → Bool}

/-- **C106 (what holds, from above).** A call of the library with deflation and with enough cycles for the eigenvectors
requested.  The values returned are at most the smallest eigenvalues counted with multiplicity, up to `δ`; or in one of
the cycles a value, number `j` of the cycle, is by more than `δ` larger than eigenvalue number `j` on the complement of
the vectors found before.  Missing for the full claim: nothing in the code makes sure that a cycle finds the smallest
values there. -/
theorem C106_upper_partial (h : SymmetricUncoupled size M constrained) (debug : Bool)
    (dstev : List ℝ → List ℝ → List ℝ × List ℝ) (hd : DstevContract dstev) (sortPerm : List ℝ → List ℕ)
    (hs : SortsIndices sortPerm) (noise : ℕ → ℕ → ℝ) (draw : ℕ → ℝ) (emptyVec : EuclideanSpace ℝ (Fin size))
    (n per cycles : ℕ) (hper : 0 < per) (hn : n ≤ cycles * per) (tolerance : ℝ) (o : LanczosOptions)
    (hdef : o.deflated = some (per, cycles))
    (hmax : 0 < o.maxIterations.getD 200) (es : List ℝ) (ys : List (EuclideanSpace ℝ (Fin size)))
    (hrun : localLanczos debug dstev sortPerm noise size M constrained draw emptyVec n tolerance o = .ok (es, ys))
    (δ : ℝ) :
    AtMostSmallest size M constrained δ es ∨
      ∃ found g r ys j θ, found.length + j < n ∧ r.evals[j]? = some θ ∧
        IsCycle debug (matOp size M) (freeVectors size constrained) (calcTridiagEpairs Real.sqrt 5e-12 dstev) per
          (localLanczosParams tolerance o) found g r ys ∧
        Misses (matOp size M) (freeVectors size constrained) found j δ θ := by
  obtain ⟨evals, evecs, ht, hl1, hl2, hsorted, hperm⟩ := localLanczos_deflated hd hs h hper hn hdef hmax hrun
  by_contra hno
  push Not at hno
  obtain ⟨hmost, hnone⟩ := hno
  refine hmost fun k θ μ x lam hk hx hind => ?_
  have hkn : k < n := by
    by_contra hc
    rw [List.getElem?_eq_none (by omega)] at hk
    cases hk
  have e1 := ht.lenVals
  have e2 := ht.lenVecs
  have hpv : es.Perm (evals.take n) := by
    have := hperm.map Prod.fst
    rwa [List.map_fst_zip (by omega), List.map_fst_zip (by simp; omega)] at this
  obtain ⟨i, t, hik, hit, hθt⟩ := sorted_le_some hpv hsorted hk
  have hit' : evals[i]? = some t := by
    rw [List.getElem?_take] at hit
    split_ifs at hit
    exact hit
  obtain ⟨y, hy⟩ : ∃ y, evecs[i]? = some y := ⟨_, List.getElem?_eq_getElem (by omega)⟩
  obtain ⟨ds, g, r, ys', j, c1, c2, -, -, c3, -⟩ := ht.cycles i t y hit' hy
  obtain ⟨z, hz, hzi, hzq⟩ := small_orthogonal h.maps (fun x _ y _ => matOp_symm h.symm x y)
    (x := fun i => entriesVec size (x i)) (lam := lam) (μ := μ)
    (fun i => ⟨(hx i).1.mem.1.1, (hx i).1.mem.1.2, (hx i).2⟩) (entriesVec_independent.1 hind) (ds := ds) (j := j)
    (by omega)
  have hm := hnone ds g r ys' j t (by omega) c2 c1
  by_contra hlt
  push Not at hlt
  refine hm ⟨z, hz, fun c hc => (hzq c).trans_lt ?_⟩
  have hpos : 0 < ⟪∑ i, c i • z i, ∑ i, c i • z i⟫_ℝ :=
    real_inner_self_pos.2 fun h0 => hc (funext (Fintype.linearIndependent_iff.1 hzi c h0))
  exact mul_lt_mul_of_pos_right (by linarith) hpos

/-- **C106 (what holds, from below).** In the situation of `C106_upper_partial` the values returned are at least the
smallest eigenvalues counted with multiplicity, up to `n - 1` times the tolerance of the solver, or one of the cycles has
not converged. -/
theorem C106_lower_partial (h : SymmetricUncoupled size M constrained) (debug : Bool)
    (dstev : List ℝ → List ℝ → List ℝ × List ℝ) (hd : DstevContract dstev) (sortPerm : List ℝ → List ℕ)
    (hs : SortsIndices sortPerm) (noise : ℕ → ℕ → ℝ) (draw : ℕ → ℝ) (emptyVec : EuclideanSpace ℝ (Fin size))
    (n per cycles : ℕ) (hper : 0 < per) (hn : n ≤ cycles * per) (tolerance : ℝ) (o : LanczosOptions)
    (hdef : o.deflated = some (per, cycles))
    (hmax : 0 < o.maxIterations.getD 200) (es : List ℝ) (ys : List (EuclideanSpace ℝ (Fin size)))
    (hrun : localLanczos debug dstev sortPerm noise size M constrained draw emptyVec n tolerance o = .ok (es, ys)) :
    AtLeastSmallest size M constrained (((n : ℝ) - 1) * max tolerance 1e-4) es ∨
      ∃ found g r ys, found.length < n ∧ r.converged = false ∧
        IsCycle debug (matOp size M) (freeVectors size constrained) (calcTridiagEpairs Real.sqrt 5e-12 dstev) per
          (localLanczosParams tolerance o) found g r ys := by
  obtain ⟨evals, evecs, ht, hl1, hl2, hsorted, hperm⟩ := localLanczos_deflated hd hs h hper hn hdef hmax hrun
  have hsym : ∀ x ∈ freeVectors size constrained, ∀ y ∈ freeVectors size constrained,
      ⟪matOp size M x, y⟫_ℝ = ⟪x, matOp size M y⟫_ℝ := fun x _ y _ => matOp_symm h.symm x y
  by_contra hno
  push Not at hno
  obtain ⟨hleast, hnone⟩ := hno
  refine hleast fun k θ μ hk hfew => ?_
  by_contra hlt
  push Not at hlt
  refine hfew ?_
  have hkn : k < n := by
    by_contra hc
    rw [List.getElem?_eq_none (by omega)] at hk
    cases hk
  have e1 := ht.lenVals
  have e2 := ht.lenVecs
  -- the pairs of the cycles
  have hpairs : ∀ (i : ℕ) (t : ℝ) (y : EuclideanSpace ℝ (Fin size)), i < n → evals[i]? = some t → evecs[i]? = some y →
      ⟪matOp size M y, y⟫_ℝ = t ∧ ∀ j z, i < j → evecs[j]? = some z → |⟪matOp size M y, z⟫_ℝ| ≤ max tolerance 1e-4 := by
    intro i t y hi e3 e4
    obtain ⟨ds, g, r, zs, q, c1, c2, c3, -, c5, c4⟩ := ht.cycles i t y e3 e4
    obtain ⟨-, -, -, a⟩ := cycle_facts h.maps hsym hd hper hmax c1
    obtain ⟨-, -, -, a6, a7⟩ := a q t y c2 c3
    refine ⟨a6, fun j z hij hz => ?_⟩
    have hconv : r.converged = true := by
      by_contra hc
      exact hnone ds g r zs (by omega) (by simpa using hc) c1
    have hj : j < evecs.length := by
      by_contra hc
      rw [List.getElem?_eq_none (by omega)] at hz
      cases hz
    have hzj : evecs[j] = z := by
      rw [List.getElem?_eq_getElem hj] at hz
      exact Option.some.inj hz
    have horth := List.pairwise_iff_getElem.1 ht.orth.orth
    have hyi : evecs[i]'(by omega) = y := by
      rw [List.getElem?_eq_getElem (by omega)] at e4
      exact Option.some.inj e4
    have hyz : ⟪y, z⟫_ℝ = 0 := by rw [← hyi, ← hzj]; exact horth i j (by omega) hj hij
    have hdz : OrthogonalTo ds z := by
      intro d hd'
      have h1 : d ∈ spanList (evecs.take ds.length) := c4 ▸ Submodule.subset_span hd'
      refine orthogonalTo_span (evecs.take ds.length) z (fun w hw => ?_) d h1
      obtain ⟨l, hl, e⟩ := List.mem_iff_getElem.1 hw
      rw [List.length_take] at hl
      rw [List.getElem_take] at e
      rw [← e, ← hzj]
      exact horth l j (by omega) hj (by omega)
    have hval : ⟪matOp size M y, z⟫_ℝ = ⟪deflatedVmult (matOp size M) ds y - t • y, z⟫_ℝ := by
      rw [inner_sub_left, inner_smul_left, hyz, mul_zero, sub_zero, deflatedVmult,
        inner_deflate_left ds _ _ hdz]
    rw [hval]
    refine (abs_real_inner_le_norm _ _).trans ?_
    rw [← hzj, ht.orth.unit _ (List.getElem_mem hj), mul_one]
    exact a7 hconv
  have hzip : ∀ i (hi : i < n), ∃ l, ∃ hl : l < n, evals[l]'(by omega) = es[i]'(by omega) ∧
      evecs[l]'(by omega) = ys[i]'(by omega) := by
    intro i hi
    have h1 : (es[i]'(by omega), ys[i]'(by omega)) ∈ es.zip ys := by
      rw [← List.getElem_zip (i := i) (h := by rw [List.length_zip]; omega)]
      exact List.getElem_mem _
    obtain ⟨l, hl, e⟩ := List.mem_iff_getElem.1 (hperm.mem_iff.1 h1)
    rw [List.length_zip, List.length_take, List.length_take] at hl
    rw [List.getElem_zip, List.getElem_take, List.getElem_take, Prod.mk.injEq] at e
    exact ⟨l, by omega, e.1, e.2⟩
  choose l hln hlv hly using hzip
  have hyperm : ys.Perm (evecs.take n) := by
    have := hperm.map Prod.snd
    rwa [List.map_snd_zip (by omega), List.map_snd_zip (by simp; omega)] at this
  have horthy : OrthonormalList ys := by
    have h1 : OrthonormalList (evecs.take n) :=
      ⟨fun x hx => ht.orth.unit x (List.mem_of_mem_take hx), ht.orth.orth.sublist (List.take_sublist _ _)⟩
    refine ⟨fun x hx => h1.unit x (hyperm.mem_iff.1 hx), ?_⟩
    exact (hyperm.pairwise_iff (fun {a b} hab => by rw [real_inner_comm]; exact hab)).2 h1.orth
  have hon := (orthonormalList_iff ys).1 horthy
  let e : Fin (k + 1) → Fin ys.length := Fin.castLE (by omega)
  have hon' : Orthonormal ℝ (fun i : Fin (k + 1) => ys[(e i : ℕ)]) := hon.comp e (Fin.castLE_injective _)
  have hθk : es[k]'(by omega) = θ := by
    rw [List.getElem?_eq_getElem (by omega)] at hk
    exact Option.some.inj hk
  have hquad := almost_diagonal (A := matOp size M) (θ := fun i : Fin (k + 1) => es[(i : ℕ)]'(by omega)) hon'
    (tol := max tolerance 1e-4) (μ := μ)
    (by
      intro i
      have := (hpairs (l i (by omega)) _ _ (hln i (by omega)) (List.getElem?_eq_getElem (by have := hln i (by omega); omega))
        (List.getElem?_eq_getElem (by have := hln i (by omega); omega))).1
      rw [hlv, hly] at this
      exact this)
    (by
      intro i j hij
      have hi := hln i (by omega)
      have hj := hln j (by omega)
      have hne : l i (by omega) ≠ l j (by omega) := by
        intro heq
        have h1 : ys[(i : ℕ)]'(by omega) = ys[(j : ℕ)]'(by omega) := by
          rw [← hly i (by omega), ← hly j (by omega)]
          congr 1
        have h2 := hon'.2 hij
        change ⟪ys[(i : ℕ)]'(by omega), ys[(j : ℕ)]'(by omega)⟫_ℝ = 0 at h2
        rw [h1, inner_self_eq_zero] at h2
        have h3 := hon'.1 j
        change ‖ys[(j : ℕ)]'(by omega)‖ = 1 at h3
        rw [h2, norm_zero] at h3
        norm_num at h3
      change |⟪matOp size M (ys[(i : ℕ)]'(by omega)), ys[(j : ℕ)]'(by omega)⟫_ℝ| ≤ _
      rw [← hly i (by omega), ← hly j (by omega)]
      rcases Nat.lt_or_gt_of_ne hne with hlt' | hlt'
      · exact (hpairs (l i (by omega)) _ _ hi (List.getElem?_eq_getElem (by omega))
          (List.getElem?_eq_getElem (by omega))).2 (l j (by omega)) _ hlt' (List.getElem?_eq_getElem (by omega))
      · rw [matOp_symm h.symm, real_inner_comm]
        exact (hpairs (l j (by omega)) _ _ hj (List.getElem?_eq_getElem (by omega))
          (List.getElem?_eq_getElem (by omega))).2 (l i (by omega)) _ hlt' (List.getElem?_eq_getElem (by omega)))
    (by
      intro i
      have h1 : es[(i : ℕ)]'(by omega) ≤ θ := by
        rw [← hθk]
        rcases Nat.lt_or_ge (i : ℕ) k with hik | hik
        · exact List.pairwise_iff_getElem.1 hsorted _ _ (by omega) (by omega) hik
        · have : (i : ℕ) = k := by omega
          simp [this]
      have h2 : ((k + 1 : ℕ) : ℝ) - 1 ≤ (n : ℝ) - 1 := by
        have : ((k + 1 : ℕ) : ℝ) ≤ n := by exact_mod_cast hkn
        linarith
      have h3 : (0 : ℝ) ≤ max tolerance 1e-4 := le_trans (by norm_num) (le_max_right _ _)
      have h4 := mul_le_mul_of_nonneg_right h2 h3
      linarith)
  obtain ⟨b, lam, hb, hbe⟩ := many_below h.maps hsym (fun i : Fin (k + 1) => by
    have := hyperm.mem_iff.1 (List.getElem_mem (l := ys) (n := (e i : ℕ)) (by omega))
    exact ht.mem _ (List.mem_of_mem_take this)) hquad
  refine ⟨fun i j => if hj : j < size then b i ⟨j, hj⟩ else 0, lam, fun i => ⟨?_, (hbe i).2.2⟩, ?_⟩
  · refine freeEigenvector_of ⟨(hbe i).1, (hbe i).2.1⟩ fun h0 => ?_
    have := hb.1 i
    rw [h0, norm_zero] at this
    norm_num at this
  · refine (entriesVec_independent (x := fun i j => if hj : j < size then b i ⟨j, hj⟩ else 0)).2 ?_
    have : (fun i => entriesVec size (fun j => if hj : j < size then b i ⟨j, hj⟩ else 0)) = b := by
      funext i
      ext j
      exact dif_pos j.2
    rw [this]
    exact hb.linearIndependent

/-- **C106 (exact cycles).** In the situation of `C106_upper_partial`: the values returned are at most the smallest
eigenvalues counted with multiplicity, or there is a cycle that ended before the remainder was zero, or a cycle in which
the filter dropped one of the smallest values, or a cycle with a value above an eigenvalue of the deflated operator such
that the start vector is orthogonal to all eigenvectors for it or (if it is not the first value of the cycle) the
eigenvalue is multiple. -/
theorem C106_exact_partial (h : SymmetricUncoupled size M constrained) (debug : Bool)
    (dstev : List ℝ → List ℝ → List ℝ × List ℝ) (hd : DstevContract dstev) (sortPerm : List ℝ → List ℕ)
    (hs : SortsIndices sortPerm) (noise : ℕ → ℕ → ℝ) (draw : ℕ → ℝ) (emptyVec : EuclideanSpace ℝ (Fin size))
    (n per cycles : ℕ) (hper : 0 < per) (hn : n ≤ cycles * per) (tolerance : ℝ) (o : LanczosOptions)
    (hdef : o.deflated = some (per, cycles))
    (hmax : 0 < o.maxIterations.getD 200) (es : List ℝ) (ys : List (EuclideanSpace ℝ (Fin size)))
    (hrun : localLanczos debug dstev sortPerm noise size M constrained draw emptyVec n tolerance o = .ok (es, ys)) :
    AtMostSmallest size M constrained 0 es ∨
      ∃ found g r ys j θ, found.length + j < n ∧ r.evals[j]? = some θ ∧
        IsCycle debug (matOp size M) (freeVectors size constrained) (calcTridiagEpairs Real.sqrt 5e-12 dstev) per
          (localLanczosParams tolerance o) found g r ys ∧
        (r.state.beta ≠ 0 ∨ r.evals ≠ (dstev r.state.diag r.state.sub).1.take per ∨
          ∃ lam, lam < θ ∧ (∃ u, DeflatedEigenvector (matOp size M) (freeVectors size constrained) found lam u) ∧
            ((∀ u, DeflatedEigenvector (matOp size M) (freeVectors size constrained) found lam u → ⟪u, g⟫_ℝ = 0) ∨
              0 < j ∧ ∃ u v, DeflatedEigenvector (matOp size M) (freeVectors size constrained) found lam u ∧
                DeflatedEigenvector (matOp size M) (freeVectors size constrained) found lam v ∧ ⟪u, v⟫_ℝ = 0)) := by
  rcases C106_upper_partial h debug dstev hd sortPerm hs noise draw emptyVec n per cycles hper hn tolerance o hdef hmax es ys
    hrun 0 with hall | ⟨found, g, r, zs, j, θ, h1, h2, h3, h4⟩
  · exact Or.inl hall
  · refine Or.inr ⟨found, g, r, zs, j, θ, h1, h2, h3, ?_⟩
    by_cases hb : r.state.beta = 0
    · by_cases hk : r.evals = (dstev r.state.diag r.state.sub).1.take per
      · exact Or.inr (Or.inr (C106_exact_cycle debug (matOp size M) (freeVectors size constrained) h.maps
          (fun x _ y _ => matOp_symm h.symm x y) dstev hd 5e-12 per (localLanczosParams tolerance o) hmax found g r zs h3 hb
          hk j θ h2 h4).1)
      · exact Or.inr (Or.inl hk)
    · exact Or.inl hb

/-- **C106 is violated by the code: several eigenvectors per cycle.** A call with deflation that asks for more
eigenvectors per cycle than the matrix has distinct eigenvalues on the free dofs never returns normally, although there
are as many eigenvectors as free dofs. -/
theorem C106_many_per_cycle_violated (h : SymmetricUncoupled size M constrained) (L : Finset ℝ)
    (hL : ∀ lam, FreeEigenvalue size M constrained lam → lam ∈ L)
    (debug : Bool) (dstev : List ℝ → List ℝ → List ℝ × List ℝ) (hd : DstevContract dstev) (sortPerm : List ℝ → List ℕ)
    (noise : ℕ → ℕ → ℝ) (draw : ℕ → ℝ) (emptyVec : EuclideanSpace ℝ (Fin size)) (n per cycles : ℕ) (hper : L.card < per)
    (hc : 0 < cycles) (tolerance : ℝ) (o : LanczosOptions) (hdef : o.deflated = some (per, cycles))
    (hmax : 0 < o.maxIterations.getD 200) :
    ∀ out, localLanczos debug dstev sortPerm noise size M constrained draw emptyVec n tolerance o ≠ .ok out := by
  intro out hrun
  unfold localLanczos at hrun
  rw [hdef] at hrun
  simp only [lanczosSolve, Outcome.bind_eq_ok, Outcome.pure_eq] at hrun
  obtain ⟨q, ⟨-, -, -, -, acc, hacc, -⟩, -⟩ := hrun
  obtain ⟨c, rfl⟩ : ∃ c, cycles = c + 1 := ⟨cycles - 1, by omega⟩
  rw [cycleLoop] at hacc
  simp only [Outcome.bind_eq_ok] at hacc
  obtain ⟨ep, ⟨⟨r, ys⟩, hr, -⟩, -⟩ := hacc
  have hr' : solveLanczos debug (matOp size M) (calcTridiagEpairs Real.sqrt 5e-12 dstev) per
      (localLanczosParams tolerance o) (libraryGuess size constrained draw) = .ok (r, ys) := hr
  have hlen := (C27_residual debug (matOp size M) (fun x y => matOp_symm h.symm x y) dstev hd 5e-12 per (by omega)
    (localLanczosParams tolerance o) hmax _ r ys hr').1
  have hget : r.evals[L.card]? = some r.evals[L.card] := List.getElem?_eq_getElem (by omega)
  have := (C103_lower_partial debug (matOp size M) (freeVectors size constrained) h.maps
    (fun x _ y _ => matOp_symm h.symm x y) dstev hd 5e-12 (by norm_num) per (by omega) _ hmax _ (libraryGuess_free draw)
    r ys hr').1 (r.evals[L.card] + 1) L (fun l h1 h2 => hL l (freeEigenvalue_in.2 h2)) L.card _ le_rfl hget
  linarith

/-- **C106 is violated by the code: too many cycles.** The cycles do not stop when enough eigenvectors are there: if the
cycles together ask for more eigenvectors than the agglomerate has dofs, the call never returns normally, however few
eigenvectors it is asked for. -/
theorem C106_many_cycles_violated (h : SymmetricUncoupled size M constrained) (debug : Bool)
    (dstev : List ℝ → List ℝ → List ℝ × List ℝ) (hd : DstevContract dstev) (sortPerm : List ℝ → List ℕ)
    (noise : ℕ → ℕ → ℝ) (draw : ℕ → ℝ) (emptyVec : EuclideanSpace ℝ (Fin size)) (n per cycles : ℕ) (hper : 0 < per)
    (hmany : size < cycles * per) (tolerance : ℝ) (o : LanczosOptions) (hdef : o.deflated = some (per, cycles))
    (hmax : 0 < o.maxIterations.getD 200) :
    ∀ out, localLanczos debug dstev sortPerm noise size M constrained draw emptyVec n tolerance o ≠ .ok out := by
  intro out hrun
  unfold localLanczos at hrun
  rw [hdef] at hrun
  simp only [lanczosSolve, Outcome.bind_eq_ok, Outcome.pure_eq] at hrun
  obtain ⟨q, ⟨-, -, -, -, ⟨evals, evecs⟩, hacc, -⟩, -⟩ := hrun
  obtain ⟨h1, h2, -⟩ := C28_all_cycles debug (matOp size M) (fun x y => matOp_symm h.symm x y) dstev hd 5e-12 per hper
    (localLanczosParams tolerance o) hmax (libraryNoise size noise) cycles _ evals evecs hacc
  have h3 := ((orthonormalList_iff evecs).1 h1).linearIndependent.fintype_card_le_finrank
  rw [Fintype.card_fin, finrank_euclideanSpace_fin] at h3
  omega

end

/-! ## Examples -/

section

variable {E : Type} [NormedAddCommGroup E] [InnerProductSpace ℝ E]

/-- Started from an eigenvector the iteration returns. -/
theorem exOneStep (debug : Bool) (A : E →ₗ[ℝ] E) (hA : A.IsSymmetric) (g : E) (hg : g ≠ 0) (lam : ℝ)
    (hAg : A g = lam • g) (dstev : List ℝ → List ℝ → List ℝ × List ℝ) (hd : DstevContract dstev) (tol2 : ℝ)
    (p : LanczosParams) (hpct : 0 ≤ p.pct ∧ p.pct < 100) (htol : 0 ≤ p.tol) (hmax : 1 ≤ p.maxit) :
    ∃ r ys, solveLanczos debug A (calcTridiagEpairs Real.sqrt tol2 dstev) 1 p g = .ok (r, ys) := by
  have hdim : KrylovDim A g 1 := by
    refine ⟨?_, ?_⟩
    · rw [linearIndependent_unique_iff]
      simpa using hg
    · refine Submodule.mem_span.2 fun q hq => ?_
      have : g ∈ q := hq ⟨0, by simp⟩
      rw [pow_one, hAg]
      exact q.smul_mem lam this
  obtain ⟨r, ys, h, -⟩ := C102_returns_partial debug A hA g 1 hdim (calcTridiagEpairs Real.sqrt tol2 dstev) 1 one_pos p
    hpct htol hmax le_rfl Tested.first (by
      intro t s h1 h2 hs
      obtain rfl : t = 1 := by omega
      obtain ⟨hinv, hl⟩ := stateAfter_inv (lanczosInit_inv A ⊤ g trivial)
        (fun s s' hs hst => (lanczosStep_inv debug A ⊤ (fun _ _ => trivial) (fun x _ y _ => hA x y) s hs s' hst).1) 1 s hs
      have hdl : s.diag.length = 1 := by rw [hinv.lenDiag, hl]
      have hsz : s.sub.length + 1 = s.diag.length := by rw [hinv.lenSub, hinv.lenDiag]; omega
      rw [calcTridiagEpairs_eq Real.sqrt tol2 dstev s.diag s.sub 1 (hd.len _ _ hsz) (hd.flat _ _ hsz)]
      have hl2 := hd.flat _ _ hsz
      simp [hdl, spuriousFlags, hd.len _ _ hsz, isMarked, column, hl2])
  exact ⟨r, ys, h⟩

/-- Two cycles with one eigenvector each. -/
theorem exTwoCycles (run : List E → E → Outcome (List ℝ × List E)) (perturb : ℕ → E → E) (g y y2 : E) (θ θ2 : ℝ)
    (ds : List E) (h1 : run [] g = .ok ([θ], [y])) (hds : addDeflationVecs false [] [y] = .ok ds)
    (h2 : run ds (deflate ds (perturb 1 g)) = .ok ([θ2], [y2])) :
    cycleLoop false run perturb 1 2 2 0 [] g ([], []) = .ok ([θ, θ2], [y, y2]) := by
  have hd0 : deflate [] g = g := rfl
  simp [cycleLoop, hd0, h1, savePairs, hds, h2]

theorem deflateLin_symm (ds : List E) (hds : OrthonormalList ds) : (deflateLin ds).IsSymmetric := by
  intro x y
  change ⟪deflate ds x, y⟫_ℝ = ⟪x, deflate ds y⟫_ℝ
  have h1 : ⟪y - deflate ds y, deflate ds x⟫_ℝ = 0 :=
    orthogonalTo_span ds _ (deflate_orthogonal ds hds x) _ (deflate_sub_mem ds y)
  have h2 := inner_deflate ds x _ (deflate_orthogonal ds hds y)
  rw [inner_sub_left, sub_eq_zero] at h1
  rw [real_inner_comm, h1, h2, real_inner_comm]

end

/-- The identity matrix of two dofs, with two cycles. -/
theorem exTwice (dstev : List ℝ → List ℝ → List ℝ × List ℝ) (hd : DstevContract dstev) (sortPerm : List ℝ → List ℕ)
    (hs : SortsIndices sortPerm) (noise : ℕ → ℕ → ℝ) (hnoise : noise 1 0 ≠ noise 1 1) (draw : ℕ → ℝ)
    (hdraw : ∀ m, 0 < draw m) (emptyVec : EuclideanSpace ℝ (Fin 2)) (tolerance : ℝ) :
    ∃ es ys, localLanczos false dstev sortPerm noise 2 (fun i j => if i = j then 1 else 0) (fun _ => false) draw emptyVec 2
      tolerance { deflated := some (1, 2) } = .ok (es, ys) := by
  obtain ⟨p, hp⟩ : ∃ p, p = localLanczosParams tolerance { deflated := some (1, 2) } := ⟨_, rfl⟩
  have hp1 : 0 ≤ p.pct ∧ p.pct < 100 := by rw [hp]; exact ⟨by norm_num [localLanczosParams], by norm_num [localLanczosParams]⟩
  have hp2 : 0 ≤ p.tol := by rw [hp]; exact le_trans (by norm_num) (le_max_right tolerance 1e-4)
  have hp3 : 1 ≤ p.maxit := by rw [hp]; norm_num [localLanczosParams]
  have hid : matOp 2 (fun i j => if i = j then 1 else 0) = LinearMap.id := by
    refine LinearMap.ext fun x => ?_
    ext i
    rw [matOp_apply, Fin.sum_univ_two]
    fin_cases i <;> simp
  obtain ⟨g, hgdef⟩ : ∃ g, g = libraryGuess 2 (fun _ => false) draw := ⟨_, rfl⟩
  have hgi : ∀ i, g i ≠ 0 := by
    intro i
    obtain ⟨m, hm⟩ := (libraryGuess_apply (size := 2) (constrained := fun _ => false) draw i).2 rfl
    rw [hgdef, hm]
    exact (hdraw m).ne'
  have hg0 : g ≠ 0 := fun h0 => hgi 0 (by rw [h0]; rfl)
  -- the first cycle
  obtain ⟨r, ys, hr⟩ := exOneStep false (LinearMap.id : EuclideanSpace ℝ (Fin 2) →ₗ[ℝ] EuclideanSpace ℝ (Fin 2))
    (fun _ _ => rfl) g hg0 1 (by simp) dstev hd 5e-12 p hp1 hp2 hp3
  obtain ⟨-, h2, h3, h4, -, -⟩ := lanczos_run_facts false LinearMap.id (Submodule.span ℝ {g}) (fun x hx => hx)
    (fun _ _ _ _ => rfl) dstev hd 5e-12 1 one_pos p (by omega) g (Submodule.mem_span_singleton_self g) r ys hr
  obtain ⟨θ, hθ⟩ := List.length_eq_one_iff.1 h2
  obtain ⟨y, rfl⟩ := List.length_eq_one_iff.1 h3
  obtain ⟨y1, yS, -, -⟩ := h4 0 θ y (by rw [hθ]; rfl) rfl
  obtain ⟨c, hc⟩ := Submodule.mem_span_singleton.1 yS
  obtain ⟨ds, hds⟩ := C28_no_breakdown false [] [y] ⟨by simp, List.Pairwise.nil⟩
    ⟨by simpa using y1, List.pairwise_singleton _ _⟩ (by intro _ _ _ h; cases h)
  obtain ⟨d1, d2, -, -⟩ := C28_add false [] [y] ⟨by simp, List.Pairwise.nil⟩ ds hds
  -- the second cycle
  obtain ⟨g1, hg1⟩ : ∃ g1, g1 = deflate ds (libraryNoise 2 noise 1 g) := ⟨_, rfl⟩
  have hg1o : OrthogonalTo ds g1 := hg1 ▸ deflate_orthogonal ds d1 _
  have hg10 : g1 ≠ 0 := by
    intro h0
    have h5 := deflate_sub_mem ds (libraryNoise 2 noise 1 g)
    rw [← hg1, h0, sub_zero, d2] at h5
    have h6 : libraryNoise 2 noise 1 g ∈ Submodule.span ℝ {y} := by
      refine Submodule.span_mono ?_ h5
      intro z hz
      simpa using hz
    obtain ⟨a, ha⟩ := Submodule.mem_span_singleton.1 h6
    have e0 := congrArg (fun v : EuclideanSpace ℝ (Fin 2) => v 0) ha
    have e1 := congrArg (fun v : EuclideanSpace ℝ (Fin 2) => v 1) ha
    rw [← hc] at e0 e1
    change a * (c * g 0) = (1 + noise 1 0) * g 0 at e0
    change a * (c * g 1) = (1 + noise 1 1) * g 1 at e1
    rw [← mul_assoc] at e0 e1
    have := (mul_right_cancel₀ (hgi 0) e0).symm.trans (mul_right_cancel₀ (hgi 1) e1)
    exact hnoise (by linarith)
  obtain ⟨r2, ys2, hr2⟩ := exOneStep false (deflateLin ds) (deflateLin_symm ds d1) g1 hg10 1
    (by rw [one_smul]; exact deflate_orth_self ds g1 hg1o) dstev hd 5e-12 p hp1 hp2 hp3
  obtain ⟨-, k2, k3, -⟩ := lanczos_run_facts false (deflateLin ds) ⊤ (fun x hx => trivial)
    (fun x _ y _ => deflateLin_symm ds d1 x y) dstev hd 5e-12 1 one_pos p (by omega) g1 trivial r2 ys2 hr2
  obtain ⟨θ2, hθ2⟩ := List.length_eq_one_iff.1 k2
  obtain ⟨y2, rfl⟩ := List.length_eq_one_iff.1 k3
  have hr' : solveLanczos false (deflatedVmult (matOp 2 (fun i j => if i = j then 1 else 0)) [])
      (calcTridiagEpairs Real.sqrt 5e-12 dstev) 1 p g = .ok (r, [y]) := by
    rw [hid]; exact hr
  have hr2' : solveLanczos false (deflatedVmult (matOp 2 (fun i j => if i = j then 1 else 0)) ds)
      (calcTridiagEpairs Real.sqrt 5e-12 dstev) 1 p g1 = .ok (r2, [y2]) := by
    rw [hid]; exact hr2
  have hloop : cycleLoop false (fun ds g => do
      let r ← solveLanczos false (deflatedVmult (matOp 2 (fun i j => if i = j then 1 else 0)) ds)
        (calcTridiagEpairs Real.sqrt 5e-12 dstev) 1 p g
      pure (r.1.evals, r.2)) (libraryNoise 2 noise) 1 2 2 0 [] g ([], []) = .ok ([θ, θ2], [y, y2]) := by
    refine exTwoCycles _ _ g y y2 θ θ2 ds ?_ hds ?_
    · simp only [hr', Outcome.ok_bind, Outcome.pure_eq, hθ]
    · simp only [← hg1, hr2', Outcome.ok_bind, Outcome.pure_eq, hθ2]
  obtain ⟨f1, f2, -, -⟩ := finishPairs_cut emptyVec sortPerm hs 2 2 (by norm_num) [θ, θ2] [y, y2] rfl le_rfl
  refine ⟨(finishPairs emptyVec sortPerm 2 2 [θ, θ2] [y, y2]).1, (finishPairs emptyVec sortPerm 2 2 [θ, θ2] [y, y2]).2, ?_⟩
  unfold localLanczos lanczosSolve
  simp only [← hp, ← hgdef]
  rw [hloop]
  simp [Outcome.assert, copyInto, f1]

theorem exIdentity_symm : SymmetricUncoupled 2 (fun i j => if i = j then 1 else 0) (fun _ => false) where
  symm := by
    intro i j _ _
    by_cases h : i = j
    · rw [h]
    · rw [if_neg h, if_neg (Ne.symm h)]
  uncoupled := fun _ _ _ _ _ h => by cases h

/-- The call of `exTwice` returns, and it finds the eigenvalue 1 twice.  Without deflation it could not find it twice
(`C103_distinct_violated`). -/
example (dstev : List ℝ → List ℝ → List ℝ × List ℝ) (hd : DstevContract dstev) (sortPerm : List ℝ → List ℕ)
    (hs : SortsIndices sortPerm) (emptyVec : EuclideanSpace ℝ (Fin 2)) :
    ∃ es ys, localLanczos false dstev sortPerm (fun _ i => (i : ℝ) / 10) 2 (fun i j => if i = j then 1 else 0)
      (fun _ => false) (fun _ => 1 / 2) emptyVec 2 0 { deflated := some (1, 2) } = .ok (es, ys) ∧ es.length = 2 ∧
      ∀ θ ∈ es, θ = 1 := by
  obtain ⟨es, ys, h⟩ := exTwice dstev hd sortPerm hs (fun _ i => (i : ℝ) / 10) (by norm_num) (fun _ => 1 / 2)
    (fun _ => by norm_num) emptyVec 0
  refine ⟨es, ys, h, ?_⟩
  obtain ⟨evals, evecs, ht, h1, h2, -, h4⟩ := localLanczos_deflated hd hs exIdentity_symm (cycles := 2) one_pos le_rfl rfl
    (by norm_num) h
  refine ⟨h1, fun θ hθ => ?_⟩
  have hp : es.Perm (evals.take 2) := by
    have e1 := ht.lenVals
    have e2 := ht.lenVecs
    have := h4.map Prod.fst
    rwa [List.map_fst_zip (by omega), List.map_fst_zip (by simp; omega)] at this
  obtain ⟨i, hi, e⟩ := List.mem_iff_getElem.1 (List.mem_of_mem_take (hp.mem_iff.1 hθ))
  have e1 := ht.lenVals
  have e2 := ht.lenVecs
  obtain ⟨ds, g, r, zs, j, c1, c2, c3, -⟩ := ht.cycles i θ (evecs[i]'(by omega)) (by rw [List.getElem?_eq_getElem hi, e])
    (List.getElem?_eq_getElem (by omega))
  obtain ⟨-, -, -, a⟩ := cycle_facts exIdentity_symm.maps
    (fun x _ y _ => matOp_symm exIdentity_symm.symm x y) hd one_pos
    (p := localLanczosParams 0 { deflated := some (1, 2) }) (by norm_num [localLanczosParams]) c1
  obtain ⟨y, hy⟩ : ∃ y, y = evecs[i]'(by omega) := ⟨_, rfl⟩
  rw [← hy] at c3
  obtain ⟨a3, -, -, a6, -⟩ := a j θ y c2 c3
  have hid : matOp 2 (fun i j => if i = j then 1 else 0) y = y := by
    ext i
    rw [matOp_apply, Fin.sum_univ_two]
    fin_cases i <;> simp
  rw [hid, real_inner_self_eq_norm_sq, a3] at a6
  linarith

/-- The square of `exPlaquette` with eigenvalues 0, 2, 2, 4: three eigenvectors with deflation.  The third value is at
most 2.1, or a cycle missed its smallest value by more than 0.1. -/
example (debug : Bool) (dstev : List ℝ → List ℝ → List ℝ × List ℝ) (hd : DstevContract dstev) (sortPerm : List ℝ → List ℕ)
    (hs : SortsIndices sortPerm) (noise : ℕ → ℕ → ℝ) (draw : ℕ → ℝ) (emptyVec : EuclideanSpace ℝ (Fin 4))
    (es : List ℝ) (ys : List (EuclideanSpace ℝ (Fin 4)))
    (hrun : localLanczos debug dstev sortPerm noise 4 exPlaquette (fun _ => false) draw emptyVec 3 0
      { deflated := some (1, 3) } = .ok (es, ys)) :=
  C106_upper_partial exPlaquette_symm debug dstev hd sortPerm hs noise draw emptyVec 3 1 3 one_pos le_rfl 0 _ rfl (by norm_num)
    es ys hrun (1 / 10)

example (debug : Bool) (dstev : List ℝ → List ℝ → List ℝ × List ℝ) (hd : DstevContract dstev) (sortPerm : List ℝ → List ℕ)
    (hs : SortsIndices sortPerm) (noise : ℕ → ℕ → ℝ) (draw : ℕ → ℝ) (emptyVec : EuclideanSpace ℝ (Fin 4))
    (es : List ℝ) (ys : List (EuclideanSpace ℝ (Fin 4)))
    (hrun : localLanczos debug dstev sortPerm noise 4 exPlaquette (fun _ => false) draw emptyVec 3 0
      { deflated := some (1, 3) } = .ok (es, ys)) :=
  C106_lower_partial exPlaquette_symm debug dstev hd sortPerm hs noise draw emptyVec 3 1 3 one_pos le_rfl 0 _ rfl (by norm_num)
    es ys hrun

example (debug : Bool) (dstev : List ℝ → List ℝ → List ℝ × List ℝ) (hd : DstevContract dstev) (sortPerm : List ℝ → List ℕ)
    (hs : SortsIndices sortPerm) (noise : ℕ → ℕ → ℝ) (draw : ℕ → ℝ) (emptyVec : EuclideanSpace ℝ (Fin 4))
    (es : List ℝ) (ys : List (EuclideanSpace ℝ (Fin 4)))
    (hrun : localLanczos debug dstev sortPerm noise 4 exPlaquette (fun _ => false) draw emptyVec 3 0
      { deflated := some (1, 3) } = .ok (es, ys)) :=
  C106_exact_partial exPlaquette_symm debug dstev hd sortPerm hs noise draw emptyVec 3 1 3 one_pos le_rfl 0 _ rfl (by norm_num)
    es ys hrun

/-- Two cycles of two eigenvectors each. -/
example (debug : Bool) (dstev : List ℝ → List ℝ → List ℝ × List ℝ) (hd : DstevContract dstev) (sortPerm : List ℝ → List ℕ)
    (hs : SortsIndices sortPerm) (noise : ℕ → ℕ → ℝ) (draw : ℕ → ℝ) (emptyVec : EuclideanSpace ℝ (Fin 4))
    (es : List ℝ) (ys : List (EuclideanSpace ℝ (Fin 4)))
    (hrun : localLanczos debug dstev sortPerm noise 4 exPlaquette (fun _ => false) draw emptyVec 3 0
      { deflated := some (2, 2) } = .ok (es, ys)) :=
  C106_exact_partial exPlaquette_symm debug dstev hd sortPerm hs noise draw emptyVec 3 2 2 two_pos (by norm_num) 0 _ rfl
    (by norm_num) es ys hrun

/-- A first cycle for the square that gives the value 2 with a zero remainder: its start vector has the sum zero. -/
example (debug : Bool) (dstev : List ℝ → List ℝ → List ℝ × List ℝ) (hd : DstevContract dstev) (p : LanczosParams)
    (hmax : 0 < p.maxit) (g : EuclideanSpace ℝ (Fin 4)) (r : LanczosResult (EuclideanSpace ℝ (Fin 4)))
    (ys : List (EuclideanSpace ℝ (Fin 4)))
    (h : IsCycle debug (matOp 4 exPlaquette) (freeVectors 4 (fun _ => false)) (calcTridiagEpairs Real.sqrt 5e-12 dstev) 1 p
      [] g r ys) (hb : r.state.beta = 0) (hkeep : r.evals = (dstev r.state.diag r.state.sub).1.take 1)
    (hθ : r.evals = [2]) : g 0 + g 1 + g 2 + g 3 = 0 := by
  have hv : FreeEigenvector 4 exPlaquette (fun _ => false) 0 (fun _ => 1) :=
    exPlaquette_vector _ _ (by norm_num) (by norm_num) (by norm_num) (by norm_num) (by norm_num)
  have he : matOp 4 exPlaquette (entriesVec 4 (fun _ => 1)) = (0 : ℝ) • entriesVec 4 (fun _ => 1) := hv.mem.1.2
  have hmiss : Misses (matOp 4 exPlaquette) (freeVectors 4 (fun _ => false)) [] 0 0 2 := by
    refine ⟨fun _ => entriesVec 4 (fun _ => 1), fun _ => ⟨hv.mem.1.1, by intro _ hd; simp at hd⟩, fun c hc => ?_⟩
    have hc0 : c 0 ≠ 0 := fun h0 => hc (funext fun i => by rw [Fin.fin_one_eq_zero i]; exact h0)
    have hne : c 0 • entriesVec 4 (fun _ => 1) ≠ 0 := smul_ne_zero hc0 hv.mem.2
    rw [Fin.sum_univ_one, map_smul, he, zero_smul, smul_zero, inner_zero_left]
    have := real_inner_self_pos.2 hne
    linarith
  have := (C106_exact_cycle debug (matOp 4 exPlaquette) (freeVectors 4 (fun _ => false)) exPlaquette_symm.maps
    (fun x _ y _ => matOp_symm exPlaquette_symm.symm x y) dstev hd 5e-12 1 p hmax [] g r ys h hb hkeep 0 2
    (by rw [hθ]; rfl) hmiss).2 rfl 0 (entriesVec 4 (fun _ => 1)) (by norm_num)
    ⟨hv.mem.1.1, by intro _ hd; simp at hd, hv.mem.2, he⟩
  rw [inner_fin, Fin.sum_univ_four] at this
  simpa [entriesVec] using this

/-- Four eigenvectors per cycle for the square with three distinct eigenvalues. -/
example (debug : Bool) (dstev : List ℝ → List ℝ → List ℝ × List ℝ) (hd : DstevContract dstev) (sortPerm : List ℝ → List ℕ)
    (noise : ℕ → ℕ → ℝ) (draw : ℕ → ℝ) (emptyVec : EuclideanSpace ℝ (Fin 4)) :
    ∀ out, localLanczos debug dstev sortPerm noise 4 exPlaquette (fun _ => false) draw emptyVec 2 0
      { deflated := some (4, 1) } ≠ .ok out :=
  C106_many_per_cycle_violated exPlaquette_symm {0, 2, 4} exPlaquette_values debug dstev hd sortPerm noise draw emptyVec 2 4 1
    (lt_of_le_of_lt Finset.card_le_three (by norm_num)) one_pos 0 _ rfl (by norm_num)

/-- Five cycles for four dofs. -/
example (debug : Bool) (dstev : List ℝ → List ℝ → List ℝ × List ℝ) (hd : DstevContract dstev) (sortPerm : List ℝ → List ℕ)
    (noise : ℕ → ℕ → ℝ) (draw : ℕ → ℝ) (emptyVec : EuclideanSpace ℝ (Fin 4)) :
    ∀ out, localLanczos debug dstev sortPerm noise 4 exPlaquette (fun _ => false) draw emptyVec 2 0
      { deflated := some (1, 5) } ≠ .ok out :=
  C106_many_cycles_violated exPlaquette_symm debug dstev hd sortPerm noise draw emptyVec 2 1 5 one_pos (by norm_num) 0 _ rfl
    (by norm_num)

end Mfmg
