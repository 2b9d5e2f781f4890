import Verif.Spec.Multiplicity
import Verif.Lemmas.StartVector
import Verif.Props.LanczosRate

/-!
# Lemmas for the Lanczos solver and multiple eigenvalues
-/

set_option autoImplicit false

namespace Mfmg

open Finset
open scoped InnerProductSpace

section

variable {E : Type} [NormedAddCommGroup E] [InnerProductSpace ℝ E]

/-- The vectors of `F` whose inner products with the eigenvectors for one eigenvalue are a multiple of those of
`g`. -/
def seenFrom (A : E →ₗ[ℝ] E) (F : Submodule ℝ E) (g : E) : Submodule ℝ E where
  carrier := {x | x ∈ F ∧ ∀ lam : ℝ, ∃ c : ℝ, ∀ u ∈ F, A u = lam • u → ⟪u, x⟫_ℝ = c * ⟪u, g⟫_ℝ}
  add_mem' := by
    rintro a b ⟨h1, h2⟩ ⟨h3, h4⟩
    refine ⟨F.add_mem h1 h3, fun lam => ?_⟩
    obtain ⟨c, hc⟩ := h2 lam
    obtain ⟨d, hd⟩ := h4 lam
    exact ⟨c + d, fun u hu hAu => by rw [inner_add_right, hc u hu hAu, hd u hu hAu]; ring⟩
  zero_mem' := ⟨F.zero_mem, fun _ => ⟨0, fun u _ _ => by rw [inner_zero_right, zero_mul]⟩⟩
  smul_mem' := by
    rintro a x ⟨h1, h2⟩
    refine ⟨F.smul_mem a h1, fun lam => ?_⟩
    obtain ⟨c, hc⟩ := h2 lam
    exact ⟨a * c, fun u hu hAu => by rw [inner_smul_right, hc u hu hAu]; ring⟩

theorem seenFrom_le (A : E →ₗ[ℝ] E) (F : Submodule ℝ E) (g : E) : seenFrom A F g ≤ F := fun _ h => h.1

theorem start_seenFrom {A : E →ₗ[ℝ] E} {F : Submodule ℝ E} {g : E} (hg : g ∈ F) : g ∈ seenFrom A F g :=
  ⟨hg, fun _ => ⟨1, fun u _ _ => by rw [one_mul]⟩⟩

theorem seenFrom_maps {A : E →ₗ[ℝ] E} {F : Submodule ℝ E} (hmaps : ∀ x ∈ F, A x ∈ F)
    (hsymm : ∀ x ∈ F, ∀ y ∈ F, ⟪A x, y⟫_ℝ = ⟪x, A y⟫_ℝ) (g : E) : ∀ x ∈ seenFrom A F g, A x ∈ seenFrom A F g := by
  rintro x ⟨h1, h2⟩
  refine ⟨hmaps x h1, fun lam => ?_⟩
  obtain ⟨c, hc⟩ := h2 lam
  refine ⟨lam * c, fun u hu hAu => ?_⟩
  rw [← hsymm u hu x h1, hAu, inner_smul_left, hc u hu hAu]
  simp only [conj_trivial]
  ring

/-- For every eigenvalue there is one vector such that a vector of `seenFrom` orthogonal to it is orthogonal to all
eigenvectors. -/
theorem one_test (A : E →ₗ[ℝ] E) (F : Submodule ℝ E) (g : E) (lam : ℝ) :
    ∃ w : E, ∀ x ∈ seenFrom A F g, ⟪w, x⟫_ℝ = 0 → ∀ u ∈ F, A u = lam • u → ⟪u, x⟫_ℝ = 0 := by
  by_cases h : ∃ w ∈ F, A w = lam • w ∧ ⟪w, g⟫_ℝ ≠ 0
  · obtain ⟨w, hw, hAw, hwg⟩ := h
    refine ⟨w, fun x hx hwx u hu hAu => ?_⟩
    obtain ⟨c, hc⟩ := hx.2 lam
    have h1 := hc w hw hAw
    rw [hwx] at h1
    have hc0 : c = 0 := by
      rcases mul_eq_zero.1 h1.symm with h | h
      · exact h
      · exact absurd h hwg
    rw [hc u hu hAu, hc0, zero_mul]
  · push Not at h
    refine ⟨0, fun x hx _ u hu hAu => ?_⟩
    obtain ⟨c, hc⟩ := hx.2 lam
    rw [hc u hu hAu, h u hu hAu, mul_zero]

/-- A vector orthogonal to all eigenvectors for eigenvalues below `μ`. -/
theorem quad_above {A : E →ₗ[ℝ] E} {F : Submodule ℝ E} [FiniteDimensional ℝ F] (hmaps : ∀ x ∈ F, A x ∈ F)
    (hsymm : ∀ x ∈ F, ∀ y ∈ F, ⟪A x, y⟫_ℝ = ⟪x, A y⟫_ℝ) {μ : ℝ} {x : E} (hx : x ∈ F)
    (h : ∀ lam, lam < μ → ∀ u ∈ F, A u = lam • u → ⟪u, x⟫_ℝ = 0) : μ * ⟪x, x⟫_ℝ ≤ ⟪A x, x⟫_ℝ := by
  obtain ⟨n, b, lam, -, hbF, he, hs⟩ := invariant_basis hmaps hsymm
  obtain ⟨q1, q2⟩ := basis_quad hmaps hsymm hbF he hs hx
  rw [q1, q2, Finset.mul_sum]
  refine Finset.sum_le_sum fun i _ => ?_
  by_cases hi : lam i < μ
  · rw [h _ hi (b i) (hbF i) (he i)]
    simp
  · exact mul_le_mul_of_nonneg_right (not_lt.1 hi) (sq_nonneg _)

/-- Every eigenvalue on `F` is one of those of a basis: there are only finitely many. -/
theorem eigenvalues_finite {A : E →ₗ[ℝ] E} {F : Submodule ℝ E} [FiniteDimensional ℝ F] (hmaps : ∀ x ∈ F, A x ∈ F)
    (hsymm : ∀ x ∈ F, ∀ y ∈ F, ⟪A x, y⟫_ℝ = ⟪x, A y⟫_ℝ) : ∃ L : Finset ℝ, ∀ lam, EigenvalueIn A F lam ↔ lam ∈ L := by
  obtain ⟨n, b, lam, hb, hbF, he, hs⟩ := invariant_basis hmaps hsymm
  refine ⟨Finset.univ.image lam, fun l => ⟨?_, ?_⟩⟩
  · rintro ⟨x, hx, hne, hAx⟩
    obtain ⟨i, hi⟩ : ∃ i, ⟪b i, x⟫_ℝ ≠ 0 := by
      by_contra hall
      push Not at hall
      refine hne ?_
      rw [hs x hx]
      exact Finset.sum_eq_zero fun i _ => by rw [hall i, zero_smul]
    refine Finset.mem_image.2 ⟨i, Finset.mem_univ _, ?_⟩
    have h1 := hsymm (b i) (hbF i) x hx
    rw [he i, hAx, inner_smul_left, inner_smul_right] at h1
    exact mul_right_cancel₀ hi h1
  · intro hl
    obtain ⟨i, -, rfl⟩ := Finset.mem_image.1 hl
    exact ⟨b i, hbF i, hb.ne_zero i, he i⟩

/-- Orthonormal vectors with `⟨A yᵢ - θᵢ yᵢ, yⱼ⟩ = 0`. -/
theorem galerkin_quad {A : E →ₗ[ℝ] E} {n : ℕ} {y : Fin n → E} {θ : Fin n → ℝ} (ho : Orthonormal ℝ y)
    (hg : ∀ i j, ⟪A (y i) - θ i • y i, y j⟫_ℝ = 0) (c : Fin n → ℝ) :
    ⟪A (∑ i, c i • y i), ∑ i, c i • y i⟫_ℝ = ∑ i, θ i * c i ^ 2 ∧
      ⟪∑ i, c i • y i, ∑ i, c i • y i⟫_ℝ = ∑ i, c i ^ 2 := by
  have h2 : ∀ i, ⟪y i, ∑ j, c j • y j⟫_ℝ = c i := fun i => ho.inner_right_fintype c i
  constructor
  · rw [map_sum, sum_inner]
    refine Finset.sum_congr rfl fun i _ => ?_
    have h3 : ⟪A (y i) - θ i • y i, ∑ j, c j • y j⟫_ℝ = 0 := by
      rw [inner_sum]
      exact Finset.sum_eq_zero fun j _ => by rw [inner_smul_right, hg i j, mul_zero]
    rw [inner_sub_left, inner_smul_left, h2 i] at h3
    rw [map_smul, inner_smul_left, sub_eq_zero.1 h3]
    simp only [conj_trivial]
    ring
  · rw [sum_inner]
    refine Finset.sum_congr rfl fun i _ => ?_
    rw [inner_smul_left, h2 i]
    simp only [conj_trivial]
    ring

/-- The counting argument: at most as many Ritz values below `μ` as distinct eigenvalues. -/
theorem ritz_count {A : E →ₗ[ℝ] E} {F : Submodule ℝ E} [FiniteDimensional ℝ F] (hmaps : ∀ x ∈ F, A x ∈ F)
    (hsymm : ∀ x ∈ F, ∀ y ∈ F, ⟪A x, y⟫_ℝ = ⟪x, A y⟫_ℝ) {g : E} {n : ℕ} {y : Fin n → E} {θ : Fin n → ℝ}
    (ho : Orthonormal ℝ y) (hy : ∀ i, y i ∈ seenFrom A F g) (hg : ∀ i j, ⟪A (y i) - θ i • y i, y j⟫_ℝ = 0)
    {μ : ℝ} {L : Finset ℝ} (hL : ContainsBelow A F μ L) (hθ : ∀ i, θ i < μ) : n ≤ L.card := by
  by_contra hlt
  push Not at hlt
  choose w hw using fun lam : ℝ => one_test A F g lam
  let f : (Fin n → ℝ) →ₗ[ℝ] (L → ℝ) :=
    { toFun := fun c lam => ⟪w lam, ∑ i, c i • y i⟫_ℝ
      map_add' := by
        intro a b
        funext lam
        simp only [Pi.add_apply, add_smul, Finset.sum_add_distrib, inner_add_right]
      map_smul' := by
        intro a b
        funext lam
        simp only [Pi.smul_apply, smul_eq_mul, mul_smul, ← Finset.smul_sum, inner_smul_right, RingHom.id_apply] }
  have hker : LinearMap.ker f ≠ ⊥ := by
    refine LinearMap.ker_ne_bot_of_finrank_lt ?_
    simp only [Module.finrank_fintype_fun_eq_card, Fintype.card_coe, Fintype.card_fin]
    exact hlt
  obtain ⟨c, hc, hc0⟩ := Submodule.exists_mem_ne_zero_of_ne_bot hker
  have hc' : ∀ lam ∈ L, ⟪w lam, ∑ i, c i • y i⟫_ℝ = 0 := fun lam hlam =>
    congrFun (LinearMap.mem_ker.1 hc) ⟨lam, hlam⟩
  have hmem : ∑ i, c i • y i ∈ seenFrom A F g := Submodule.sum_mem _ fun i _ => Submodule.smul_mem _ _ (hy i)
  have hup := quad_above hmaps hsymm (seenFrom_le A F g hmem) (μ := μ) (fun lam hlam u hu hAu => by
    by_cases hu0 : u = 0
    · rw [hu0, inner_zero_left]
    · exact hw lam _ hmem (hc' lam (hL lam hlam ⟨u, hu, hu0, hAu⟩)) u hu hAu)
  obtain ⟨q1, q2⟩ := galerkin_quad ho hg c
  rw [q1, q2, Finset.mul_sum] at hup
  obtain ⟨i, hi⟩ : ∃ i, c i ≠ 0 := by
    by_contra hall
    push Not at hall
    exact hc0 (funext hall)
  have : ∑ i, θ i * c i ^ 2 < ∑ i, μ * c i ^ 2 := by
    refine Finset.sum_lt_sum (fun j _ => mul_le_mul_of_nonneg_right (hθ j).le (sq_nonneg _)) ⟨i, Finset.mem_univ _, ?_⟩
    exact mul_lt_mul_of_pos_right (hθ i) (by positivity)
  linarith

/-- An approximate eigenvector shows an eigenvalue near by. -/
theorem eigenvalue_near {A : E →ₗ[ℝ] E} {F : Submodule ℝ E} [FiniteDimensional ℝ F] (hmaps : ∀ x ∈ F, A x ∈ F)
    (hsymm : ∀ x ∈ F, ∀ y ∈ F, ⟪A x, y⟫_ℝ = ⟪x, A y⟫_ℝ) {y : E} (hy : y ∈ F) (hy1 : ‖y‖ = 1) {θ tol : ℝ}
    (h : ‖A y - θ • y‖ ≤ tol) : ∃ lam, EigenvalueIn A F lam ∧ |lam - θ| ≤ tol := by
  obtain ⟨n, b, lam, hb, hbF, he, hs⟩ := invariant_basis hmaps hsymm
  by_contra hall
  push Not at hall
  have h0 : 0 ≤ tol := (norm_nonneg _).trans h
  have hfar : ∀ i, tol ^ 2 < (lam i - θ) ^ 2 := by
    intro i
    have := hall (lam i) ⟨b i, hbF i, hb.ne_zero i, he i⟩
    rw [← sq_abs (lam i - θ)]
    exact pow_lt_pow_left₀ this h0 two_ne_zero
  have hin : ∀ i, ⟪b i, A y - θ • y⟫_ℝ = (lam i - θ) * ⟪b i, y⟫_ℝ := by
    intro i
    rw [inner_sub_right, inner_smul_right, ← hsymm _ (hbF i) _ hy, he i, inner_smul_left]
    simp only [conj_trivial]
    ring
  have hq : ‖A y - θ • y‖ ^ 2 = ∑ i, (lam i - θ) ^ 2 * ⟪b i, y⟫_ℝ ^ 2 := by
    rw [← real_inner_self_eq_norm_sq, parseval (hs _ (F.sub_mem (hmaps y hy) (F.smul_mem θ hy)))]
    exact Finset.sum_congr rfl fun i _ => by rw [hin i]; ring
  have h1 : (1 : ℝ) = ∑ i, ⟪b i, y⟫_ℝ ^ 2 := by
    rw [← (basis_quad hmaps hsymm hbF he hs hy).2, real_inner_self_eq_norm_sq, hy1, one_pow]
  obtain ⟨i, hi⟩ : ∃ i, ⟪b i, y⟫_ℝ ≠ 0 := by
    by_contra hz
    push Not at hz
    rw [Finset.sum_eq_zero (fun i _ => by rw [hz i]; norm_num)] at h1
    norm_num at h1
  have : ∑ i, tol ^ 2 * ⟪b i, y⟫_ℝ ^ 2 < ∑ i, (lam i - θ) ^ 2 * ⟪b i, y⟫_ℝ ^ 2 :=
    Finset.sum_lt_sum (fun j _ => mul_le_mul_of_nonneg_right (hfar j).le (sq_nonneg _))
      ⟨i, Finset.mem_univ _, mul_lt_mul_of_pos_right (hfar i) (by positivity)⟩
  rw [← hq, ← Finset.mul_sum, ← h1, mul_one] at this
  have := pow_le_pow_left₀ (norm_nonneg _) h 2
  linarith

/-- Orthonormal rows, as many as there are columns. -/
theorem rows_complete {m : ℕ} (q : ℕ → ℕ → ℝ) (hq : ∀ k l, k < m → l < m →
      ∑ j ∈ range m, q k j * q l j = if k = l then 1 else 0) (c : ℕ → ℝ)
    (hc : ∀ k, k < m → ∑ j ∈ range m, q k j * c j = 0) : ∀ i, i < m → c i = 0 := by
  set Q : Matrix (Fin m) (Fin m) ℝ := fun k j => q k j with hQ
  have hQQ : Q * Q.transpose = 1 := by
    ext k l
    rw [Matrix.mul_apply, Matrix.one_apply]
    have := hq k l k.2 l.2
    rw [Finset.sum_range] at this
    refine Eq.trans this ?_
    simp [Fin.ext_iff]
  have hQQ' : Q.transpose * Q = 1 := mul_eq_one_comm.1 hQQ
  have hv : Q.mulVec (fun j => c j) = 0 := by
    funext k
    have := hc k k.2
    rw [Finset.sum_range] at this
    exact this
  have hz : (fun j : Fin m => c j) = 0 := by
    have := congrArg (Q.transpose.mulVec) hv
    rw [Matrix.mulVec_mulVec, hQQ', Matrix.one_mulVec, Matrix.mulVec_zero] at this
    exact this
  intro i hi
  exact congrFun hz ⟨i, hi⟩

/-- When the remainder is zero, every eigenvalue seen by the start vector is a value of the tridiagonal matrix. -/
theorem seen_value {A : E →ₗ[ℝ] E} {F : Submodule ℝ E} (hsymm : ∀ x ∈ F, ∀ y ∈ F, ⟪A x, y⟫_ℝ = ⟪x, A y⟫_ℝ)
    {g : E} {s : LanczosState E} (hs : LanczosFrom A F g s) (hm : 1 ≤ s.vs.length) (hb : s.beta = 0)
    {dstev : List ℝ → List ℝ → List ℝ × List ℝ} (hd : DstevContract dstev) {u : E} (hu : u ∈ F) {lam : ℝ}
    (hAu : A u = lam • u) (hug : ⟪u, g⟫_ℝ ≠ 0) :
    ∃ k, k < s.vs.length ∧ (dstev s.diag s.sub).1.getD k 0 = lam := by
  by_contra hall
  push Not at hall
  have hsz : s.sub.length + 1 = s.diag.length := by rw [hs.inv.lenSub, hs.inv.lenDiag]; omega
  have hz := rows_complete (m := s.diag.length) (fun k j => (column s.diag.length (dstev s.diag s.sub).2 k).getD j 0)
    (fun k l hk hl => hd.orthonormal _ _ hsz k l hk hl) (fun j => ⟪u, s.vs.getD j 0⟫_ℝ) (by
      intro k hk
      rw [hs.inv.lenDiag] at hk ⊢
      obtain ⟨y, hyF, hy, -, -, hres⟩ := ritz_pairs hs.inv hm hd hk
      rw [hb, zero_mul, norm_eq_zero, sub_eq_zero] at hres
      have h1 := hsymm u hu y hyF
      rw [hAu, hres, inner_smul_left, inner_smul_right] at h1
      simp only [conj_trivial] at h1
      have h2 : ⟪u, y⟫_ℝ = 0 := by
        rcases mul_eq_zero.1 (by linarith : ((dstev s.diag s.sub).1.getD k 0 - lam) * ⟪u, y⟫_ℝ = 0) with h | h
        · exact absurd (sub_eq_zero.1 h) (hall k hk)
        · exact h
      rw [hy, inner_sum] at h2
      refine Eq.trans (Finset.sum_congr rfl fun j _ => ?_) h2
      rw [inner_smul_right])
  have h0 := hz 0 (by rw [hs.inv.lenDiag]; omega)
  have hne : s.vs ≠ [] := by
    intro h
    rw [h] at hm
    simp at hm
  rw [hs.first hne, inner_smul_right] at hug
  have h0' : ⟪u, s.vs.getD 0 0⟫_ℝ = 0 := h0
  rw [h0', mul_zero] at hug
  exact hug rfl

/-- The values returned are strictly increasing. -/
theorem run_sorted (debug : Bool) (A : E →ₗ[ℝ] E) (dstev : List ℝ → List ℝ → List ℝ × List ℝ)
    (hd : DstevContract dstev) (tol2 : ℝ) (htol2 : 0 ≤ tol2) (req : ℕ) (hreq : 0 < req) (p : LanczosParams)
    (hmax : 0 < p.maxit) (g : E) {S : Submodule ℝ E} {r : LanczosResult E} {ys : List E}
    (hinv : LanczosInv A S r.state)
    (h : solveLanczos debug A (calcTridiagEpairs Real.sqrt tol2 dstev) req p g = .ok (r, ys))
    (hel : r.evals.length = req) : r.evals.Pairwise (· < ·) := by
  obtain ⟨-, hm, -, -, hep, -⟩ := C32_tests debug A _ req p hmax g r ys h
  have hsz : r.state.sub.length + 1 = r.state.diag.length := by rw [hinv.lenSub, hinv.lenDiag]; omega
  have e : r.evals = (calcTridiagEpairs Real.sqrt tol2 dstev r.state.diag r.state.sub req).1 := by rw [← hep]
  by_cases h1 : req = 1
  · obtain ⟨a, ha⟩ := List.length_eq_one_iff.1 (hel.trans h1)
    rw [ha]
    exact List.pairwise_singleton _ _
  have hle : req ≤ r.state.diag.length := by
    by_contra hlt
    rw [calcTridiagEpairs, if_pos (by omega)] at e
    rw [e] at hel
    simp at hel
    omega
  have hs2 : (dstev r.state.diag.tail r.state.sub.tail).1.Pairwise (· ≤ ·) :=
    hd.sorted _ _ (by rw [List.length_tail, List.length_tail]; omega)
  obtain ⟨kept, -, -, h1, h2⟩ := C30_all_or_nothing Real.sqrt tol2 htol2 dstev r.state.diag r.state.sub req
    (hd.len _ _ hsz) (hd.flat _ _ hsz) (hd.sorted _ _ hsz) hs2
  rcases Nat.lt_or_ge kept.length req with hlt | hge
  · rw [h1 hlt] at e
    rw [e] at hel
    simp at hel
    omega
  · rw [e]
    exact (h2 hge).2.2.1

end

/-- Without deflation `Lanczos::solve` is one call of `details_solve_lanczos`. -/
theorem lanczosSolve_plain {E : Type} [NormedAddCommGroup E] [InnerProductSpace ℝ E] (debug : Bool) (A : E → E)
    (tridiag : List ℝ → List ℝ → ℕ → List ℝ × List ℝ) (sortPerm : List ℝ → List ℕ)
    (perturb : ℕ → E → E) (emptyVec : E) {n : ℕ} (hn : 1 ≤ n) (p : LanczosParams) (guess : E) :
    lanczosSolve debug A tridiag sortPerm perturb emptyVec n none p guess = (do
      let r ← solveLanczos debug A tridiag n p guess
      let sv ← savePairs n r.1.evals r.2
      pure (finishPairs emptyVec sortPerm n 1 sv.1 sv.2)) := by
  have hdef : deflatedVmult A [] = A := rfl
  have hdg : ∀ x : E, deflate [] x = x := fun _ => rfl
  unfold lanczosSolve
  have a1 : Outcome.assert debug (decide (1 ≤ 1)) = .ok () := by simp [Outcome.assert]
  have a2 : Outcome.assert debug (decide (1 ≤ n)) = .ok () := by simp [Outcome.assert, hn]
  simp only [a1, a2, Outcome.ok_bind]
  rw [cycleLoop]
  simp only [hdef, hdg, gt_iff_lt, lt_self_iff_false, if_false]
  cases solveLanczos debug A tridiag n p guess with
  | ok r =>
    simp only [Outcome.ok_bind, Outcome.pure_eq]
    cases savePairs n r.1.evals r.2 with
    | ok sv => simp [Outcome.ok_bind, cycleLoop]
    | throws m => rfl
    | aborted => rfl
    | ub m => rfl
  | throws m => rfl
  | aborted => rfl
  | ub m => rfl

/-- The call of the library without deflation returns what one run of the iteration computes. -/
theorem localLanczos_plain {debug : Bool} {dstev : List ℝ → List ℝ → List ℝ × List ℝ} (hd : DstevContract dstev)
    {sortPerm : List ℝ → List ℕ} {noise : ℕ → ℕ → ℝ} {size : ℕ} {M : ℕ → ℕ → ℝ}
    (hM : ∀ i j, i < size → j < size → M i j = M j i) {constrained : ℕ → Bool} {draw : ℕ → ℝ}
    {emptyVec : EuclideanSpace ℝ (Fin size)} {n : ℕ} (hn : 1 ≤ n) {tolerance : ℝ} {o : LanczosOptions}
    (hdef : o.deflated = none) (hmax : 0 < o.maxIterations.getD 200) {es : List ℝ}
    {ys : List (EuclideanSpace ℝ (Fin size))}
    (hrun : localLanczos debug dstev sortPerm noise size M constrained draw emptyVec n tolerance o = .ok (es, ys)) :
    ∃ r, solveLanczos debug (matOp size M) (calcTridiagEpairs Real.sqrt 5e-12 dstev) n (localLanczosParams tolerance o)
      (libraryGuess size constrained draw) = .ok (r, ys) ∧ es = r.evals := by
  unfold localLanczos at hrun
  rw [hdef, lanczosSolve_plain _ _ _ _ _ _ hn] at hrun
  simp only [Outcome.bind_eq_ok, Outcome.pure_eq] at hrun
  obtain ⟨q, ⟨⟨r, ys'⟩, hr, sv, hsv, hq⟩, -, -, es', hes, hout⟩ := hrun
  simp only [Outcome.ok.injEq, Prod.mk.injEq] at hq hout
  obtain ⟨rfl, rfl⟩ := hout
  subst hq
  obtain ⟨hel, hyl, -⟩ := C27_residual debug (matOp size M) (fun x y => matOp_symm hM x y) dstev hd 5e-12 n (by omega)
    (localLanczosParams tolerance o) hmax _ r ys' hr
  have hsv' : sv = (r.evals, ys') := by
    change savePairs n r.evals ys' = .ok sv at hsv
    rw [savePairs, if_pos ⟨by omega, by omega⟩, Outcome.ok.injEq] at hsv
    rw [← hsv, List.take_of_length_le (by omega), List.take_of_length_le (by omega)]
  subst hsv'
  have hfin : finishPairs emptyVec sortPerm n 1 r.evals ys' = (r.evals, ys') := by
    simp [finishPairs, hel, hyl, List.take_of_length_le]
  rw [hfin] at hes ⊢
  refine ⟨r, hr, ?_⟩
  rw [copyInto, if_neg (by simp [hel]), Outcome.ok.injEq] at hes
  rw [← hes]
  simp [hel]

theorem freeEigenvalue_in {size : ℕ} {M : ℕ → ℕ → ℝ} {constrained : ℕ → Bool} {lam : ℝ} :
    FreeEigenvalue size M constrained lam ↔ EigenvalueIn (matOp size M) (freeVectors size constrained) lam :=
  (freeEigenvalue_iff lam).trans
    ⟨fun ⟨w, hw, hne⟩ => ⟨w, hw.1, hne, hw.2⟩, fun ⟨w, h1, h2, h3⟩ => ⟨w, ⟨h1, h3⟩, h2⟩⟩

end Mfmg
