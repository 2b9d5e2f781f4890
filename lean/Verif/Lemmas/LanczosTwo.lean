import Verif.Lemmas.LanczosRun

/-!
# The iteration on a two-dimensional invariant subspace
-/

set_option autoImplicit false

namespace Mfmg

open Finset
open scoped InnerProductSpace

section

variable {E : Type} [NormedAddCommGroup E] [InnerProductSpace ℝ E]

/-- The operator acts on the span of two orthonormal vectors as `[[c, b], [b, c]]`. -/
structure ActsTwo (A : E → E) (c b : ℝ) (e₁ e₂ : E) : Prop where
  n1 : ‖e₁‖ = 1
  n2 : ‖e₂‖ = 1
  orth : ⟪e₁, e₂⟫_ℝ = 0
  a1 : A e₁ = c • e₁ + b • e₂
  a2 : A e₂ = b • e₁ + c • e₂

theorem two_step1 (debug : Bool) (A : E → E) (c b : ℝ) (hb : 0 < b) (e₁ e₂ : E)
    (h : ActsTwo A c b e₁ e₂) :
    lanczosStep debug A (lanczosInit e₁) = .ok ⟨[e₁], b • e₂, b, [c], []⟩ := by
  have hv : (1 : ℝ)⁻¹ • e₁ = e₁ := by simp
  have ha : ⟪e₁, A e₁⟫_ℝ = c := by
    rw [h.a1, inner_add_right, inner_smul_right, inner_smul_right, real_inner_self_eq_norm_sq, h.n1,
      h.orth]
    ring
  have hw : A e₁ + (-c) • e₁ = b • e₂ := by rw [h.a1]; module
  unfold lanczosStep lanczosInit
  simp only [h.n1, one_ne_zero, if_false, hv, List.getLast?_nil, List.nil_append, ha, hw]
  rw [norm_smul, h.n2, Real.norm_eq_abs, abs_of_pos hb, mul_one]

theorem two_step2 (debug : Bool) (A : E → E) (c b : ℝ) (hb : 0 < b) (e₁ e₂ : E)
    (h : ActsTwo A c b e₁ e₂) :
    lanczosStep debug A ⟨[e₁], b • e₂, b, [c], []⟩ = .ok ⟨[e₁, e₂], 0, 0, [c, c], [b]⟩ := by
  have hb' : b ≠ 0 := hb.ne'
  have hv : b⁻¹ • b • e₂ = e₂ := by rw [smul_smul, inv_mul_cancel₀ hb', one_smul]
  have hw1 : A e₂ + (-b) • e₁ = c • e₂ := by rw [h.a2]; module
  have ha : ⟪e₂, c • e₂⟫_ℝ = c := by
    rw [inner_smul_right, real_inner_self_eq_norm_sq, h.n2]; ring
  have hw : c • e₂ + (-c) • e₂ = 0 := by module
  unfold lanczosStep
  simp only [hb', if_false, hv, List.getLast?_singleton, hw1, ha, hw, norm_zero, List.cons_append,
    List.nil_append]

end

theorem list_len1 (l : List ℝ) (h : l.length = 1) : l = [l.getD 0 0] := by
  match l, h with
  | [a], _ => rfl

theorem list_len2 (l : List ℝ) (h : l.length = 2) : l = [l.getD 0 0, l.getD 1 0] := by
  match l, h with
  | [a, b], _ => rfl

theorem dstev_one (dstev : List ℝ → List ℝ → List ℝ × List ℝ) (hd : DstevContract dstev) (c : ℝ) :
    (dstev [c] []).1 = [c] ∧ ∃ s, (dstev [c] []).2 = [s] ∧ s * s = 1 := by
  have hl := hd.len [c] [] rfl
  have hf := hd.flat [c] [] rfl
  have he := hd.eigen [c] [] rfl 0 (by simp) 0 (by simp)
  have ho := hd.orthonormal [c] [] rfl 0 0 (by simp) (by simp)
  have e1 := list_len1 _ hl
  have e2 := list_len1 _ hf
  generalize (dstev [c] []).1.getD 0 0 = x at e1
  generalize (dstev [c] []).2.getD 0 0 = s at e2
  rw [e1, e2] at he
  rw [e2] at ho
  simp only [List.length_singleton, Finset.sum_range_one, column, Nat.mul_zero, List.drop_zero,
    List.take_succ_cons, List.take_zero, List.getD_cons_zero, if_true] at ho
  simp only [List.length_singleton, Finset.sum_range_one, column, Nat.mul_zero, List.drop_zero,
    List.take_succ_cons, List.take_zero, List.getD_cons_zero, tridiagEntry, if_true] at he
  have hs : s ≠ 0 := by rintro rfl; simp at ho
  refine ⟨by rw [e1, mul_right_cancel₀ hs he], s, e2, ho⟩

theorem dstev_two (dstev : List ℝ → List ℝ → List ℝ × List ℝ) (hd : DstevContract dstev) (c b : ℝ)
    (hb : 0 < b) : (dstev [c, c] [b]).1 = [c - b, c + b] := by
  have hl := hd.len [c, c] [b] rfl
  have hf := hd.flat [c, c] [b] rfl
  have hs := hd.sorted [c, c] [b] rfl
  have he00 := hd.eigen [c, c] [b] rfl 0 (by simp) 0 (by simp)
  have he01 := hd.eigen [c, c] [b] rfl 0 (by simp) 1 (by simp)
  have he10 := hd.eigen [c, c] [b] rfl 1 (by simp) 0 (by simp)
  have he11 := hd.eigen [c, c] [b] rfl 1 (by simp) 1 (by simp)
  have ho00 := hd.orthonormal [c, c] [b] rfl 0 0 (by simp) (by simp)
  have ho11 := hd.orthonormal [c, c] [b] rfl 1 1 (by simp) (by simp)
  have ho01 := hd.orthonormal [c, c] [b] rfl 0 1 (by simp) (by simp)
  have e1 := list_len2 _ hl
  generalize (dstev [c, c] [b]).1.getD 0 0 = x at *
  generalize (dstev [c, c] [b]).1.getD 1 0 = y at *
  generalize hc0 : column [c, c].length (dstev [c, c] [b]).2 0 = col0 at *
  generalize hc1 : column [c, c].length (dstev [c, c] [b]).2 1 = col1 at *
  simp only [List.length_cons, List.length_nil, Finset.sum_range_succ, Finset.sum_range_zero,
    tridiagEntry, List.getD_cons_zero, List.getD_cons_succ, zero_add] at *
  norm_num at he00 he01 he10 he11 ho00 ho11 ho01
  generalize col0[0]?.getD 0 = p at *
  generalize col0[1]?.getD 0 = q at *
  generalize col1[0]?.getD 0 = u at *
  generalize col1[1]?.getD 0 = v at *
  rw [e1] at hs ⊢
  have hxy : x ≤ y := by simpa using hs
  have key : ∀ θ s t : ℝ, c * s + b * t = θ * s → b * s + c * t = θ * t → s * s + t * t = 1 →
      (θ = c - b ∧ t = -s) ∨ (θ = c + b ∧ t = s) := by
    intro θ s t h1 h2 h3
    have h4 : ((θ - c) * (θ - c) - b * b) * (s * s + t * t) = 0 := by
      have e1 : b * t = (θ - c) * s := by linarith
      have e2 : b * s = (θ - c) * t := by linarith
      have : ((θ - c) * (θ - c) - b * b) * (s * s + t * t) =
        ((θ - c) * s) * ((θ - c) * s) + ((θ - c) * t) * ((θ - c) * t) - (b * s) * (b * s)
          - (b * t) * (b * t) := by ring
      rw [this, ← e1, ← e2]; ring
    rw [h3, mul_one] at h4
    have h5 : (θ - c - b) * (θ - c + b) = 0 := by linarith
    rcases mul_eq_zero.1 h5 with h6 | h6
    · right
      have hθ : θ = c + b := by linarith
      refine ⟨hθ, ?_⟩
      have : b * t = b * s := by rw [hθ] at h1; linarith
      exact mul_left_cancel₀ hb.ne' this
    · left
      have hθ : θ = c - b := by linarith
      refine ⟨hθ, ?_⟩
      have : b * t = b * (-s) := by rw [hθ] at h1; linarith
      exact mul_left_cancel₀ hb.ne' this
  rcases key x p q he00 he01 ho00 with ⟨h1, h2⟩ | ⟨h1, h2⟩ <;>
    rcases key y u v he10 he11 ho11 with ⟨h3, h4⟩ | ⟨h3, h4⟩
  · exfalso
    subst h2 h4
    have hpu : p * u = 0 := by linarith
    rcases mul_eq_zero.1 hpu with h | h <;> subst h <;>
      first | (exfalso; norm_num at ho00; done) | (exfalso; norm_num at ho11; done)
  · rw [h1, h3]
  · exfalso; rw [h1, h3] at hxy; linarith
  · exfalso
    subst h2 h4
    have hpu : q * v = 0 := by linarith
    rcases mul_eq_zero.1 hpu with h | h <;> subst h <;>
      first | (exfalso; norm_num at ho00; done) | (exfalso; norm_num at ho11; done)

/-- First test: one pair is returned, with a unit eigenvector. -/
theorem tridiag_one (dstev : List ℝ → List ℝ → List ℝ × List ℝ) (hd : DstevContract dstev)
    (tol2 c : ℝ) : ∃ s, calcTridiagEpairs Real.sqrt tol2 dstev [c] [] 1 = ([c], [s]) ∧ |s| = 1 := by
  obtain ⟨h1, s, h2, h3⟩ := dstev_one dstev hd c
  refine ⟨s, ?_, ?_⟩
  · rw [calcTridiagEpairs_eq _ _ _ _ _ _ (by rw [h1]) (by rw [h2]; rfl)]
    rw [h1, h2]
    simp [spuriousFlags, isMarked, column, h3]
  · have : |s| * |s| = 1 := by rw [abs_mul_abs_self]; exact h3
    nlinarith [abs_nonneg s]

/-- Both eigenvalues are purged when they lie close to `c` but not close to each other. -/
theorem tridiag_two_purged (dstev : List ℝ → List ℝ → List ℝ × List ℝ) (hd : DstevContract dstev)
    (tol2 c b : ℝ) (hb : 0 < b) (h1 : b ≤ tol2) (h2 : tol2 < 2 * b) :
    calcTridiagEpairs Real.sqrt tol2 dstev [c, c] [b] 1 = ([], []) := by
  have hev := dstev_two dstev hd c b hb
  have hev2 := (dstev_one dstev hd c).1
  rw [calcTridiagEpairs_eq _ _ _ _ _ _ (hd.len _ _ rfl) (hd.flat _ _ rfl)]
  have hs : ([c - b, c + b] : List ℝ).Pairwise (· ≤ ·) := by
    simp; linarith
  have hflag : ∀ i, i < 2 → (spuriousFlags tol2 [c - b, c + b] [c] 1).getD i false = true := by
    intro i hi
    rw [spuriousFlags_spec tol2 _ _ hs (by simp) 1 i hi]
    refine ⟨by simp, ?_, c, by simp, ?_⟩
    · rintro ⟨j, hj, hne, hle⟩
      simp only [List.length_cons, List.length_nil] at hj
      rw [abs_le] at hle
      have : (i = 0 ∧ j = 1) ∨ (i = 1 ∧ j = 0) := by omega
      rcases this with ⟨rfl, rfl⟩ | ⟨rfl, rfl⟩ <;> simp at hle <;> linarith
    · have : i = 0 ∨ i = 1 := by omega
      rw [abs_le]
      rcases this with rfl | rfl <;> simp <;> constructor <;> linarith
  simp only [hev, List.tail_cons, hev2]
  rw [if_pos]
  right
  have : (List.range [c, c].length).filter (fun i =>
      !((spuriousFlags tol2 [c - b, c + b] [c] 1).getD i false ||
        !isMarked tol2 [c - b, c + b] i)) = [] := by
    rw [List.filter_eq_nil_iff]
    intro i hi
    rw [hflag i (by simpa using hi)]
    simp
  rw [this]
  simp

/-- Nothing is purged when the eigenvalues are well separated. -/
theorem tridiag_two_kept (dstev : List ℝ → List ℝ → List ℝ × List ℝ) (hd : DstevContract dstev)
    (tol2 c b : ℝ) (h0 : 0 ≤ tol2) (h1 : tol2 < b) :
    ∃ col, calcTridiagEpairs Real.sqrt tol2 dstev [c, c] [b] 1 = ([c - b], col) ∧ col.length = 2 := by
  have hb : 0 < b := lt_of_le_of_lt h0 h1
  have hev := dstev_two dstev hd c b hb
  have hev2 := (dstev_one dstev hd c).1
  have hcol : (column 2 (dstev [c, c] [b]).2 0).length = 2 :=
    column_length 2 _ 0 2 (hd.flat _ _ rfl) (by omega)
  rw [calcTridiagEpairs_eq _ _ _ _ _ _ (hd.len _ _ rfl) (hd.flat _ _ rfl)]
  have hs : ([c - b, c + b] : List ℝ).Pairwise (· ≤ ·) := by
    simp; linarith
  have hflag : ∀ i, i < 2 → (spuriousFlags tol2 [c - b, c + b] [c] 1).getD i false = false := by
    intro i hi
    rw [← Bool.not_eq_true, spuriousFlags_spec tol2 _ _ hs (by simp) 1 i hi]
    rintro ⟨-, -, x, hx, hle⟩
    simp only [List.mem_singleton] at hx
    subst hx
    have : i = 0 ∨ i = 1 := by omega
    rw [abs_le] at hle
    rcases this with rfl | rfl <;> simp at hle <;> linarith
  have hmark : ∀ i, i < 2 → isMarked tol2 [c - b, c + b] i = true := by
    intro i hi
    have : i = 0 ∨ i = 1 := by omega
    rcases this with rfl | rfl
    · rfl
    · simp [isMarked]; linarith
  simp only [hev, List.tail_cons, hev2]
  have : (List.range [c, c].length).filter (fun i =>
      !((spuriousFlags tol2 [c - b, c + b] [c] 1).getD i false ||
        !isMarked tol2 [c - b, c + b] i)) = [0, 1] := by
    rw [List.filter_eq_self.2]
    · rfl
    · intro i hi
      rw [hflag i (by simpa using hi), hmark i (by simpa using hi)]
      rfl
  rw [this]
  simp only [List.length_cons, List.length_nil]
  rw [if_neg (by omega)]
  refine ⟨_, rfl, ?_⟩
  simp [hcol]

end Mfmg
