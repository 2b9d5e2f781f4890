import Verif.Spec.LanczosEnd
import Verif.Lemmas.StartVector
import Verif.Props.LanczosRate
import Mathlib.LinearAlgebra.Vandermonde
import Mathlib.Analysis.Normed.Module.FiniteDimension
import Mathlib.Topology.Algebra.Module.FiniteDimension

/-!
# Lemmas on the end of the Lanczos iteration
-/

set_option autoImplicit false

namespace Mfmg

open Finset
open scoped InnerProductSpace

/-! ### Tests -/

theorem Tested.pos {pct : ℤ} {t : ℕ} (h : Tested pct t) : 1 ≤ t := by
  induction h with
  | first => exact le_rfl
  | next _ h1 _ _ ih => omega

/-- Between two tested steps there is one at which the test after the first is due. -/
theorem tested_due {pct : ℤ} : ∀ (s a : ℕ), Tested pct s → Tested pct a → a < s →
    ∃ c : ℕ, a < c ∧ c ≤ s ∧ 100 * ((c : ℤ) - a) > pct * a := by
  intro s
  induction s using Nat.strong_induction_on with
  | _ s ih =>
    intro a hs ha has
    cases hs with
    | first => have := ha.pos; omega
    | @next b _ hb hbs hp hmin =>
      rcases lt_trichotomy b a with h | h | h
      · obtain ⟨c, h1, h2, h3⟩ := ih a has b ha hb h
        have := hmin c h1 (by omega)
        omega
      · subst h
        exact ⟨s, hbs, le_rfl, hp⟩
      · obtain ⟨c, h1, h2, h3⟩ := ih b hbs a hb ha h
        exact ⟨c, h1, by omega, h3⟩

theorem tested_pass {pct : ℤ} {t prev : ℕ} (ht : Tested pct t) (hp : Tested pct prev) (hlt : prev < t)
    (hmin : ∀ c : ℕ, prev < c → c < t → 100 * ((c : ℤ) - prev) ≤ pct * prev) :
    100 * ((t : ℤ) - prev) > pct * prev := by
  obtain ⟨c, h1, h2, h3⟩ := tested_due t prev ht hp hlt
  rcases Nat.lt_or_ge c t with h | h
  · have := hmin c h1 h
    omega
  · obtain rfl : c = t := by omega
    exact h3

/-- The last test of a run that ended before the last step allowed. -/
theorem schedule_tested {pct : ℤ} {maxit n : ℕ} {tests : List ℕ} (h : TestSchedule pct maxit n tests)
    (hn : n < maxit) : Tested pct n := by
  have hne : tests ≠ [] := by
    rintro rfl
    cases h.first
  have key : ∀ (i a : ℕ), tests[i]? = some a → a < maxit → Tested pct a := by
    intro i
    induction i with
    | zero =>
      intro a ha _
      rw [← List.head?_eq_getElem?, h.first] at ha
      injection ha with ha
      rw [← ha]
      exact .first
    | succ i ih =>
      intro b hb hlt
      have hi : i < tests.length := by
        have := (List.getElem?_eq_some_iff.1 hb).1
        omega
      obtain ⟨h1, h2, h3⟩ := h.next i _ b (List.getElem?_eq_getElem hi) hb
      refine .next (ih _ (List.getElem?_eq_getElem hi) (by omega)) h1 ?_ h3
      rcases h2 with h2 | h2
      · omega
      · exact h2
  have hl := h.last
  rw [List.getLast?_eq_getElem?] at hl
  exact key _ _ hl hn

/-! ### Krylov spaces -/

section

variable {E : Type} [NormedAddCommGroup E] [InnerProductSpace ℝ E]

/-- The span of `g, A g, …, A^(t-1) g`. -/
def powerSpan (A : E →ₗ[ℝ] E) (g : E) (t : ℕ) : Submodule ℝ E :=
  Submodule.span ℝ ((fun i : ℕ => (A ^ i) g) '' Set.Iio t)

theorem powerSpan_zero (A : E →ₗ[ℝ] E) (g : E) : powerSpan A g 0 = ⊥ := by
  unfold powerSpan
  rw [show Set.Iio 0 = (∅ : Set ℕ) by ext; simp, Set.image_empty, Submodule.span_empty]

theorem powerSpan_succ (A : E →ₗ[ℝ] E) (g : E) (t : ℕ) :
    powerSpan A g (t + 1) = Submodule.span ℝ {(A ^ t) g} ⊔ powerSpan A g t := by
  unfold powerSpan
  rw [show Set.Iio (t + 1) = insert t (Set.Iio t) by ext; simp, Set.image_insert_eq,
    Submodule.span_insert]

theorem powerSpan_mono (A : E →ₗ[ℝ] E) (g : E) {t t' : ℕ} (h : t ≤ t') : powerSpan A g t ≤ powerSpan A g t' :=
  Submodule.span_mono (Set.image_mono (Set.Iio_subset_Iio h))

theorem pow_mem_powerSpan (A : E →ₗ[ℝ] E) (g : E) {i t : ℕ} (h : i < t) : (A ^ i) g ∈ powerSpan A g t :=
  Submodule.subset_span ⟨i, h, rfl⟩

theorem powerSpan_map (A : E →ₗ[ℝ] E) (g : E) {t : ℕ} {x : E} (hx : x ∈ powerSpan A g t) : A x ∈ powerSpan A g (t + 1) := by
  have : powerSpan A g t ≤ (powerSpan A g (t + 1)).comap A := by
    refine Submodule.span_le.2 ?_
    rintro _ ⟨i, hi, rfl⟩
    change A ((A ^ i) g) ∈ powerSpan A g (t + 1)
    have e : A ((A ^ i) g) = (A ^ (i + 1)) g := by rw [pow_succ']; rfl
    rw [e]
    exact pow_mem_powerSpan A g (by have : i < t := hi; omega)
  exact this hx

theorem mem_powerSpan_succ {A : E →ₗ[ℝ] E} {g : E} {t : ℕ} {x : E} :
    x ∈ powerSpan A g (t + 1) ↔ ∃ (c : ℝ), x - c • (A ^ t) g ∈ powerSpan A g t := by
  rw [powerSpan_succ]
  constructor
  · intro hx
    obtain ⟨y, hy, z, hz, rfl⟩ := Submodule.mem_sup.1 hx
    obtain ⟨c, rfl⟩ := Submodule.mem_span_singleton.1 hy
    exact ⟨c, by simpa using hz⟩
  · rintro ⟨c, hc⟩
    have e : x = c • (A ^ t) g + (x - c • (A ^ t) g) := by abel
    rw [e]
    exact Submodule.add_mem_sup (Submodule.smul_mem _ _ (Submodule.mem_span_singleton_self _)) hc

theorem powerSpan_smul (A : E →ₗ[ℝ] E) (g : E) (t : ℕ) {s : ℝ} (hs : s ≠ 0) : powerSpan (s • A) g t = powerSpan A g t := by
  have hp : ∀ i : ℕ, ((s • A) ^ i) g = s ^ i • (A ^ i) g := by
    intro i
    rw [smul_pow]
    rfl
  refine le_antisymm (Submodule.span_le.2 ?_) (Submodule.span_le.2 ?_)
  · rintro _ ⟨i, hi, rfl⟩
    simp only [hp]
    exact Submodule.smul_mem _ _ (pow_mem_powerSpan A g hi)
  · rintro _ ⟨i, hi, rfl⟩
    have := pow_mem_powerSpan (s • A) g hi
    rw [hp] at this
    have h2 := Submodule.smul_mem _ (s ^ i)⁻¹ this
    rwa [smul_smul, inv_mul_cancel₀ (pow_ne_zero i hs), one_smul] at h2

theorem powerSpan_range (A : E →ₗ[ℝ] E) (g : E) (d : ℕ) :
    Submodule.span ℝ (Set.range (fun i : Fin d => (A ^ (i : ℕ)) g)) = powerSpan A g d := by
  unfold powerSpan
  congr 1
  ext x
  constructor
  · rintro ⟨i, rfl⟩
    exact ⟨i, i.2, rfl⟩
  · rintro ⟨i, hi, rfl⟩
    exact ⟨⟨i, hi⟩, rfl⟩

theorem KrylovDim.notMem {A : E →ₗ[ℝ] E} {g : E} {d : ℕ} (h : KrylovDim A g d) {t : ℕ} (ht : t < d) :
    (A ^ t) g ∉ powerSpan A g t := by
  have := h.indep.notMem_span_image (s := {i : Fin d | (i : ℕ) < t}) (x := ⟨t, ht⟩) (by simp)
  intro hm
  apply this
  have e : (fun i : Fin d => (A ^ (i : ℕ)) g) '' {i : Fin d | (i : ℕ) < t} = (fun i : ℕ => (A ^ i) g) '' Set.Iio t := by
    ext x
    constructor
    · rintro ⟨i, hi, rfl⟩
      exact ⟨i, hi, rfl⟩
    · rintro ⟨i, hi, rfl⟩
      have hi : i < t := hi
      exact ⟨⟨i, by omega⟩, hi, rfl⟩
  rw [e]
  exact hm

theorem KrylovDim.smul {A : E →ₗ[ℝ] E} {g : E} {d : ℕ} (h : KrylovDim A g d) {s : ℝ} (hs : s ≠ 0) :
    (∀ t, t < d → ((s • A) ^ t) g ∉ powerSpan (s • A) g t) ∧ ((s • A) ^ d) g ∈ powerSpan (s • A) g d := by
  have hp : ∀ i : ℕ, ((s • A) ^ i) g = s ^ i • (A ^ i) g := by
    intro i
    rw [smul_pow]
    rfl
  constructor
  · intro t ht hm
    rw [powerSpan_smul A g t hs, hp] at hm
    have h2 := Submodule.smul_mem _ (s ^ t)⁻¹ hm
    rw [smul_smul, inv_mul_cancel₀ (pow_ne_zero t hs), one_smul] at h2
    exact h.notMem ht h2
  · rw [powerSpan_smul A g d hs, hp]
    refine Submodule.smul_mem _ _ ?_
    have := h.last
    rwa [powerSpan_range] at this

/-- Before the last step there is no eigenvector. -/
theorem no_eigenvector {A : E →ₗ[ℝ] E} {g : E} {d : ℕ} (hd : ∀ t, t < d → (A ^ t) g ∉ powerSpan A g t) {θ : ℝ} :
    ∀ (m : ℕ) (y : E), m < d → y ∈ powerSpan A g m → A y = θ • y → y = 0 := by
  intro m
  induction m with
  | zero =>
    intro y _ hy _
    rw [powerSpan_zero] at hy
    exact (Submodule.mem_bot ℝ).1 hy
  | succ m ih =>
    intro y hm hy he
    obtain ⟨c, hc⟩ := mem_powerSpan_succ.1 hy
    have h1 := powerSpan_map A g hc
    rw [map_sub, map_smul, he] at h1
    have e : A ((A ^ m) g) = (A ^ (m + 1)) g := by rw [pow_succ']; rfl
    rw [e] at h1
    have h2 : c • (A ^ (m + 1)) g ∈ powerSpan A g (m + 1) := by
      have := Submodule.sub_mem _ (Submodule.smul_mem _ θ hy) h1
      rwa [sub_sub_cancel] at this
    have hc0 : c = 0 := by
      by_contra hc0
      have h3 := Submodule.smul_mem _ c⁻¹ h2
      rw [smul_smul, inv_mul_cancel₀ hc0, one_smul] at h3
      exact hd (m + 1) hm h3
    rw [hc0, zero_smul, sub_zero] at hc
    exact ih y (by omega) hc he

/-- The residuals of unit vectors before the last step are bounded away from zero. -/
theorem residual_bound {A : E →ₗ[ℝ] E} {g : E} {d : ℕ} (hd : ∀ t, t < d → (A ^ t) g ∉ powerSpan A g t) :
    ∃ ε : ℝ, 0 < ε ∧ ∀ (m : ℕ) (y : E) (θ : ℝ), m < d → y ∈ powerSpan A g m → ‖y‖ = 1 → ε ≤ ‖A y - θ • y‖ := by
  rcases Nat.eq_zero_or_pos d with rfl | hd0
  · exact ⟨1, one_pos, fun m y θ hm => by omega⟩
  have hfin : FiniteDimensional ℝ (powerSpan A g (d - 1)) :=
    FiniteDimensional.span_of_finite ℝ (Set.Finite.image _ (Set.finite_Iio _))
  obtain ⟨K, hK⟩ : ∃ K, K = powerSpan A g (d - 1) := ⟨_, rfl⟩
  rw [← hK] at hfin
  have hAc : Continuous (A ∘ₗ K.subtype) := LinearMap.continuous_of_finiteDimensional _
  obtain ⟨f, hf⟩ : ∃ f : K → ℝ, f = fun y => ‖(A ∘ₗ K.subtype) y - ⟪(A ∘ₗ K.subtype) y, (y : E)⟫_ℝ • (y : E)‖ := ⟨_, rfl⟩
  have hfc : Continuous f := by
    rw [hf]
    exact (hAc.sub ((hAc.inner continuous_subtype_val).smul continuous_subtype_val)).norm
  have hproj : ∀ (y : K) (θ : ℝ), ‖(y : E)‖ = 1 → f y ≤ ‖A y - θ • (y : E)‖ := by
    intro y θ hy
    rw [hf]
    simp only [LinearMap.comp_apply, Submodule.subtype_apply]
    refine (pow_le_pow_iff_left₀ (norm_nonneg _) (norm_nonneg _) two_ne_zero).1 ?_
    obtain ⟨ρ, hρ⟩ : ∃ ρ, ρ = ⟪A y, (y : E)⟫_ℝ := ⟨_, rfl⟩
    rw [← hρ]
    have hyy : ⟪(y : E), (y : E)⟫_ℝ = 1 := by rw [real_inner_self_eq_norm_sq, hy]; norm_num
    have e : A y - θ • (y : E) = (A y - ρ • (y : E)) + (ρ - θ) • (y : E) := by module
    have ho : ⟪A y - ρ • (y : E), (ρ - θ) • (y : E)⟫_ℝ = 0 := by
      rw [inner_smul_right, inner_sub_left, inner_smul_left, hyy, ← hρ]
      simp
    rw [e, norm_add_sq_real, ho]
    have := sq_nonneg ‖(ρ - θ) • (y : E)‖
    linarith
  have hcompact : IsCompact (Metric.sphere (0 : K) 1) := isCompact_sphere 0 1
  rcases (Metric.sphere (0 : K) 1).eq_empty_or_nonempty with hem | hne
  · refine ⟨1, one_pos, fun m y θ hm hy h1 => ?_⟩
    exfalso
    have hyK : y ∈ K := by rw [hK]; exact powerSpan_mono A g (by omega) hy
    have : (⟨y, hyK⟩ : K) ∈ Metric.sphere (0 : K) 1 := by
      rw [mem_sphere_zero_iff_norm]; exact h1
    rw [hem] at this
    exact this
  · obtain ⟨y0, hy0, hmin⟩ := hcompact.exists_isMinOn hne hfc.continuousOn
    have hy1 : ‖(y0 : E)‖ = 1 := by
      have := mem_sphere_zero_iff_norm.1 hy0
      exact this
    refine ⟨f y0, ?_, fun m y θ hm hy h1 => ?_⟩
    · have hnn : 0 ≤ f y0 := by rw [hf]; exact norm_nonneg _
      refine lt_of_le_of_ne hnn fun h0 => ?_
      rw [hf] at h0
      have h0 := norm_eq_zero.1 h0.symm
      have h2 := no_eigenvector hd (d - 1) (y0 : E) (by omega) (by rw [← hK]; exact y0.2) (sub_eq_zero.1 h0)
      rw [h2, norm_zero] at hy1
      norm_num at hy1
    · have hyK : y ∈ K := by rw [hK]; exact powerSpan_mono A g (by omega) hy
      have hmem : (⟨y, hyK⟩ : K) ∈ Metric.sphere (0 : K) 1 := by
        rw [mem_sphere_zero_iff_norm]; exact h1
      exact (hmin hmem).trans (hproj ⟨y, hyK⟩ θ h1)

/-! ### The states of the iteration -/

/-- Span and last vector of a state. -/
structure KrylovInv (A : E →ₗ[ℝ] E) (g : E) (s : LanczosState E) : Prop where
  inv : LanczosInv A ⊤ s
  span : Submodule.span ℝ {v | v ∈ s.vs} = powerSpan A g s.vs.length
  rest : ∃ c : ℝ, c ≠ 0 ∧ s.w - c • (A ^ s.vs.length) g ∈ powerSpan A g s.vs.length

theorem lanczosInit_powerSpan (A : E →ₗ[ℝ] E) (g : E) : KrylovInv A g (lanczosInit g) where
  inv := lanczosInit_inv A ⊤ g trivial
  span := by
    change Submodule.span ℝ {v | v ∈ ([] : List E)} = powerSpan A g 0
    rw [powerSpan_zero]
    simp
  rest := by
    refine ⟨1, one_ne_zero, ?_⟩
    change g - (1 : ℝ) • (A ^ 0) g ∈ powerSpan A g 0
    rw [pow_zero, one_smul]
    change g - g ∈ _
    rw [sub_self]
    exact Submodule.zero_mem _

theorem lanczosStep_powerSpan {debug : Bool} {A : E →ₗ[ℝ] E} (hA : ∀ x y, ⟪A x, y⟫_ℝ = ⟪x, A y⟫_ℝ) {g : E}
    (s s' : LanczosState E) (h : KrylovInv A g s) (hst : lanczosStep debug A s = .ok s') : KrylovInv A g s' := by
  obtain ⟨hinv', hlen⟩ := lanczosStep_inv debug A ⊤ (fun _ _ => trivial) (fun x _ y _ => hA x y) s h.inv s' hst
  unfold lanczosStep at hst
  by_cases hb : s.beta = 0
  · simp only [hb, if_true] at hst
    split at hst <;> cases hst
  rw [if_neg hb] at hst
  obtain ⟨v, hv⟩ : ∃ v, v = s.beta⁻¹ • s.w := ⟨_, rfl⟩
  obtain ⟨c, hc0, hc⟩ := h.rest
  have hvc : v - (s.beta⁻¹ * c) • (A ^ s.vs.length) g ∈ powerSpan A g s.vs.length := by
    have := Submodule.smul_mem _ s.beta⁻¹ hc
    rwa [smul_sub, smul_smul, ← hv] at this
  have hvm : v ∈ powerSpan A g (s.vs.length + 1) := mem_powerSpan_succ.2 ⟨_, hvc⟩
  have hvs : ∀ p ∈ s.vs, p ∈ powerSpan A g (s.vs.length + 1) := by
    intro p hp
    refine powerSpan_mono A g (Nat.le_succ _) ?_
    rw [← h.span]
    exact Submodule.subset_span hp
  have hw : ∀ q, q ∈ powerSpan A g (s.vs.length + 1) → ∀ a b : ℝ,
      A v + a • q + b • v - (s.beta⁻¹ * c) • (A ^ (s.vs.length + 1)) g ∈ powerSpan A g (s.vs.length + 1) := by
    intro q hq a b
    have h1 := powerSpan_map A g hvc
    have e : A ((A ^ s.vs.length) g) = (A ^ (s.vs.length + 1)) g := by rw [pow_succ']; rfl
    rw [map_sub, map_smul, e] at h1
    have := Submodule.add_mem _ (Submodule.add_mem _ h1 (Submodule.smul_mem _ a hq)) (Submodule.smul_mem _ b hvm)
    refine (congrArg (· ∈ powerSpan A g (s.vs.length + 1)) ?_).mp this
    abel
  injection hst with hst
  have hvs' : s'.vs = s.vs ++ [v] := by rw [← hst, hv]
  refine ⟨hinv', ?_, ?_⟩
  · rw [hlen, powerSpan_succ, hvs']
    have e : {x | x ∈ s.vs ++ [v]} = insert v {x | x ∈ s.vs} := by
      ext x
      simp [or_comm]
    rw [e, Submodule.span_insert, h.span]
    refine le_antisymm (sup_le ?_ le_sup_right) (sup_le ?_ le_sup_right)
    · rw [← powerSpan_succ, Submodule.span_singleton_le_iff_mem]
      exact hvm
    · rw [Submodule.span_singleton_le_iff_mem]
      have hk : s.beta⁻¹ * c ≠ 0 := mul_ne_zero (inv_ne_zero hb) hc0
      have e2 : (A ^ s.vs.length) g = (s.beta⁻¹ * c)⁻¹ • v -
          (s.beta⁻¹ * c)⁻¹ • (v - (s.beta⁻¹ * c) • (A ^ s.vs.length) g) := by
        rw [smul_sub, smul_smul, inv_mul_cancel₀ hk, one_smul]
        abel
      rw [e2]
      exact Submodule.sub_mem _ (Submodule.smul_mem _ _ (Submodule.mem_sup_left (Submodule.mem_span_singleton_self v)))
        (Submodule.mem_sup_right (Submodule.smul_mem _ _ hvc))
  · rw [hlen]
    refine ⟨s.beta⁻¹ * c, mul_ne_zero (inv_ne_zero hb) hc0, ?_⟩
    rw [← hst]
    simp only [← hv]
    cases hl : s.vs.getLast? with
    | none =>
      simp only
      have := hw 0 (Submodule.zero_mem _) 0 (-⟪v, A v⟫_ℝ)
      rwa [smul_zero, add_zero] at this
    | some p =>
      simp only
      exact hw p (hvs p (List.mem_of_getLast? hl)) _ _

theorem KrylovInv.beta_ne {A : E →ₗ[ℝ] E} {g : E} {s : LanczosState E} (h : KrylovInv A g s)
    (hn : (A ^ s.vs.length) g ∉ powerSpan A g s.vs.length) : s.beta ≠ 0 := by
  intro hb
  rw [h.inv.beta, norm_eq_zero] at hb
  obtain ⟨c, hc0, hc⟩ := h.rest
  rw [hb, zero_sub, ← neg_smul] at hc
  have := Submodule.smul_mem _ (-c)⁻¹ hc
  rw [smul_smul, inv_mul_cancel₀ (neg_ne_zero.2 hc0), one_smul] at this
  exact hn this

theorem KrylovInv.beta_zero {A : E →ₗ[ℝ] E} {g : E} {s : LanczosState E} (h : KrylovInv A g s)
    (hm : (A ^ s.vs.length) g ∈ powerSpan A g s.vs.length) : s.beta = 0 := by
  rw [h.inv.beta, norm_eq_zero]
  obtain ⟨c, -, hc⟩ := h.rest
  have hw : s.w ∈ powerSpan A g s.vs.length := by
    have := Submodule.add_mem _ hc (Submodule.smul_mem _ c hm)
    rwa [sub_add_cancel] at this
  rw [← h.span] at hw
  have hort : ∀ x ∈ Submodule.span ℝ {v | v ∈ s.vs}, ⟪x, s.w⟫_ℝ = 0 := by
    intro x hx
    induction hx using Submodule.span_induction with
    | mem x hx =>
      obtain ⟨i, hi, rfl⟩ := List.mem_iff_getElem.1 hx
      have := h.inv.rel.rest i hi
      simpa [List.getD, List.getElem?_eq_getElem hi] using this
    | zero => exact inner_zero_left _
    | add x y _ _ hx hy => rw [inner_add_left, hx, hy, add_zero]
    | smul a x _ hx => rw [inner_smul_left, hx, mul_zero]
  exact inner_self_eq_zero.1 (hort _ hw)

/-- No run makes more steps than the Krylov space has dimensions. -/
theorem step_bound {debug : Bool} {A : E →ₗ[ℝ] E} (hA : ∀ x y, ⟪A x, y⟫_ℝ = ⟪x, A y⟫_ℝ) {g : E} {d : ℕ}
    (hlast : (A ^ d) g ∈ powerSpan A g d) (s s' : LanczosState E) (h : KrylovInv A g s ∧ s.vs.length ≤ d)
    (hst : lanczosStep debug A s = .ok s') : KrylovInv A g s' ∧ s'.vs.length ≤ d := by
  refine ⟨lanczosStep_powerSpan hA s s' h.1 hst, ?_⟩
  have hl := lanczosStep_length debug A s s' hst
  by_contra hlt
  have e : s.vs.length = d := by have := h.2; omega
  have hb := h.1.beta_zero (by rw [e]; exact hlast)
  unfold lanczosStep at hst
  rw [if_pos hb] at hst
  split at hst <;> cases hst

/-- If every test has an answer, a test with a zero remainder succeeds, and the steps with a zero remainder
are tested, the loop ends normally. -/
theorem loop_ends {debug : Bool} {A : E → E} {P : LanczosState E → Prop}
    (hP : ∀ s s', P s → lanczosStep debug A s = .ok s' → P s')
    {tridiag : List ℝ → List ℝ → List ℝ × List ℝ} {req : ℕ} {tol : ℝ} {pct : ℤ} {maxit : ℕ}
    (hgood : ∀ s, P s → 1 ≤ s.vs.length → s.vs.length ≤ maxit → ∃ c,
      checkConvergence s.beta s.vs.length req tol (tridiag s.diag s.sub).2 = .ok c ∧ (s.beta = 0 → c = true))
    (hzero : ∀ s, P s → 1 ≤ s.vs.length → s.beta = 0 → Tested pct s.vs.length)
    (left it prev : ℕ) (r : LanczosResult E) (hleft : left + it = maxit + 1)
    (hlen : r.state.vs.length + 1 = it) (hinv : P r.state) (hb : left = 0 ∨ r.state.beta ≠ 0)
    (hprev : (it = 1 ∧ prev = 0) ∨ Tested pct prev ∧ prev < it ∧
      ∀ c : ℕ, prev < c → c < it → 100 * ((c : ℤ) - prev) ≤ pct * prev) :
    ∃ r', lanczosLoop debug A tridiag req tol pct maxit left it prev r = .ok r' := by
  induction left generalizing it prev r with
  | zero => exact ⟨r, rfl⟩
  | succ left ih =>
    have hb : r.state.beta ≠ 0 := hb.resolve_left (by omega)
    obtain ⟨s, hs⟩ : ∃ s, lanczosStep debug A r.state = .ok s := by
      unfold lanczosStep
      rw [if_neg hb]
      exact ⟨_, rfl⟩
    have hinv' := hP _ _ hinv hs
    have hlen' := lanczosStep_length debug A r.state s hs
    have hsl : s.vs.length = it := by omega
    rw [lanczosLoop, hs, Outcome.ok_bind]
    by_cases ht : it = 1 ∨ it = maxit ∨ 100 * ((it : ℤ) - prev) > pct * prev
    · rw [if_pos ht]
      obtain ⟨c, hc, hcb⟩ := hgood s hinv' (by omega) (by omega)
      rw [hsl] at hc
      simp only [hc, Outcome.ok_bind]
      cases c with
      | true => exact ⟨_, rfl⟩
      | false =>
        simp only [Bool.false_eq_true, if_false]
        rcases Nat.eq_zero_or_pos left with hl0 | hl0
        · subst hl0
          exact ⟨_, rfl⟩
        refine ih (it + 1) it _ (by omega) (by simp only; omega) hinv' (Or.inr fun h0 => by cases hcb h0) ?_
        refine Or.inr ⟨?_, by omega, fun c h1 h2 => by omega⟩
        rcases ht with h1 | h1 | h1
        · rw [h1]; exact .first
        · omega
        · rcases hprev with ⟨h2, -⟩ | ⟨h2, h3, h4⟩
          · rw [h2]; exact .first
          · exact .next h2 h3 h1 h4
    · rw [if_neg ht]
      push Not at ht
      rcases hprev with ⟨h2, -⟩ | ⟨h2, h3, h4⟩
      · exact absurd h2 ht.1
      · refine ih (it + 1) prev { r with state := s } (by omega) (by simp only; omega) hinv' (Or.inr ?_)
          (Or.inr ⟨h2, by omega, fun c h5 h6 => ?_⟩)
        · intro h0
          have := hzero s hinv' (by omega) h0
          rw [hsl] at this
          have := tested_pass this h2 h3 h4
          omega
        · rcases Nat.lt_or_ge c it with h7 | h7
          · exact h4 c h5 h7
          · obtain rfl : c = it := by omega
            exact ht.2.2

/-- The state after `t` steps. -/
noncomputable def stateAfter (debug : Bool) (A : E → E) (g : E) (t : ℕ) : Outcome (LanczosState E) :=
  (List.range t).foldlM (fun s _ => lanczosStep debug A s) (lanczosInit g)

theorem stateAfter_succ {debug : Bool} {A : E → E} {g : E} {t : ℕ} {s s' : LanczosState E}
    (h : stateAfter debug A g t = .ok s) (hst : lanczosStep debug A s = .ok s') :
    stateAfter debug A g (t + 1) = .ok s' := by
  unfold stateAfter at *
  rw [List.range_succ, List.foldlM_append, h]
  simp only [List.foldlM_cons, List.foldlM_nil, Outcome.ok_bind, hst]
  rfl

theorem stateAfter_inv {debug : Bool} {A : E → E} {g : E} {P : LanczosState E → Prop} (h0 : P (lanczosInit g))
    (hstep : ∀ s s', P s → lanczosStep debug A s = .ok s' → P s') :
    ∀ (t : ℕ) (s : LanczosState E), stateAfter debug A g t = .ok s → P s ∧ s.vs.length = t := by
  intro t
  induction t with
  | zero =>
    intro s hs
    have : lanczosInit g = s := by
      unfold stateAfter at hs
      simpa [Outcome.pure_eq] using hs
    subst this
    exact ⟨h0, rfl⟩
  | succ t ih =>
    intro s hs
    unfold stateAfter at hs ih
    rw [List.range_succ, List.foldlM_append, Outcome.bind_eq_ok] at hs
    obtain ⟨q, hq, hs⟩ := hs
    simp only [List.foldlM_cons, List.foldlM_nil, Outcome.bind_eq_ok] at hs
    obtain ⟨q', hq', hs⟩ := hs
    have e : q' = s := by simpa [Outcome.pure_eq] using hs
    subst e
    obtain ⟨h1, h2⟩ := ih q hq
    exact ⟨hstep _ _ h1 hq', by rw [lanczosStep_length debug A q q' hq', h2]⟩

/-- The vectors returned are combinations of the Lanczos vectors. -/
theorem calcEvecLoop_mem {S : Submodule ℝ E} {n i : ℕ} {evecs : List ℝ} {vs : List E} (hvs : ∀ v ∈ vs, v ∈ S)
    {j : ℕ} {y z : E} (hy : y ∈ S) (h : calcEvecLoop n i evecs vs j y = .ok z) : z ∈ S := by
  induction vs generalizing j y with
  | nil =>
    have : y = z := by simpa [calcEvecLoop, Outcome.pure_eq] using h
    rwa [← this]
  | cons v vs ih =>
    rw [calcEvecLoop, Outcome.bind_eq_ok] at h
    obtain ⟨c, -, h⟩ := h
    exact ih (fun w hw => hvs w (List.mem_cons_of_mem _ hw))
      (S.add_mem hy (S.smul_mem _ (hvs v List.mem_cons_self))) h

theorem calcEvecs_mem {n : ℕ} {vs : List E} {evecs : List ℝ} {left i : ℕ} {ys : List E}
    (h : calcEvecs n vs evecs left i = .ok ys) {y : E} (hy : y ∈ ys) : y ∈ Submodule.span ℝ {v | v ∈ vs} := by
  induction left generalizing i ys with
  | zero =>
    have : [] = ys := by simpa [calcEvecs, Outcome.pure_eq] using h
    subst this
    cases hy
  | succ left ih =>
    rw [calcEvecs, Outcome.bind_eq_ok] at h
    obtain ⟨z, hz, h⟩ := h
    rw [Outcome.bind_eq_ok] at h
    obtain ⟨zs, hzs, h⟩ := h
    have e : z :: zs = ys := by simpa [Outcome.pure_eq] using h
    subst e
    rcases List.mem_cons.1 hy with e | hy
    · rw [e]
      exact calcEvecLoop_mem (fun v hv => Submodule.subset_span hv) (Submodule.zero_mem _) hz
    · exact ih hzs hy

end

/-! ### Diagonal matrices -/

/-- Diagonal matrices with different entries and start vectors without zero entries. -/
theorem krylovDim_diag (d : ℕ) (a : ℕ → ℝ) (ha : ∀ i j, i < d → j < d → a i = a j → i = j)
    (g : EuclideanSpace ℝ (Fin d)) (hg : ∀ i, g i ≠ 0) :
    KrylovDim (matOp d (fun i j => if i = j then a i else 0)) g d := by
  have hap : ∀ (x : EuclideanSpace ℝ (Fin d)) (i : Fin d),
      matOp d (fun i j => if i = j then a i else 0) x i = a i * x i := by
    intro x i
    rw [matOp_apply, Finset.sum_eq_single i (fun j _ hj => by rw [if_neg (fun e => hj (Fin.ext e).symm), zero_mul])
      (fun hi => absurd (mem_univ i) hi), if_pos rfl]
  generalize matOp d (fun i j => if i = j then a i else 0) = T at hap ⊢
  have hpow : ∀ (k : ℕ) (i : Fin d), (T ^ k) g i = a i ^ k * g i := by
    intro k
    induction k with
    | zero => intro i; rw [pow_zero, pow_zero, one_mul, Module.End.one_apply]
    | succ k ih =>
      intro i
      rw [pow_succ', Module.End.mul_apply, hap, ih, pow_succ]
      ring
  have hind : LinearIndependent ℝ (fun i : Fin d => (T ^ (i : ℕ)) g) := by
    rw [Fintype.linearIndependent_iff]
    intro c hc
    have hz : c = 0 := by
      refine Matrix.eq_zero_of_forall_index_sum_pow_mul_eq_zero (f := fun j : Fin d => a j)
        (fun i j h => Fin.ext (ha i j i.2 j.2 h)) fun j => ?_
      have := congrArg (fun v : EuclideanSpace ℝ (Fin d) => v j) hc
      simp only [WithLp.ofLp_sum, WithLp.ofLp_smul, Finset.sum_apply, Pi.smul_apply, smul_eq_mul, hpow] at this
      have h2 : (∑ i : Fin d, a j ^ (i : ℕ) * c i) * g j = 0 := by
        rw [Finset.sum_mul]
        refine Eq.trans (Finset.sum_congr rfl fun i _ => ?_) this
        ring
      exact (mul_eq_zero.1 h2).resolve_right (hg j)
    intro i
    rw [hz]
    rfl
  refine ⟨hind, ?_⟩
  rw [hind.span_eq_top_of_card_eq_finrank' (by simp)]
  trivial

end Mfmg
