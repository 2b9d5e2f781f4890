import Verif.Model.Lanczos
import Verif.Spec.Deflation
import Mathlib.Analysis.InnerProductSpace.Orthonormal
import Mathlib.LinearAlgebra.Dimension.Constructions
import Mathlib.LinearAlgebra.Dimension.Finite

/-!
# Lemmas on deflation
-/

set_option autoImplicit false

namespace Mfmg

open scoped InnerProductSpace

variable {E : Type} [NormedAddCommGroup E] [InnerProductSpace ℝ E]

theorem deflate_cons (d : E) (ds : List E) (x : E) :
    deflate (d :: ds) x = deflate ds (x + (-⟪x, d⟫_ℝ) • d) := rfl

theorem deflate_orth_self (ds : List E) (x : E) (h : OrthogonalTo ds x) : deflate ds x = x := by
  induction ds with
  | nil => rfl
  | cons d ds ih =>
    have h1 : ⟪x, d⟫_ℝ = 0 := by rw [real_inner_comm]; exact h d (by simp)
    rw [deflate_cons, h1]
    simp only [neg_zero, zero_smul, add_zero]
    exact ih (fun e he => h e (by simp [he]))

/-- Anything orthogonal to the list keeps its inner product. -/
theorem inner_deflate (ds : List E) (x y : E) (h : OrthogonalTo ds y) :
    ⟪y, deflate ds x⟫_ℝ = ⟪y, x⟫_ℝ := by
  induction ds generalizing x with
  | nil => rfl
  | cons d ds ih =>
    have h1 : ⟪y, d⟫_ℝ = 0 := by rw [real_inner_comm]; exact h d (by simp)
    rw [deflate_cons, ih _ (fun e he => h e (by simp [he])), inner_add_right, inner_smul_right, h1]
    ring

theorem deflate_orthogonal (ds : List E) (hd : OrthonormalList ds) (x : E) :
    OrthogonalTo ds (deflate ds x) := by
  induction ds generalizing x with
  | nil => intro d hd; cases hd
  | cons d ds ih =>
    have ho := hd.orth
    rw [List.pairwise_cons] at ho
    have hd' : OrthonormalList ds := ⟨fun x hx => hd.unit x (by simp [hx]), ho.2⟩
    rw [deflate_cons]
    intro e he
    rcases List.mem_cons.1 he with rfl | he
    · rw [inner_deflate ds _ _ (fun f hf => by rw [real_inner_comm]; exact ho.1 f hf),
        inner_add_right, inner_smul_right, real_inner_self_eq_norm_sq, hd.unit e (by simp),
        real_inner_comm]
      ring
    · exact ih hd' _ e he

theorem deflate_sub_mem (ds : List E) (x : E) : x - deflate ds x ∈ spanList ds := by
  induction ds generalizing x with
  | nil => simp [deflate]
  | cons d ds ih =>
    rw [deflate_cons]
    have h1 := ih (x + (-⟪x, d⟫_ℝ) • d)
    have hle : spanList ds ≤ spanList (d :: ds) :=
      Submodule.span_mono (fun y (hy : y ∈ ds) => List.mem_cons_of_mem _ hy)
    have hd : d ∈ spanList (d :: ds) := Submodule.subset_span (by simp)
    have h2 : x - deflate ds (x + (-⟪x, d⟫_ℝ) • d) =
        (x + (-⟪x, d⟫_ℝ) • d - deflate ds (x + (-⟪x, d⟫_ℝ) • d)) + ⟪x, d⟫_ℝ • d := by
      rw [neg_smul]; abel
    rw [h2]
    exact Submodule.add_mem _ (hle h1) (Submodule.smul_mem _ _ hd)

theorem orthogonalTo_span (ds : List E) (x : E) (h : OrthogonalTo ds x) (y : E)
    (hy : y ∈ spanList ds) : ⟪y, x⟫_ℝ = 0 := by
  refine Submodule.span_induction (p := fun y _ => ⟪y, x⟫_ℝ = 0) ?_ ?_ ?_ ?_ hy
  · intro z hz; exact h z hz
  · simp
  · intro a b _ _ ha hb; rw [inner_add_left, ha, hb, add_zero]
  · intro c a _ ha; rw [inner_smul_left, ha, mul_zero]

/-! ## Gram–Schmidt -/

theorem span_update (s : Set ℕ) (v : ℕ → E) (k : ℕ) (x : E) (hk : k ∈ s)
    (h1 : x ∈ Submodule.span ℝ (v '' s))
    (h2 : v k ∈ Submodule.span ℝ (Function.update v k x '' s)) :
    Submodule.span ℝ (Function.update v k x '' s) = Submodule.span ℝ (v '' s) := by
  apply le_antisymm
  · rw [Submodule.span_le]
    rintro _ ⟨a, ha, rfl⟩
    by_cases hak : a = k
    · subst hak; rw [Function.update_self]; exact h1
    · rw [Function.update_of_ne hak]; exact Submodule.subset_span ⟨a, ha, rfl⟩
  · rw [Submodule.span_le]
    rintro _ ⟨a, ha, rfl⟩
    by_cases hak : a = k
    · subst hak; exact h2
    · refine Submodule.subset_span ⟨a, ha, ?_⟩
      rw [Function.update_of_ne hak]

theorem span_update_smul (s : Set ℕ) (v : ℕ → E) (k : ℕ) (hk : k ∈ s) (c : ℝ) (hc : c ≠ 0) :
    Submodule.span ℝ (Function.update v k (c • v k) '' s) = Submodule.span ℝ (v '' s) := by
  apply span_update s v k _ hk
  · exact Submodule.smul_mem _ _ (Submodule.subset_span ⟨k, hk, rfl⟩)
  · have : v k = c⁻¹ • Function.update v k (c • v k) k := by
      rw [Function.update_self, smul_smul, inv_mul_cancel₀ hc, one_smul]
    rw [this]
    refine Submodule.smul_mem _ _ (Submodule.subset_span ⟨k, hk, ?_⟩)
    rw [← this]

theorem span_update_add (s : Set ℕ) (v : ℕ → E) (k l : ℕ) (hk : k ∈ s) (hl : l ∈ s) (hkl : l ≠ k)
    (c : ℝ) :
    Submodule.span ℝ (Function.update v k (v k + c • v l) '' s) = Submodule.span ℝ (v '' s) := by
  apply span_update s v k _ hk
  · exact Submodule.add_mem _ (Submodule.subset_span ⟨k, hk, rfl⟩)
      (Submodule.smul_mem _ _ (Submodule.subset_span ⟨l, hl, rfl⟩))
  · have h1 : Function.update v k (v k + c • v l) k ∈
        Submodule.span ℝ (Function.update v k (v k + c • v l) '' s) :=
      Submodule.subset_span ⟨k, hk, rfl⟩
    have h2 : Function.update v k (v k + c • v l) l ∈
        Submodule.span ℝ (Function.update v k (v k + c • v l) '' s) :=
      Submodule.subset_span ⟨l, hl, rfl⟩
    rw [Function.update_self] at h1
    rw [Function.update_of_ne hkl] at h2
    have := Submodule.sub_mem _ h1 (Submodule.smul_mem _ c h2)
    rwa [add_sub_cancel_right] at this

theorem swapAt_eq (p : ℕ → ℕ) (i j : ℕ) : swapAt p i j = fun a => p (Equiv.swap i j a) := by
  funext a
  unfold swapAt
  by_cases h1 : a = j
  · subst h1; rw [Function.update_self, Equiv.swap_apply_right]
  · rw [Function.update_of_ne h1]
    by_cases h2 : a = i
    · subst h2; rw [Function.update_self, Equiv.swap_apply_left]
    · rw [Function.update_of_ne h2, Equiv.swap_apply_of_ne_of_ne h2 h1]

/-- The search composes the permutation with one that only moves positions `i` and later. -/
theorem searchLongest_spec (v : ℕ → E) (i : ℕ) : ∀ (left j : ℕ) (p : ℕ → ℕ) (best : ℝ), i ≤ j →
    best = ⟪v (p i), v (p i)⟫_ℝ →
    ∃ τ : Equiv.Perm ℕ, (∀ a, a < i ∨ j + left ≤ a ∧ i < a → τ a = a) ∧
      (searchLongest v i left j p best).1 = (fun a => p (τ a)) ∧
      (searchLongest v i left j p best).2 = ⟪v (p (τ i)), v (p (τ i))⟫_ℝ := by
  intro left
  induction left with
  | zero =>
    intro j p best hij hb
    exact ⟨1, fun _ _ => rfl, rfl, hb⟩
  | succ left ih =>
    intro j p best hij hb
    rw [searchLongest]
    split_ifs with hlt
    · obtain ⟨τ, h1, h2, h3⟩ := ih (j + 1) (swapAt p i j) ⟪v (p j), v (p j)⟫_ℝ (by omega)
        (by rw [swapAt_eq]; simp only [Equiv.swap_apply_left])
      refine ⟨Equiv.swap i j * τ, ?_, ?_, ?_⟩
      · intro a ha
        rw [Equiv.Perm.mul_apply, h1 a (by omega)]
        exact Equiv.swap_apply_of_ne_of_ne (by omega) (by omega)
      · rw [h2, swapAt_eq]; rfl
      · rw [h3, swapAt_eq]; rfl
    · obtain ⟨τ, h1, h2, h3⟩ := ih (j + 1) p best (by omega) hb
      exact ⟨τ, fun a ha => h1 a (by omega), h2, h3⟩

theorem searchLongest_start (v : ℕ → E) (i num : ℕ) (p : ℕ → ℕ) (hi : i < num) :
    ∃ τ : Equiv.Perm ℕ, (∀ a, a < i ∨ num ≤ a → τ a = a) ∧
      (searchLongest v i (num - i) i p (-1)).1 = (fun a => p (τ a)) ∧
      (searchLongest v i (num - i) i p (-1)).2 = ⟪v (p (τ i)), v (p (τ i))⟫_ℝ := by
  obtain ⟨l, hl⟩ : ∃ l, num - i = l + 1 := ⟨num - i - 1, by omega⟩
  rw [hl, searchLongest, if_pos (lt_of_lt_of_le (by norm_num) real_inner_self_nonneg)]
  have hs : swapAt p i i = p := by rw [swapAt_eq]; simp
  rw [hs]
  obtain ⟨τ, h1, h2, h3⟩ := searchLongest_spec v i l (i + 1) p _ (by omega) rfl
  exact ⟨τ, fun a ha => h1 a (by omega), h2, h3⟩

theorem orthogonaliseLater_spec (p : ℕ → ℕ) (hp : Function.Injective p) (i : ℕ) :
    ∀ (left j : ℕ) (v : ℕ → E), i < j →
    (∀ b, j ≤ b → b < j + left → orthogonaliseLater p i left j v (p b) =
      v (p b) + (-⟪v (p i), v (p b)⟫_ℝ) • v (p i)) ∧
    (∀ k, (∀ b, j ≤ b → b < j + left → k ≠ p b) → orthogonaliseLater p i left j v k = v k) := by
  intro left
  induction left with
  | zero =>
    intro j v hij
    exact ⟨fun b h1 h2 => by omega, fun k _ => rfl⟩
  | succ left ih =>
    intro j v hij
    obtain ⟨h1, h2⟩ := ih (j + 1)
      (Function.update v (p j) (v (p j) + (-⟪v (p i), v (p j)⟫_ℝ) • v (p i))) (by omega)
    have hpi : Function.update v (p j) (v (p j) + (-⟪v (p i), v (p j)⟫_ℝ) • v (p i)) (p i)
        = v (p i) := Function.update_of_ne (fun h => by have := hp h; omega) _ _
    constructor
    · intro b hb1 hb2
      rw [orthogonaliseLater]
      rcases Nat.lt_or_ge j b with hb | hb
      · have hpb : Function.update v (p j) (v (p j) + (-⟪v (p i), v (p j)⟫_ℝ) • v (p i)) (p b)
            = v (p b) := Function.update_of_ne (fun h => by have := hp h; omega) _ _
        rw [h1 b hb (by omega), hpi, hpb]
      · obtain rfl : b = j := by omega
        rw [h2 (p b) (fun c hc1 hc2 h => by have := hp h; omega), Function.update_self]
    · intro k hk
      rw [orthogonaliseLater, h2 k (fun b hb1 hb2 => hk b (by omega) (by omega)),
        Function.update_of_ne (hk j le_rfl (by omega))]

theorem orthogonaliseLater_span (s : Set ℕ) (p : ℕ → ℕ) (hp : Function.Injective p) (i : ℕ)
    (hi : p i ∈ s) : ∀ (left j : ℕ) (v : ℕ → E), i < j →
    (∀ b, j ≤ b → b < j + left → p b ∈ s) →
    Submodule.span ℝ (orthogonaliseLater p i left j v '' s) = Submodule.span ℝ (v '' s) := by
  intro left
  induction left with
  | zero => intro j v _ _; rfl
  | succ left ih =>
    intro j v hij hs
    rw [orthogonaliseLater, ih (j + 1) _ (by omega) (fun b h1 h2 => hs b (by omega) (by omega)),
      span_update_add s v (p j) (p i) (hs j le_rfl (by omega)) hi
        (fun h => by have := hp h; omega)]

/-- Invariant of the loop: before iteration `i`, positions `0 … i-1` of the permuted new vectors are
done. -/
structure GSInv (ds : List E) (S : Submodule ℝ E) (num i : ℕ) (σ : Equiv.Perm ℕ) (v : ℕ → E) :
    Prop where
  fix : ∀ a, num ≤ a → σ a = a
  old : ∀ k, k < ds.length → v k = ds.getD k 0
  span : Submodule.span ℝ (v '' Set.Iio (ds.length + num)) = S
  orthD : ∀ k, k < ds.length → ∀ b, b < num → ⟪v k, v (ds.length + σ b)⟫_ℝ = 0
  unit : ∀ a, a < i → ‖v (ds.length + σ a)‖ = 1
  orth : ∀ a, a < i → ∀ b, b < num → a ≠ b →
    ⟪v (ds.length + σ a), v (ds.length + σ b)⟫_ℝ = 0

theorem perm_lt (σ : Equiv.Perm ℕ) (num : ℕ) (h : ∀ a, num ≤ a → σ a = a) (a : ℕ) (ha : a < num) :
    σ a < num := by
  by_contra hc
  have h1 := h (σ a) (by omega)
  have := σ.injective h1
  omega

theorem span_zero_lt (S : Submodule ℝ E) (n k : ℕ) (v : ℕ → E) (hk : k < n)
    (hS : Submodule.span ℝ (v '' Set.Iio n) = S) (h0 : v k = 0) :
    FiniteDimensional ℝ S ∧ Module.finrank ℝ S < n := by
  classical
  have hset : v '' Set.Iio n ⊆ insert 0 (((Finset.range n).erase k).image v : Finset E) := by
    rintro _ ⟨a, ha, rfl⟩
    by_cases hak : a = k
    · subst hak; rw [h0]; exact Set.mem_insert _ _
    · right
      simp only [Finset.coe_image, Set.mem_image, Finset.mem_coe, Finset.mem_erase, Finset.mem_range]
      exact ⟨a, ⟨hak, ha⟩, rfl⟩
  have hle : S ≤ Submodule.span ℝ ((((Finset.range n).erase k).image v : Finset E) : Set E) := by
    rw [← hS]
    refine (Submodule.span_mono hset).trans ?_
    rw [Submodule.span_insert_zero]
  have hfd : FiniteDimensional ℝ
      (Submodule.span ℝ ((((Finset.range n).erase k).image v : Finset E) : Set E)) :=
    FiniteDimensional.span_finset ℝ _
  refine ⟨Submodule.finiteDimensional_of_le hle, ?_⟩
  have h1 := Submodule.finrank_mono hle
  have h2 := finrank_span_finset_le_card (R := ℝ) (((Finset.range n).erase k).image v)
  rw [Set.finrank] at h2
  have h3 := Finset.card_image_le (s := (Finset.range n).erase k) (f := v)
  rw [Finset.card_erase_of_mem (by simpa using hk), Finset.card_range] at h3
  omega

/-- One run of the loop: it ends with an orthonormal family, or it stops because the vectors are
dependent. -/
theorem gramSchmidt_spec (debug : Bool) (ds : List E) (S : Submodule ℝ E) (num : ℕ) :
    ∀ (left i : ℕ) (σ : Equiv.Perm ℕ) (v : ℕ → E), i + left = num → GSInv ds S num i σ v →
    (∃ v' σ', gramSchmidt debug num left i (fun k => ds.length + σ k) v = .ok v' ∧
      GSInv ds S num num σ' v') ∨
    ((∀ v', gramSchmidt debug num left i (fun k => ds.length + σ k) v ≠ .ok v') ∧
      FiniteDimensional ℝ S ∧ Module.finrank ℝ S < ds.length + num) := by
  intro left
  induction left with
  | zero =>
    intro i σ v hi h
    obtain rfl : i = num := by omega
    exact Or.inl ⟨v, σ, rfl, h⟩
  | succ left ih =>
    intro i σ v hi h
    obtain ⟨τ, t1, t2, t3⟩ := searchLongest_start v i num (fun k => ds.length + σ k) (by omega)
    have hτ : ∀ a, num ≤ a → τ a = a := fun a ha => t1 a (Or.inr ha)
    have hfix : ∀ a, num ≤ a → (σ * τ) a = a := by
      intro a ha
      rw [Equiv.Perm.mul_apply, hτ a ha, h.fix a ha]
    have hltn : ∀ a, a < num → (σ * τ) a < num := fun a ha => perm_lt _ _ hfix a ha
    have hτi : ∀ a, a < i → (σ * τ) a = σ a := fun a ha => by
      rw [Equiv.Perm.mul_apply, t1 a (Or.inl ha)]
    -- after the search
    have h1 : GSInv ds S num i (σ * τ) v := by
      refine ⟨hfix, h.old, h.span, ?_, ?_, ?_⟩
      · intro k hk b hb
        exact h.orthD k hk (τ b) (perm_lt τ num hτ b hb)
      · intro a ha; rw [hτi a ha]; exact h.unit a ha
      · intro a ha b hb hab
        rw [hτi a ha]
        refine h.orth a ha (τ b) (perm_lt τ num hτ b hb) ?_
        intro heq
        rw [← t1 a (Or.inl ha)] at heq
        exact hab (τ.injective heq)
    set ρ := σ * τ with hρ
    have t2' : (searchLongest v i (num - i) i (fun k => ds.length + σ k) (-1)).1
        = fun k => ds.length + ρ k := t2
    have t3' : (searchLongest v i (num - i) i (fun k => ds.length + σ k) (-1)).2
        = ⟪v (ds.length + ρ i), v (ds.length + ρ i)⟫_ℝ := t3
    have hnorm : Real.sqrt (searchLongest v i (num - i) i (fun k => ds.length + σ k) (-1)).2
        = ‖v (ds.length + ρ i)‖ := by
      rw [t3', real_inner_self_eq_norm_sq, Real.sqrt_sq (norm_nonneg _)]
    by_cases hz : ‖v (ds.length + ρ i)‖ = 0
    · right
      refine ⟨?_, span_zero_lt S _ _ v (by have := hltn i (by omega); omega) h.span
        (norm_eq_zero.1 hz)⟩
      intro v'
      rw [gramSchmidt]
      simp only [hnorm, hz, if_true]
      cases debug <;> simp
    · rw [gramSchmidt]
      simp only [hnorm, if_neg hz, t2']
      set p : ℕ → ℕ := fun k => ds.length + ρ k with hp
      have hpinj : Function.Injective p := fun a b hab => ρ.injective (by simp only [hp] at hab; omega)
      set c : ℝ := ‖v (ds.length + ρ i)‖⁻¹ with hc
      have hc0 : c ≠ 0 := inv_ne_zero hz
      set v1 : ℕ → E := Function.update v (p i) (c • v (p i)) with hv1
      obtain ⟨o1, o2⟩ := orthogonaliseLater_spec p hpinj i (num - (i + 1)) (i + 1) v1 (by omega)
      set v2 := orthogonaliseLater p i (num - (i + 1)) (i + 1) v1 with hv2
      have hv1i : v1 (p i) = c • v (p i) := Function.update_self _ _ _
      have hv1n : ∀ b, b ≠ i → v1 (p b) = v (p b) := fun b hb =>
        Function.update_of_ne (fun h => hb (hpinj h)) _ _
      have hunit1 : ‖v1 (p i)‖ = 1 := by
        rw [hv1i, norm_smul, hc, norm_inv, norm_norm]
        exact inv_mul_cancel₀ hz
      have hv2i : ∀ b, b ≤ i → v2 (p b) = v1 (p b) := by
        intro b hb
        exact o2 (p b) (fun d hd1 _ h => by have := hpinj h; omega)
      have hv2l : ∀ b, i < b → b < num → v2 (p b) =
          v (p b) + (-⟪v1 (p i), v (p b)⟫_ℝ) • v1 (p i) := by
        intro b hb hb'
        rw [o1 b (by omega) (by omega), hv1n b (by omega)]
      have hold : ∀ k, k < ds.length → v2 k = v k := by
        intro k hk
        rw [o2 k (fun b _ _ h => by simp only [hp] at h; omega), hv1,
          Function.update_of_ne (by simp only [hp]; omega)]
      have hin : ∀ b, b < num → p b ∈ Set.Iio (ds.length + num) := by
        intro b hb
        have := hltn b hb
        simp only [hp, Set.mem_Iio]; omega
      have h2 : GSInv ds S num (i + 1) ρ v2 := by
        refine ⟨hfix, ?_, ?_, ?_, ?_, ?_⟩
        · intro k hk; rw [hold k hk]; exact h1.old k hk
        · rw [hv2, orthogonaliseLater_span _ p hpinj i (hin i (by omega)) _ _ _ (by omega)
            (fun b hb1 hb2 => hin b (by omega)), hv1,
            span_update_smul _ v (p i) (hin i (by omega)) c hc0]
          exact h1.span
        · intro k hk b hb
          rw [hold k hk]
          have e1 : ⟪v k, v (p b)⟫_ℝ = 0 := h1.orthD k hk b hb
          have e2 : ⟪v k, v (p i)⟫_ℝ = 0 := h1.orthD k hk i (by omega)
          change ⟪v k, v2 (p b)⟫_ℝ = 0
          rcases lt_trichotomy b i with hbi | rfl | hbi
          · rw [hv2i b hbi.le, hv1n b (by omega), e1]
          · rw [hv2i b le_rfl, hv1i, inner_smul_right, e2, mul_zero]
          · rw [hv2l b hbi hb, inner_add_right, inner_smul_right, hv1i, inner_smul_right, e1, e2]
            ring
        · intro a ha
          change ‖v2 (p a)‖ = 1
          rcases Nat.lt_or_ge a i with hai | hai
          · rw [hv2i a hai.le, hv1n a (by omega)]; exact h1.unit a hai
          · obtain rfl : a = i := by omega
            rw [hv2i a le_rfl, hunit1]
        · intro a ha b hb hab
          change ⟪v2 (p a), v2 (p b)⟫_ℝ = 0
          have hself : ⟪v1 (p i), v1 (p i)⟫_ℝ = 1 := by
            rw [real_inner_self_eq_norm_sq, hunit1]; norm_num
          have haux : ∀ b, a < i → b < num → a ≠ b → ⟪v (p a), v (p b)⟫_ℝ = 0 :=
            fun b h h' h'' => h1.orth a h b h' h''
          rcases Nat.lt_or_ge a i with hai | hai
          · rw [hv2i a hai.le, hv1n a (by omega)]
            rcases lt_trichotomy b i with hbi | rfl | hbi
            · rw [hv2i b hbi.le, hv1n b (by omega)]; exact haux b hai hb hab
            · rw [hv2i b le_rfl, hv1i, inner_smul_right, haux b hai hb hab, mul_zero]
            · rw [hv2l b hbi hb, inner_add_right, inner_smul_right, hv1i, inner_smul_right,
                haux b hai hb hab, haux i hai (by omega) (by omega)]
              ring
          · obtain rfl : a = i := by omega
            rw [hv2i a le_rfl]
            rcases Nat.lt_or_ge b a with hbi | hbi
            · rw [hv2i b hbi.le, hv1n b (by omega), hv1i, inner_smul_left]
              have : ⟪v (p b), v (p a)⟫_ℝ = 0 := h1.orth b hbi a (by omega) (by omega)
              rw [real_inner_comm, this, mul_zero]
            · rw [hv2l b (by omega) hb, inner_add_right, inner_smul_right, hself]
              ring
      exact ih (i + 1) ρ v2 (by omega) h2

end Mfmg
