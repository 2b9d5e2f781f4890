import Verif.Spec.Store
import Verif.Lemmas.Hierarchy
import Mathlib.Tactic.Common

/-!
# Lemmas on applications as programs on vectors in memory
-/

set_option autoImplicit false

namespace Mfmg

open Spec

variable {V : ℕ → Type}

namespace Store

@[simp] theorem set_same (σ : Store V) (l : ℕ) (a : VecName) (v : Option (V l)) :
    σ.set l a v l a = v := by simp [Store.set]

theorem set_other (σ : Store V) {l m : ℕ} {a c : VecName} (v : Option (V l))
    (h : ¬ (m = l ∧ c = a)) : σ.set l a v m c = σ m c := by
  unfold Store.set
  by_cases hm : m = l
  · subst hm
    rw [Function.update_self, Function.update_of_ne (fun hc => h ⟨rfl, hc⟩)]
  · rw [Function.update_of_ne hm]

theorem set_name (σ : Store V) {l m : ℕ} {a c : VecName} (v : Option (V l)) (h : c ≠ a) :
    σ.set l a v m c = σ m c := set_other σ v fun hh => h hh.2

theorem read_some {σ : Store V} {l : ℕ} {a : VecName} {v : V l} (h : σ l a = some v) :
    σ.read l a = .ok v := by simp [Store.read, h]

theorem set_set (σ : Store V) (l : ℕ) (a : VecName) (v w : Option (V l)) :
    (σ.set l a v).set l a w = σ.set l a w := by simp [Store.set]

theorem set_eq_self {σ : Store V} {l : ℕ} {a : VecName} {v : Option (V l)} (h : σ l a = v) :
    σ.set l a v = σ := by
  unfold Store.set
  rw [← h, Function.update_eq_self, Function.update_eq_self]

/-- Equality of stores cell by cell. -/
theorem ext_cell {σ τ : Store V} (h : ∀ l a, σ l a = τ l a) : σ = τ :=
  funext fun l => funext fun a => h l a

end Store

section

variable [∀ l, AddCommGroup (V l)]

theorem runStmts_append (p q : List (VStmt V)) (σ : Store V) :
    runStmts (p ++ q) σ = (runStmts p σ >>= runStmts q) := by
  induction p generalizing σ with
  | nil => rfl
  | cons s p ih => simp only [List.cons_append, runStmts, ih, bind_assoc]

theorem runStmts_append_ok {p q : List (VStmt V)} {σ τ : Store V} (h : runStmts p σ = .ok τ) :
    runStmts (p ++ q) σ = runStmts q τ := by
  rw [runStmts_append, h]
  rfl

theorem exec_operate {σ : Store V} {l m : ℕ} (f : V l → V m) {x y : VecName} {v : V l} {w : V m}
    (hx : σ l x = some v) (hy : σ m y = some w) (hne : x ≠ y) :
    (VStmt.operate l m f x y).exec σ = .ok (σ.set m y (some (f v))) := by
  simp [VStmt.exec, Store.read_some hx, Store.read_some hy, hne]

/-- One smoothing step in memory; the vectors may be the same object. -/
theorem smoothStmts_run (P : Parts V) (t l k : ℕ) (b x : VecName) (σ : Store V) (vb vx : V l)
    (hb : σ l b = some vb) (hx : σ l x = some vx)
    (hbk : ∀ j ≥ k, b ≠ .temp t j) (hxk : ∀ j ≥ k, x ≠ .temp t j)
    (hdead : ∀ j ≥ k, σ l (.temp t j) = none) :
    runStmts (smoothStmts P t l k b x) σ =
      .ok (σ.set l x (some (vx - P.B l (P.A l vx - vb)))) := by
  have hb0 := hbk k le_rfl
  have hb1 := hbk (k + 1) (by omega)
  have hx0 := hxk k le_rfl
  have hx1 := hxk (k + 1) (by omega)
  have h01 : VecName.temp t k ≠ .temp t (k + 1) := by simp
  have h10 : VecName.temp t (k + 1) ≠ .temp t k := by simp
  simp only [smoothStmts, runStmts, VStmt.exec, Store.read, hb, Outcome.deref_some, Outcome.ok_bind,
    Outcome.pure_eq, Store.set_name _ _ hx0, hx, Store.set_same, Store.set_name _ _ hb0, hx0,
    and_false, if_false, Store.set_name _ _ hx1, Store.set_name _ _ h01, h01,
    Store.set_name _ _ hx0.symm, Store.set_name _ _ hx1.symm]
  congr 1
  refine Store.ext_cell fun m a => ?_
  by_cases h1 : m = l ∧ a = .temp t k
  · obtain ⟨rfl, rfl⟩ := h1
    rw [Store.set_same, Store.set_name _ _ hx0.symm, hdead k le_rfl]
  by_cases h2 : m = l ∧ a = .temp t (k + 1)
  · obtain ⟨rfl, rfl⟩ := h2
    rw [Store.set_name _ _ h10, Store.set_same, Store.set_name _ _ hx1.symm,
      hdead (k + 1) (by omega)]
  by_cases h3 : m = l ∧ a = x
  · obtain ⟨rfl, rfl⟩ := h3
    rw [Store.set_name _ _ hx0, Store.set_name _ _ hx1, Store.set_same, Store.set_same]
  · rw [Store.set_other _ _ h1, Store.set_other _ _ h2, Store.set_other _ _ h3,
      Store.set_other _ _ h2, Store.set_other _ _ h2, Store.set_other _ _ h1,
      Store.set_other _ _ h1, Store.set_other _ _ h1, Store.set_other _ _ h3]

/-- The smoothing steps in memory, with different vectors. -/
theorem smoothLoopStmts_run (P : Parts V) (t l k : ℕ) (b x : VecName) (hbx : b ≠ x)
    (hbk : ∀ j ≥ k, b ≠ .temp t j) (hxk : ∀ j ≥ k, x ≠ .temp t j) (vb : V l) (n : ℕ) :
    ∀ (σ : Store V) (vx : V l), σ l b = some vb → σ l x = some vx →
      (∀ j ≥ k, σ l (.temp t j) = none) →
    runStmts (smoothLoopStmts P t l k b x n) σ =
      .ok (σ.set l x (some ((fun x => x - P.B l (P.A l x - vb))^[n] vx))) := by
  induction n with
  | zero =>
    intro σ vx _ hx _
    simp only [smoothLoopStmts, runStmts, Function.iterate_zero, id]
    rw [Store.set_eq_self hx]
  | succ n ih =>
    intro σ vx hb hx hd
    rw [smoothLoopStmts, runStmts_append_ok (smoothStmts_run P t l k b x σ vb vx hb hx hbk hxk hd),
      ih _ (vx - P.B l (P.A l vx - vb)) (by rw [Store.set_name _ _ hbx, hb]) (Store.set_same _ _ _ _)
        (fun j hj => by rw [Store.set_name _ _ (hxk j hj).symm, hd j hj]), Store.set_set]
    rfl

/-- The value that an application computes. -/
def applyValue (P : Parts V) : (d l : ℕ) → V l → V l → V l
  | 0, l, b, x => P.C l b (if l > 0 ∨ P.isPreconditioner then 0 else x)
  | d + 1, l, b, x =>
    let x₁ := (fun x => x - P.B l (P.A l x - b))^[P.nSmoothingSteps]
      (if l > 0 ∨ P.isPreconditioner then 0 else x)
    (fun x => x - P.B l (P.A l x - b))^[P.nSmoothingSteps]
      (x₁ - P.RT l (applyValue P d (l + 1) (P.R l (P.A l x₁ - b)) 0))

theorem applyValue_indep (P : Parts V) (d l : ℕ) (b x y : V l) (h : l > 0 ∨ P.isPreconditioner) :
    applyValue P d l b x = applyValue P d l b y := by
  cases d <;> simp [applyValue, h]

theorem zeroStmt_run (c : Prop) [Decidable c] (l : ℕ) (x : VecName) (σ : Store V) (vx : V l)
    (hx : σ l x = some vx) :
    runStmts (if c then [.zero l x] else []) σ = .ok (σ.set l x (some (if c then 0 else vx))) := by
  split
  · simp [runStmts, VStmt.exec, Store.read_some hx]
  · simp [runStmts, Store.set_eq_self hx]

/-- An application in memory with different vectors. -/
theorem applyStmts_run (P : Parts V) (junk : ∀ l, ℕ → V l) (t d : ℕ) :
    ∀ (l k : ℕ) (b x : VecName) (σ : Store V) (vb vx : V l), b ≠ x →
      (∀ j ≥ k, b ≠ .temp t j) → (∀ j ≥ k, x ≠ .temp t j) →
      (∀ m, ∀ j ≥ k, σ m (.temp t j) = none) → σ l b = some vb → σ l x = some vx →
    runStmts (applyStmts P junk t d l k b x) σ = .ok (σ.set l x (some (applyValue P d l vb vx))) := by
  induction d with
  | zero =>
    intro l k b x σ vb vx hbx _ _ _ hb hx
    rw [applyStmts, runStmts_append_ok (zeroStmt_run _ l x σ vx hx)]
    simp only [runStmts, VStmt.exec, Store.read, Store.set_name _ _ hbx, hb, Store.set_same,
      Outcome.deref_some, Outcome.ok_bind, Outcome.pure_eq, Store.set_set, applyValue]
  | succ d ih =>
    intro l k b x σ vb vx hbx hbk hxk hdead hb hx
    have hb0 := hbk k le_rfl
    have hb1 := hbk (k + 1) (by omega)
    have hb2 := hbk (k + 2) (by omega)
    have hb3 := hbk (k + 3) (by omega)
    have hx0 := hxk k le_rfl
    have hx1 := hxk (k + 1) (by omega)
    have hx2 := hxk (k + 2) (by omega)
    have hx3 := hxk (k + 3) (by omega)
    have ne : ∀ i j, i ≠ j → VecName.temp t i ≠ .temp t j := fun i j h => by simp [h]
    have n01 := ne k (k + 1) (by omega)
    have n02 := ne k (k + 2) (by omega)
    have n03 := ne k (k + 3) (by omega)
    have n12 := ne (k + 1) (k + 2) (by omega)
    have n13 := ne (k + 1) (k + 3) (by omega)
    have n23 := ne (k + 2) (k + 3) (by omega)
    rw [applyStmts]
    simp only [List.append_assoc]
    rw [runStmts_append_ok (zeroStmt_run _ l x σ vx hx)]
    rw [runStmts_append_ok (smoothLoopStmts_run P t l k b x hbx hbk hxk vb P.nSmoothingSteps
      (σ.set l x (some (if l > 0 ∨ P.isPreconditioner then 0 else vx))) _
      (by rw [Store.set_name _ _ hbx, hb]) (Store.set_same _ _ _ _)
      (fun j hj => by rw [Store.set_name _ _ (hxk j hj).symm, hdead l j hj])), Store.set_set]
    generalize hx₁ : (fun x => x - P.B l (P.A l x - vb))^[P.nSmoothingSteps]
      (if l > 0 ∨ P.isPreconditioner then 0 else vx) = x₁
    set σ₁ := σ.set l x (some x₁) with hσ₁
    have h1x : σ₁ l x = some x₁ := Store.set_same _ _ _ _
    have h1b : σ₁ l b = some vb := by rw [hσ₁, Store.set_name _ _ hbx, hb]
    have h1t : ∀ m, ∀ j ≥ k, σ₁ m (.temp t j) = none := fun m j hj => by
      rw [hσ₁, Store.set_name _ _ (hxk j hj).symm, hdead m j hj]
    -- the second segment
    have seg2 : runStmts [.build l (.temp t k) (junk l k),
        .operate l l (P.A l) x (.temp t k),
        .subtract l (.temp t k) b,
        .build (l + 1) (.temp t (k + 1)) (junk (l + 1) (k + 1)),
        .operate l (l + 1) (P.R l) (.temp t k) (.temp t (k + 1)),
        .build (l + 1) (.temp t (k + 2)) (junk (l + 1) (k + 2))] σ₁ =
        .ok (((σ₁.set l (.temp t k) (some (P.A l x₁ - vb))).set (l + 1) (.temp t (k + 1))
          (some (P.R l (P.A l x₁ - vb)))).set (l + 1) (.temp t (k + 2))
          (some (junk (l + 1) (k + 2)))) := by
      simp only [runStmts, VStmt.exec, Store.read, Outcome.pure_eq, Outcome.ok_bind,
        Outcome.deref_some, Store.set_name _ _ hx0, h1x, Store.set_same, hx0, and_false, if_false,
        Store.set_name _ _ hb0, h1b, Store.set_set, Store.set_name _ _ n01, n01]
    rw [runStmts_append_ok seg2]
    set σ₂ := ((σ₁.set l (.temp t k) (some (P.A l x₁ - vb))).set (l + 1) (.temp t (k + 1))
          (some (P.R l (P.A l x₁ - vb)))).set (l + 1) (.temp t (k + 2))
          (some (junk (l + 1) (k + 2))) with hσ₂
    rw [runStmts_append_ok (ih (l + 1) (k + 3) (.temp t (k + 1)) (.temp t (k + 2)) σ₂
      (P.R l (P.A l x₁ - vb)) (junk (l + 1) (k + 2)) n12
      (fun j hj => ne _ _ (by omega)) (fun j hj => ne _ _ (by omega))
      (fun m j hj => by
        rw [hσ₂, Store.set_name _ _ (ne _ _ (by omega)), Store.set_name _ _ (ne _ _ (by omega)),
          Store.set_name _ _ (ne _ _ (by omega)), h1t m j (by omega)])
      (by rw [hσ₂, Store.set_name _ _ n12, Store.set_same])
      (by rw [hσ₂, Store.set_same])),
      applyValue_indep P d (l + 1) _ _ 0 (Or.inl (Nat.succ_pos l))]
    set c := applyValue P d (l + 1) (P.R l (P.A l x₁ - vb)) 0 with hc
    have h2 : σ₂.set (l + 1) (.temp t (k + 2)) (some c) =
        ((σ₁.set l (.temp t k) (some (P.A l x₁ - vb))).set (l + 1) (.temp t (k + 1))
          (some (P.R l (P.A l x₁ - vb)))).set (l + 1) (.temp t (k + 2)) (some c) := by
      rw [hσ₂, Store.set_set]
    rw [h2]
    set σ₃ := ((σ₁.set l (.temp t k) (some (P.A l x₁ - vb))).set (l + 1) (.temp t (k + 1))
          (some (P.R l (P.A l x₁ - vb)))).set (l + 1) (.temp t (k + 2)) (some c) with hσ₃
    have h3x : σ₃ l x = some x₁ := by
      rw [hσ₃, Store.set_name _ _ hx2, Store.set_name _ _ hx1, Store.set_name _ _ hx0, h1x]
    have h3b : σ₃ l b = some vb := by
      rw [hσ₃, Store.set_name _ _ hb2, Store.set_name _ _ hb1, Store.set_name _ _ hb0, h1b]
    have h3c : σ₃ (l + 1) (.temp t (k + 2)) = some c := Store.set_same _ _ _ _
    have seg3 : runStmts [.build l (.temp t (k + 3)) (junk l (k + 3)),
        .operate (l + 1) l (P.RT l) (.temp t (k + 2)) (.temp t (k + 3)),
        .subtract l x (.temp t (k + 3))] σ₃ =
        .ok ((σ₃.set l (.temp t (k + 3)) (some (P.RT l c))).set l x (some (x₁ - P.RT l c))) := by
      simp only [runStmts, VStmt.exec, Store.read, Outcome.pure_eq, Outcome.ok_bind,
        Outcome.deref_some, Store.set_name _ _ n23, h3c, Store.set_same, n23, and_false, if_false,
        Store.set_name _ _ hx3, h3x, Store.set_set]
    rw [runStmts_append_ok seg3]
    rw [runStmts_append_ok (smoothLoopStmts_run P t l (k + 4) b x hbx
      (fun j hj => hbk j (by omega)) (fun j hj => hxk j (by omega)) vb P.nSmoothingSteps _
      (x₁ - P.RT l c)
      (by rw [Store.set_name _ _ hbx, Store.set_name _ _ hb3, h3b]) (Store.set_same _ _ _ _)
      (fun j hj => by
        rw [Store.set_name _ _ (hxk j (by omega)).symm, Store.set_name _ _ (ne _ _ (by omega)), hσ₃,
          Store.set_name _ _ (ne _ _ (by omega)), Store.set_name _ _ (ne _ _ (by omega)),
          Store.set_name _ _ (ne _ _ (by omega)), h1t l j (by omega)])), Store.set_set]
    have hval : (fun x => x - P.B l (P.A l x - vb))^[P.nSmoothingSteps] (x₁ - P.RT l c) =
        applyValue P (d + 1) l vb vx := by
      simp only [applyValue, hx₁, hc]
    rw [hval]
    generalize applyValue P (d + 1) l vb vx = v
    simp only [runStmts, VStmt.exec, Store.read, Outcome.pure_eq, Outcome.ok_bind,
      Outcome.deref_some, Store.set_same, Store.set_name _ _ hx3.symm, Store.set_name _ _ n23,
      Store.set_name _ _ hx2.symm, Store.set_name _ _ n12, Store.set_name _ _ n13,
      Store.set_name _ _ hx1.symm, Store.set_name _ _ n01, Store.set_name _ _ n02,
      Store.set_name _ _ n03, Store.set_name _ _ hx0.symm, hσ₃]
    congr 1
    refine Store.ext_cell fun m a => ?_
    have hxt : a ≠ x → σ₁ m a = σ m a := fun h => by rw [hσ₁, Store.set_name _ _ h]
    by_cases e0 : m = l ∧ a = .temp t k
    · obtain ⟨rfl, rfl⟩ := e0
      rw [Store.set_same, Store.set_name _ _ hx0.symm, hdead m k le_rfl]
    by_cases e1 : m = l + 1 ∧ a = .temp t (k + 1)
    · obtain ⟨rfl, rfl⟩ := e1
      rw [Store.set_name _ _ n01.symm, Store.set_same, Store.set_name _ _ hx1.symm,
        hdead _ _ (by omega)]
    by_cases e2 : m = l + 1 ∧ a = .temp t (k + 2)
    · obtain ⟨rfl, rfl⟩ := e2
      rw [Store.set_name _ _ n02.symm, Store.set_name _ _ n12.symm, Store.set_same,
        Store.set_name _ _ hx2.symm, hdead _ _ (by omega)]
    by_cases e3 : m = l ∧ a = .temp t (k + 3)
    · obtain ⟨rfl, rfl⟩ := e3
      rw [Store.set_name _ _ n03.symm, Store.set_name _ _ n13.symm, Store.set_name _ _ n23.symm,
        Store.set_same, Store.set_name _ _ hx3.symm, hdead _ _ (by omega)]
    by_cases e4 : m = l ∧ a = x
    · obtain ⟨rfl, rfl⟩ := e4
      rw [Store.set_name _ _ hx0, Store.set_name _ _ hx1, Store.set_name _ _ hx2,
        Store.set_name _ _ hx3, Store.set_same, Store.set_same]
    · rw [Store.set_other _ _ e0, Store.set_other _ _ e1, Store.set_other _ _ e2,
        Store.set_other _ _ e3, Store.set_other _ _ e4, Store.set_other _ _ e3,
        Store.set_other _ _ e2, Store.set_other _ _ e1, Store.set_other _ _ e0,
        Store.set_other _ _ e4, hσ₁, Store.set_other _ _ e4]

/-- The value is the one computed by the functional model. -/
theorem apply_eq_applyValue {H : Hierarchy V} {P : Parts V} (h : MadeOf H P) (fresh : ∀ l, V l)
    (d : ℕ) : ∀ (l : ℕ), l + d + 1 = H.numLevels → ∀ b x : V l,
      (H.apply fresh l b x).result = .ok (applyValue P d l b x) := by
  induction d with
  | zero =>
    intro l hl b x
    obtain ⟨s, hs, hsv⟩ := h.solver
    have hlast : l = H.numLevels - 1 := by omega
    subst hlast
    rw [Hierarchy.apply_coarsest H fresh _ b x (by omega) rfl s hs, hsv _ _ fun h1 => ?_, applyValue,
      h.preconditioner]
    rw [if_pos]
    exact h1.imp (fun h => by omega) id
  | succ d ih =>
    intro l hl b x
    obtain ⟨o, ho, hov⟩ := h.operator l (by omega)
    obtain ⟨s, hs, hsv⟩ := h.smoother l (by omega)
    obtain ⟨r, hr, hrv, htv⟩ := h.restrictor l (by omega)
    have e : s b = fun x => x - P.B l (P.A l x - b) := funext fun x => hsv b x
    have := Hierarchy.apply_fine H fresh l b x (by omega) o ho s hs r hr
    dsimp only at this
    rw [this _ (ih (l + 1) (by omega) _ _)]
    rw [applyValue_indep P d (l + 1) _ _ 0 (Or.inl (Nat.succ_pos l))]
    simp only [applyValue, e, hrv, htv, hov, h.steps, h.preconditioner]

theorem vmult_eq_applyValue {H : Hierarchy V} {P : Parts V} (h : MadeOf H P) (fresh : ∀ l, V l)
    (b x : V 0) :
    (H.vmult fresh x b).result = .ok (applyValue P (P.numLevels - 1) 0 b x) := by
  have hp := h.pos
  have := apply_eq_applyValue h fresh (P.numLevels - 1) 0 (by rw [h.levels]; omega) b x
  unfold Hierarchy.vmult
  rw [timerEnter_bind_result, Run.result_bind_ok this]
  simp

/-! ## The two vectors are one object -/

/-- The value left in the vector `x` after `vmult(x, x)`. -/
def inPlaceValue (P : Parts V) : (d : ℕ) → V 0 → V 0
  | 0, v =>
    let x₀ := if P.isPreconditioner then 0 else v
    P.C 0 x₀ x₀
  | d + 1, v =>
    let x₁ := (fun x => x - P.B 0 (P.A 0 x - x))^[P.nSmoothingSteps]
      (if P.isPreconditioner then 0 else v)
    (fun x => x - P.B 0 (P.A 0 x - x))^[P.nSmoothingSteps]
      (x₁ - P.RT 0 (applyValue P d 1 (P.R 0 (P.A 0 x₁ - x₁)) 0))

theorem smoothLoopStmts_inPlace (P : Parts V) (t l k : ℕ) (x : VecName)
    (hxk : ∀ j ≥ k, x ≠ .temp t j) (n : ℕ) :
    ∀ (σ : Store V) (vx : V l), σ l x = some vx → (∀ j ≥ k, σ l (.temp t j) = none) →
    runStmts (smoothLoopStmts P t l k x x n) σ =
      .ok (σ.set l x (some ((fun x => x - P.B l (P.A l x - x))^[n] vx))) := by
  induction n with
  | zero =>
    intro σ vx hx _
    simp only [smoothLoopStmts, runStmts, Function.iterate_zero, id]
    rw [Store.set_eq_self hx]
  | succ n ih =>
    intro σ vx hx hd
    rw [smoothLoopStmts, runStmts_append_ok (smoothStmts_run P t l k x x σ vx vx hx hx hxk hxk hd),
      ih _ (vx - P.B l (P.A l vx - vx)) (Store.set_same _ _ _ _)
        (fun j hj => by rw [Store.set_name _ _ (hxk j hj).symm, hd j hj]), Store.set_set]
    rfl

/-- An application in memory with the same vector twice. -/
theorem applyStmts_inPlace (P : Parts V) (junk : ∀ l, ℕ → V l) (t d : ℕ) (x : VecName)
    (σ : Store V) (vx : V 0) (hxk : ∀ j ≥ 0, x ≠ .temp t j)
    (hdead : ∀ m, ∀ j ≥ 0, σ m (.temp t j) = none) (hx : σ 0 x = some vx) :
    runStmts (applyStmts P junk t d 0 0 x x) σ = .ok (σ.set 0 x (some (inPlaceValue P d vx))) := by
  have hc0 : (0 > 0 ∨ P.isPreconditioner = true) ↔ P.isPreconditioner = true := by simp
  cases d with
  | zero =>
    rw [applyStmts, runStmts_append_ok (zeroStmt_run _ 0 x σ vx hx)]
    simp only [runStmts, VStmt.exec, Store.read, Store.set_same, Outcome.deref_some,
      Outcome.ok_bind, Outcome.pure_eq, Store.set_set, inPlaceValue, hc0]
  | succ d =>
    have hx0 := hxk 0 le_rfl
    have hx1 := hxk 1 (by omega)
    have hx2 := hxk 2 (by omega)
    have hx3 := hxk 3 (by omega)
    have ne : ∀ i j, i ≠ j → VecName.temp t i ≠ .temp t j := fun i j h => by simp [h]
    have n01 := ne 0 1 (by omega)
    have n02 := ne 0 2 (by omega)
    have n03 := ne 0 3 (by omega)
    have n12 := ne 1 2 (by omega)
    have n13 := ne 1 3 (by omega)
    have n23 := ne 2 3 (by omega)
    rw [applyStmts]
    simp only [List.append_assoc, Nat.zero_add]
    rw [runStmts_append_ok (zeroStmt_run _ 0 x σ vx hx)]
    rw [runStmts_append_ok (smoothLoopStmts_inPlace P t 0 0 x hxk P.nSmoothingSteps
      (σ.set 0 x (some (if 0 > 0 ∨ P.isPreconditioner then 0 else vx))) _ (Store.set_same _ _ _ _)
      (fun j hj => by rw [Store.set_name _ _ (hxk j hj).symm, hdead 0 j hj])), Store.set_set]
    generalize hx₁ : (fun x => x - P.B 0 (P.A 0 x - x))^[P.nSmoothingSteps]
      (if 0 > 0 ∨ P.isPreconditioner then 0 else vx) = x₁
    set σ₁ := σ.set 0 x (some x₁) with hσ₁
    have h1x : σ₁ 0 x = some x₁ := Store.set_same _ _ _ _
    have h1t : ∀ m, ∀ j ≥ 0, σ₁ m (.temp t j) = none := fun m j hj => by
      rw [hσ₁, Store.set_name _ _ (hxk j hj).symm, hdead m j hj]
    have seg2 : runStmts [.build 0 (.temp t 0) (junk 0 0),
        .operate 0 0 (P.A 0) x (.temp t 0),
        .subtract 0 (.temp t 0) x,
        .build 1 (.temp t 1) (junk 1 1),
        .operate 0 1 (P.R 0) (.temp t 0) (.temp t 1),
        .build 1 (.temp t 2) (junk 1 2)] σ₁ =
        .ok (((σ₁.set 0 (.temp t 0) (some (P.A 0 x₁ - x₁))).set 1 (.temp t 1)
          (some (P.R 0 (P.A 0 x₁ - x₁)))).set 1 (.temp t 2) (some (junk 1 2))) := by
      simp only [runStmts, VStmt.exec, Store.read, Outcome.pure_eq, Outcome.ok_bind,
        Outcome.deref_some, Store.set_name _ _ hx0, h1x, Store.set_same, hx0, and_false, if_false,
        Store.set_set, Store.set_name _ _ n01, n01]
    rw [runStmts_append_ok seg2]
    set σ₂ := ((σ₁.set 0 (.temp t 0) (some (P.A 0 x₁ - x₁))).set 1 (.temp t 1)
          (some (P.R 0 (P.A 0 x₁ - x₁)))).set 1 (.temp t 2) (some (junk 1 2)) with hσ₂
    rw [runStmts_append_ok (applyStmts_run P junk t d 1 3 (.temp t 1) (.temp t 2) σ₂
      (P.R 0 (P.A 0 x₁ - x₁)) (junk 1 2) n12
      (fun j hj => ne _ _ (by omega)) (fun j hj => ne _ _ (by omega))
      (fun m j hj => by
        rw [hσ₂, Store.set_name _ _ (ne _ _ (by omega)), Store.set_name _ _ (ne _ _ (by omega)),
          Store.set_name _ _ (ne _ _ (by omega)), h1t m j (by omega)])
      (by rw [hσ₂, Store.set_name _ _ n12, Store.set_same])
      (by rw [hσ₂, Store.set_same])),
      applyValue_indep P d 1 _ _ 0 (Or.inl Nat.one_pos)]
    set c := applyValue P d 1 (P.R 0 (P.A 0 x₁ - x₁)) 0 with hc
    have h2 : σ₂.set 1 (.temp t 2) (some c) =
        ((σ₁.set 0 (.temp t 0) (some (P.A 0 x₁ - x₁))).set 1 (.temp t 1)
          (some (P.R 0 (P.A 0 x₁ - x₁)))).set 1 (.temp t 2) (some c) := by
      rw [hσ₂, Store.set_set]
    rw [h2]
    set σ₃ := ((σ₁.set 0 (.temp t 0) (some (P.A 0 x₁ - x₁))).set 1 (.temp t 1)
          (some (P.R 0 (P.A 0 x₁ - x₁)))).set 1 (.temp t 2) (some c) with hσ₃
    have h3x : σ₃ 0 x = some x₁ := by
      rw [hσ₃, Store.set_name _ _ hx2, Store.set_name _ _ hx1, Store.set_name _ _ hx0, h1x]
    have h3c : σ₃ 1 (.temp t 2) = some c := Store.set_same _ _ _ _
    have seg3 : runStmts [.build 0 (.temp t 3) (junk 0 3),
        .operate 1 0 (P.RT 0) (.temp t 2) (.temp t 3),
        .subtract 0 x (.temp t 3)] σ₃ =
        .ok ((σ₃.set 0 (.temp t 3) (some (P.RT 0 c))).set 0 x (some (x₁ - P.RT 0 c))) := by
      simp only [runStmts, VStmt.exec, Store.read, Outcome.pure_eq, Outcome.ok_bind,
        Outcome.deref_some, Store.set_name _ _ n23, h3c, Store.set_same, n23, and_false, if_false,
        Store.set_name _ _ hx3, h3x, Store.set_set]
    rw [runStmts_append_ok seg3]
    rw [runStmts_append_ok (smoothLoopStmts_inPlace P t 0 4 x
      (fun j hj => hxk j (by omega)) P.nSmoothingSteps _ (x₁ - P.RT 0 c) (Store.set_same _ _ _ _)
      (fun j hj => by
        rw [Store.set_name _ _ (hxk j (by omega)).symm, Store.set_name _ _ (ne _ _ (by omega)), hσ₃,
          Store.set_name _ _ (ne _ _ (by omega)), Store.set_name _ _ (ne _ _ (by omega)),
          Store.set_name _ _ (ne _ _ (by omega)), h1t 0 j (by omega)])), Store.set_set]
    have hval : (fun x => x - P.B 0 (P.A 0 x - x))^[P.nSmoothingSteps] (x₁ - P.RT 0 c) =
        inPlaceValue P (d + 1) vx := by
      simp only [hc0] at hx₁
      simp only [inPlaceValue, hx₁, hc]
    rw [hval]
    generalize inPlaceValue P (d + 1) vx = v
    simp only [runStmts, VStmt.exec, Store.read, Outcome.pure_eq, Outcome.ok_bind,
      Outcome.deref_some, Store.set_same, Store.set_name _ _ hx3.symm, Store.set_name _ _ n23,
      Store.set_name _ _ hx2.symm, Store.set_name _ _ n12, Store.set_name _ _ n13,
      Store.set_name _ _ hx1.symm, Store.set_name _ _ n01, Store.set_name _ _ n02,
      Store.set_name _ _ n03, Store.set_name _ _ hx0.symm, hσ₃]
    congr 1
    refine Store.ext_cell fun m a => ?_
    by_cases e0 : m = 0 ∧ a = .temp t 0
    · obtain ⟨rfl, rfl⟩ := e0
      rw [Store.set_same, Store.set_name _ _ hx0.symm, hdead 0 0 le_rfl]
    by_cases e1 : m = 1 ∧ a = .temp t 1
    · obtain ⟨rfl, rfl⟩ := e1
      rw [Store.set_name _ _ n01.symm, Store.set_same, Store.set_name _ _ hx1.symm,
        hdead _ _ (by omega)]
    by_cases e2 : m = 1 ∧ a = .temp t 2
    · obtain ⟨rfl, rfl⟩ := e2
      rw [Store.set_name _ _ n02.symm, Store.set_name _ _ n12.symm, Store.set_same,
        Store.set_name _ _ hx2.symm, hdead _ _ (by omega)]
    by_cases e3 : m = 0 ∧ a = .temp t 3
    · obtain ⟨rfl, rfl⟩ := e3
      rw [Store.set_name _ _ n03.symm, Store.set_name _ _ n13.symm, Store.set_name _ _ n23.symm,
        Store.set_same, Store.set_name _ _ hx3.symm, hdead _ _ (by omega)]
    by_cases e4 : m = 0 ∧ a = x
    · obtain ⟨rfl, rfl⟩ := e4
      rw [Store.set_name _ _ hx0, Store.set_name _ _ hx1, Store.set_name _ _ hx2,
        Store.set_name _ _ hx3, Store.set_same, Store.set_same]
    · rw [Store.set_other _ _ e0, Store.set_other _ _ e1, Store.set_other _ _ e2,
        Store.set_other _ _ e3, Store.set_other _ _ e4, Store.set_other _ _ e3,
        Store.set_other _ _ e2, Store.set_other _ _ e1, Store.set_other _ _ e0,
        Store.set_other _ _ e4, hσ₁, Store.set_other _ _ e4]

theorem applyValue_zero {P : Parts V} (h : Homogeneous P) (d : ℕ) :
    ∀ l, applyValue P d l 0 0 = 0 := by
  have it : ∀ l n, (fun x => x - P.B l (P.A l x - 0))^[n] 0 = 0 := fun l n => by
    induction n with
    | zero => rfl
    | succ n ih => rw [Function.iterate_succ_apply]; simpa [h.A, h.B] using ih
  induction d with
  | zero => intro l; simp [applyValue, h.C]
  | succ d ih => intro l; simp only [applyValue, ite_self, it, h.A, sub_self, h.R, ih, h.RT]

/-- In preconditioner mode the result in place is zero. -/
theorem inPlaceValue_zero {P : Parts V} (h : Homogeneous P) (hp : P.isPreconditioner = true)
    (d : ℕ) (v : V 0) : inPlaceValue P d v = 0 := by
  have it : ∀ n, (fun x => x - P.B 0 (P.A 0 x - x))^[n] 0 = 0 := fun n => by
    induction n with
    | zero => rfl
    | succ n ih => rw [Function.iterate_succ_apply]; simpa [h.A, h.B] using ih
  cases d with
  | zero => simp [inPlaceValue, hp, h.C]
  | succ d =>
    simp only [inPlaceValue, hp, if_true, it, h.A, sub_self, h.R, applyValue_zero h, h.RT]

end

end Mfmg
