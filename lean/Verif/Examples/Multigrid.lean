import Verif.Spec.Energy
import Mathlib.Algebra.Order.Ring.Rat
import Mathlib.Algebra.Module.Prod
import Mathlib.LinearAlgebra.BilinearMap
import Mathlib.Tactic.Ring
import Mathlib.Tactic.Linarith
import Mathlib.Tactic.NormNum

/-!
# A concrete hierarchy used to show that hypotheses are satisfiable

`ofData` builds a hierarchy from arbitrary linear maps; `exData` is a Galerkin hierarchy on
`ℚ × ℚ` with the 1D Laplacian on the finest level, Jacobi smoothers and aggregation restrictors.
-/

set_option autoImplicit false

namespace Mfmg.Example

open Mfmg Spec

/-- A hierarchy made of given linear maps. -/
def ofData {K : Type} [Field K] {V : ℕ → Type} [∀ l, AddCommGroup (V l)] [∀ l, Module K (V l)]
    (D : Data K V) (L n : ℕ) (pre timer : Bool) : Hierarchy V where
  numLevels := L
  isPreconditioner := pre
  nSmoothingSteps := n
  timer := timer
  level := fun l =>
    { operator := some ⟨D.A l, D.A l⟩
      restrictor := match l with
        | 0 => none
        | l + 1 => some ⟨D.R l, D.P l⟩
      smoother := if l + 1 < L then some (fun b x => x - D.B l (D.A l x - b)) else none
      solver := if l + 1 = L then some (fun b _ => D.C l b) else none }

theorem ofData_isLinear {K : Type} [Field K] {V : ℕ → Type} [∀ l, AddCommGroup (V l)]
    [∀ l, Module K (V l)] (D : Data K V) (L n : ℕ) (pre timer : Bool) (hL : 0 < L) :
    IsLinear (ofData D L n pre timer) D where
  pos := hL
  operator := fun _ _ => ⟨_, rfl, fun _ => rfl⟩
  smoother := fun _ hl => ⟨_, if_pos hl, fun _ _ => rfl⟩
  restrictor := fun _ _ => ⟨_, rfl, fun _ => rfl, fun _ => rfl⟩
  solver := ⟨_, if_pos (by simp only [ofData]; omega), fun _ => rfl⟩

theorem ofData_populated {K : Type} [Field K] {V : ℕ → Type} [∀ l, AddCommGroup (V l)]
    [∀ l, Module K (V l)] (D : Data K V) (L n : ℕ) (pre timer : Bool) (hL : 0 < L) :
    Populated (ofData D L n pre timer) where
  pos := hL
  operator := fun _ _ => rfl
  smoother := fun l _ => by simp only [ofData]; split <;> simp_all
  restrictor := fun l _ => by cases l <;> simp [ofData]
  solver := fun l _ => by simp only [ofData]; split <;> simp_all

theorem ofData_fixesZero {K : Type} [Field K] {V : ℕ → Type} [∀ l, AddCommGroup (V l)]
    [∀ l, Module K (V l)] (D : Data K V) (L n : ℕ) (pre timer : Bool) :
    FixesZero (ofData D L n pre timer) where
  operator := fun l o h => by simp only [ofData, Option.some.injEq] at h; subst h; simp
  smoother := fun l s h => by
    simp only [ofData] at h; split at h
    · simp only [Option.some.injEq] at h; subst h; simp
    · simp at h
  restrict := fun l r h => by
    cases l with
    | zero => simp [ofData] at h
    | succ l => simp only [ofData, Option.some.injEq] at h; subst h; simp
  prolong := fun l r h => by
    cases l with
    | zero => simp [ofData] at h
    | succ l => simp only [ofData, Option.some.injEq] at h; subst h; simp
  solver := fun l s h => by
    simp only [ofData] at h; split at h
    · simp only [Option.some.injEq] at h; subst h; simp
    · simp at h

/-- The matrix `[a b; c d]` acting on `ℚ × ℚ`. -/
def mat (a b c d : ℚ) : ℚ × ℚ →ₗ[ℚ] ℚ × ℚ where
  toFun := fun v => (a * v.1 + b * v.2, c * v.1 + d * v.2)
  map_add' := fun v w => by ext <;> simp <;> ring
  map_smul' := fun k v => by ext <;> simp <;> ring

@[simp] theorem mat_apply (a b c d : ℚ) (v : ℚ × ℚ) :
    mat a b c d v = (a * v.1 + b * v.2, c * v.1 + d * v.2) := rfl

/-- The Euclidean product. -/
def dot : (ℚ × ℚ) →ₗ[ℚ] (ℚ × ℚ) →ₗ[ℚ] ℚ :=
  LinearMap.mk₂ ℚ (fun v w => v.1 * w.1 + v.2 * w.2)
    (fun _ _ _ => by simp; ring) (fun _ _ _ => by simp; ring)
    (fun _ _ _ => by simp; ring) (fun _ _ _ => by simp; ring)

@[simp] theorem dot_apply (v w : ℚ × ℚ) : dot v w = v.1 * w.1 + v.2 * w.2 := rfl

abbrev exV : ℕ → Type := fun _ => ℚ × ℚ

/-- Finest operator `[2 -1; -1 2]`, aggregation of both unknowns, Jacobi with weight 1/4. -/
def exData : Data ℚ exV where
  A := fun l => if l = 0 then mat 2 (-1) (-1) 2 else mat 2 0 0 0
  B := fun _ => mat (1/4) 0 0 (1/4)
  R := fun _ => mat 1 1 0 0
  P := fun _ => mat 1 0 1 0
  C := fun _ => mat (1/2) 0 0 (1/2)

def exForms : Forms ℚ exV := fun _ => dot

theorem exSymmetric (L : ℕ) : Symmetric exData exForms L where
  form := fun l x y => by simp [exForms]; ring
  A := fun l _ x y => by
    simp only [exForms, exData]; split <;> simp <;> ring
  B := fun l _ x y => by simp [exForms, exData]; ring
  RP := fun l _ x y => by simp [exForms, exData]; ring
  C := fun l _ x y => by simp [exForms, exData]; ring

theorem exVariational : Variational exData exForms 3 where
  galerkin := fun l _ x => by
    by_cases hl : l = 0 <;> simp [exData, hl] ; ring
  psd := fun x => by
    simp [energy, exData, exForms]
    nlinarith [sq_nonneg (x.1 - x.2), sq_nonneg x.1, sq_nonneg x.2]
  solvable := fun l _ y => by
    refine ⟨((exData.R l (exData.A l y)).1 / 2, 0), ?_⟩
    simp [exData] ; ring
  coarse := fun l hl x => by
    have : l = 2 := by omega
    subst this
    simp [energy, exData, exForms]
    nlinarith [sq_nonneg x.1]

theorem exStrict (l : ℕ) : SmootherStrictlyConvergent exData exForms l := by
  intro x hx
  have h : x.1 ≠ 0 ∨ x.2 ≠ 0 := by
    by_contra h
    push Not at h
    exact hx (Prod.ext h.1 h.2)
  have h2 : 0 < x.1 ^ 2 + x.2 ^ 2 := by
    rcases h with h | h <;> positivity
  simp only [exData, exForms]
  split <;> simp
  · nlinarith [sq_nonneg (x.1 - x.2), sq_nonneg (x.1 + x.2), sq_nonneg x.1, sq_nonneg x.2]
  · nlinarith [sq_nonneg (x.1 - x.2), sq_nonneg (x.1 + x.2), sq_nonneg x.1, sq_nonneg x.2]

end Mfmg.Example
