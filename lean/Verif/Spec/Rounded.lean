import Verif.Model.Rounded
import Verif.Spec.Multigrid
import Mathlib.Analysis.Normed.Group.Seminorm
import Mathlib.Algebra.BigOperators.Group.List.Basic
import Mathlib.Analysis.Normed.Group.Constructions
import Mathlib.LinearAlgebra.Matrix.ToLin
import Mathlib.Analysis.Normed.Field.Basic

/-!
# Specification: rounded operations
-/

set_option autoImplicit false

namespace Mfmg

/-- The standard model of floating-point arithmetic: every operation has a relative error of at most
`u`; in `s + a x` the product may be rounded as well. -/
structure Arith.Standard (ar : Arith) (u : ℝ) : Prop where
  nonneg : 0 ≤ u
  add : ∀ a b, ∃ δ, |δ| ≤ u ∧ ar.add a b = (a + b) * (1 + δ)
  sub : ∀ a b, ∃ δ, |δ| ≤ u ∧ ar.sub a b = (a - b) * (1 + δ)
  mul : ∀ a b, ∃ δ, |δ| ≤ u ∧ ar.mul a b = (a * b) * (1 + δ)
  div : ∀ a b, ∃ δ, |δ| ≤ u ∧ ar.div a b = (a / b) * (1 + δ)
  muladd : ∀ s a x, ∃ δ ε, |δ| ≤ u ∧ |ε| ≤ u ∧ ar.muladd s a x = (s + a * x * (1 + δ)) * (1 + ε)

open Spec

variable {V : ℕ → Type} [∀ l, AddCommGroup (V l)] [∀ l, Module ℝ (V l)]

/-- The exact maps of a hierarchy with `L` levels are bounded by `K` in the norms `N`. -/
structure Spec.Bounded (N : ∀ l, AddGroupSeminorm (V l)) (D : Data ℝ V) (L : ℕ) (K : ℝ) : Prop where
  nonneg : 0 ≤ K
  A : ∀ l < L, ∀ x, N l (D.A l x) ≤ K * N l x
  B : ∀ l, l + 1 < L → ∀ x, N l (D.B l x) ≤ K * N l x
  R : ∀ l, l + 1 < L → ∀ x, N (l + 1) (D.R l x) ≤ K * N l x
  P : ∀ l, l + 1 < L → ∀ x, N l (D.P l x) ≤ K * N (l + 1) x
  C : ∀ l, l + 1 = L → ∀ x, N l (D.C l x) ≤ K * N l x

/-- The components of the hierarchy `H` and the subtraction compute what the linear maps `D` say, up to
an error of `c` relative to the size of their arguments. -/
structure Spec.Computes (N : ∀ l, AddGroupSeminorm (V l)) (D : Data ℝ V) (c : ℝ)
    (sub : ∀ l, V l → V l → V l) (H : Hierarchy V) : Prop where
  pos : 0 < H.numLevels
  sub : ∀ l x y, N l (sub l x y - (x - y)) ≤ c * (N l x + N l y)
  operator : ∀ l < H.numLevels, ∃ o, (H.level l).operator = some o ∧
    ∀ x, N l (o.fwd x - D.A l x) ≤ c * N l x
  smoother : ∀ l, l + 1 < H.numLevels → ∃ s, (H.level l).smoother = some s ∧
    ∀ b x, N l (s b x - richardson D l b x) ≤ c * (N l b + N l x)
  restrictor : ∀ l, l + 1 < H.numLevels → ∃ r : Op (V l) (V (l + 1)),
    (H.level (l + 1)).restrictor = some r ∧
    (∀ x, N (l + 1) (r.fwd x - D.R l x) ≤ c * N l x) ∧
    ∀ y, N l (r.trans y - D.P l y) ≤ c * N (l + 1) y
  solver : ∃ s, (H.level (H.numLevels - 1)).solver = some s ∧
    ∀ b, N (H.numLevels - 1) (s b 0 - D.C (H.numLevels - 1) b) ≤ c * N (H.numLevels - 1) b

/-- The matrix with the given rows. -/
def Arith.rowsMatrix {m n : ℕ} (rows : Fin m → Arith.Row n) : Matrix (Fin m) (Fin n) ℝ :=
  fun i j => ((rows i).map (fun e => if e.1 = j then e.2 else 0)).sum

/-- The exact maps of `Arith.hierarchy`: products with the matrices, their transposes and the inverse
diagonal. -/
noncomputable def Arith.exactData {dims : ℕ → ℕ} (A : ∀ l, Fin (dims l) → Arith.Row (dims l))
    (R : ∀ l, Fin (dims (l + 1)) → Arith.Row (dims l)) (inv : ∀ l, Fin (dims l) → ℝ)
    (C : ∀ l, Matrix (Fin (dims l)) (Fin (dims l)) ℝ) : Data ℝ (fun l => Fin (dims l) → ℝ) where
  A l := (Arith.rowsMatrix (A l)).mulVecLin
  B l := (Matrix.diagonal (inv l)).mulVecLin
  R l := (Arith.rowsMatrix (R l)).mulVecLin
  P l := (Arith.rowsMatrix (R l)).transpose.mulVecLin
  C l := (C l).mulVecLin

/-- The largest absolute value of the components. -/
noncomputable def maxNorm (dims : ℕ → ℕ) (l : ℕ) : AddGroupSeminorm (Fin (dims l) → ℝ) :=
  normAddGroupSeminorm (Fin (dims l) → ℝ)

end Mfmg
