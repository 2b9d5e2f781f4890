import Verif.Model.Hierarchy
import Mathlib.Algebra.Field.Basic
import Mathlib.Algebra.Module.LinearMap.End

/-!
# Specification: textbook multigrid

`TextbookCycle` is written with the usual positive residual `b - A x`, without reference to the
control flow of the code.
-/

set_option autoImplicit false

namespace Mfmg.Spec

open Mfmg

variable {K : Type} [Field K] {V : ℕ → Type} [∀ l, AddCommGroup (V l)] [∀ l, Module K (V l)]

/-- The linear-algebra content of a hierarchy: operators `A`, smoother preconditioners `B`,
restrictions `R`, prolongations `P`, coarse solve `C`. -/
structure Data (K : Type) [Field K] (V : ℕ → Type) [∀ l, AddCommGroup (V l)]
    [∀ l, Module K (V l)] where
  A : ∀ l, V l →ₗ[K] V l
  B : ∀ l, V l →ₗ[K] V l
  R : ∀ l, V l →ₗ[K] V (l + 1)
  P : ∀ l, V (l + 1) →ₗ[K] V l
  C : ∀ l, V l →ₗ[K] V l

/-- One smoothing step `x + B (b - A x)`. -/
def richardson (D : Data K V) (l : ℕ) (b x : V l) : V l := x + D.B l (b - D.A l x)

/-- Textbook V-cycle with `n` pre- and post-smoothing steps on `d + 1` levels starting at
level `l`, from initial guess `x` (the coarsest solve ignores the guess). -/
def cycle (D : Data K V) (n : ℕ) : (d l : ℕ) → (b x : V l) → V l
  | 0, l, b, _ => D.C l b
  | d + 1, l, b, x =>
    let x₁ := (richardson D l b)^[n] x
    let x₂ := x₁ + D.P l (cycle D n d (l + 1) (D.R l (b - D.A l x₁)) 0)
    (richardson D l b)^[n] x₂

/-- `H` is a hierarchy made of the linear maps `D`: every level has an operator acting as `A`;
every level but the last has a smoother performing `x - B (A x - b)` and, on the next level, a
restrictor acting as `R` with transpose action `P`; the coarse solver started from zero acts
as `C`. -/
structure IsLinear (H : Hierarchy V) (D : Data K V) : Prop where
  pos : 0 < H.numLevels
  operator : ∀ l < H.numLevels, ∃ o, (H.level l).operator = some o ∧ ∀ x, o.fwd x = D.A l x
  smoother : ∀ l, l + 1 < H.numLevels → ∃ s, (H.level l).smoother = some s ∧
    ∀ b x, s b x = x - D.B l (D.A l x - b)
  restrictor : ∀ l, l + 1 < H.numLevels → ∃ r : Op (V l) (V (l + 1)),
    (H.level (l + 1)).restrictor = some r ∧ (∀ x, r.fwd x = D.R l x) ∧ ∀ y, r.trans y = D.P l y
  solver : ∃ s, (H.level (H.numLevels - 1)).solver = some s ∧
    ∀ b, s b 0 = D.C (H.numLevels - 1) b

end Mfmg.Spec

namespace Mfmg.Spec

open Mfmg

variable {V : ℕ → Type}

/-- Every level is completely and uniquely populated: operators everywhere, smoothers exactly on
the levels that have a coarser one, restrictors exactly on the levels that have a finer one, and a
coarse solver exactly on the last level. -/
structure Populated (H : Hierarchy V) : Prop where
  pos : 0 < H.numLevels
  operator : ∀ l < H.numLevels, (H.level l).operator.isSome
  smoother : ∀ l < H.numLevels, ((H.level l).smoother.isSome ↔ l + 1 < H.numLevels)
  restrictor : ∀ l < H.numLevels, ((H.level l).restrictor.isSome ↔ 0 < l)
  solver : ∀ l < H.numLevels, ((H.level l).solver.isSome ↔ l + 1 = H.numLevels)

variable [∀ l, AddCommGroup (V l)]

/-- Zero is a fixed point of every component for a zero right-hand side. -/
structure FixesZero (H : Hierarchy V) : Prop where
  operator : ∀ l o, (H.level l).operator = some o → o.fwd 0 = 0
  smoother : ∀ l s, (H.level l).smoother = some s → s 0 0 = 0
  restrict : ∀ l r, (H.level l).restrictor = some r → r.fwd 0 = 0
  prolong : ∀ l r, (H.level l).restrictor = some r → r.trans 0 = 0
  solver : ∀ l s, (H.level l).solver = some s → s 0 0 = 0

/-- Timer semantics (deal.II `TimerOutput`): a stack of active sections.  `none` = a section was
entered while active, or left while none was active. -/
def timerStep : Option (List String) → Event → Option (List String)
  | some st, .enter s => if s ∈ st then none else some (s :: st)
  | some (_ :: st), .leave => some st
  | some [], .leave => none
  | none, _ => none
  | st, _ => st

/-- The active sections after a trace. -/
def timerRun (st : List String) (t : List Event) : Option (List String) :=
  t.foldl timerStep (some st)

/-- The same stack without the check for re-entry. -/
def timerStepLax : Option (List String) → Event → Option (List String)
  | some st, .enter s => some (s :: st)
  | some (_ :: st), .leave => some st
  | some [], .leave => none
  | none, _ => none
  | st, _ => st

@[inherit_doc timerStepLax]
def timerRunLax (st : List String) (t : List Event) : Option (List String) :=
  t.foldl timerStepLax (some st)

end Mfmg.Spec
