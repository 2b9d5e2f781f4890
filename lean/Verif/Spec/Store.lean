import Verif.Model.Store

/-!
# Specification: what an application of a hierarchy does to the vectors of a program
-/

set_option autoImplicit false

namespace Mfmg.Spec

open Mfmg

variable {V : ℕ → Type} [∀ l, AddCommGroup (V l)]

/-- `P` are the parts of the hierarchy `H`: the operators, smoothers that subtract the preconditioned
residual, restrictors and the coarse solver (which is started from zero unless the hierarchy has one level and
is no preconditioner). -/
structure MadeOf (H : Hierarchy V) (P : Parts V) : Prop where
  pos : 0 < H.numLevels
  levels : P.numLevels = H.numLevels
  preconditioner : P.isPreconditioner = H.isPreconditioner
  steps : P.nSmoothingSteps = H.nSmoothingSteps
  operator : ∀ l < H.numLevels, ∃ o, (H.level l).operator = some o ∧ ∀ x, o.fwd x = P.A l x
  smoother : ∀ l, l + 1 < H.numLevels → ∃ s, (H.level l).smoother = some s ∧
    ∀ b x, s b x = x - P.B l (P.A l x - b)
  restrictor : ∀ l, l + 1 < H.numLevels → ∃ r : Op (V l) (V (l + 1)),
    (H.level (l + 1)).restrictor = some r ∧ (∀ x, r.fwd x = P.R l x) ∧ ∀ y, r.trans y = P.RT l y
  solver : ∃ s, (H.level (H.numLevels - 1)).solver = some s ∧
    ∀ b x, (1 < H.numLevels ∨ H.isPreconditioner = true → x = 0) → s b x = P.C (H.numLevels - 1) b x

omit [∀ l, AddCommGroup (V l)] in
/-- `τ` is `σ` except that the vector `x` of the finest level has the content `v`. -/
structure OnlyChanged (σ τ : Store V) (x : VecName) (v : V 0) : Prop where
  value : τ 0 x = some v
  others : ∀ l a, ¬ (l = 0 ∧ a = x) → τ l a = σ l a

/-- Every part gives zero for zero. -/
structure Homogeneous (P : Parts V) : Prop where
  A : ∀ l, P.A l 0 = 0
  B : ∀ l, P.B l 0 = 0
  R : ∀ l, P.R l 0 = 0
  RT : ∀ l, P.RT l 0 = 0
  C : ∀ l, P.C l 0 0 = 0

/-- The orders in which the statements of several threads can be executed: `Interleaving p s` says that `s` is
made of the lists `p i`, each in its own order. -/
inductive Interleaving {ι α : Type} [DecidableEq ι] : (ι → List α) → List (ι × α) → Prop
  | done (p : ι → List α) : (∀ i, p i = []) → Interleaving p []
  | step (p : ι → List α) (i : ι) (a : α) (rest : List α) (s : List (ι × α)) : p i = a :: rest →
      Interleaving (Function.update p i rest) s → Interleaving p ((i, a) :: s)

omit [∀ l, AddCommGroup (V l)] in
/-- Two threads access the same thing and one of them writes to it: the behaviour of a C++ program that does
this without synchronisation is undefined. -/
def DataRace (p q : List (VStmt V)) : Prop :=
  ∃ s ∈ p, ∃ s' ∈ q, ∃ c, (c ∈ s.writes ∧ c ∈ s'.accesses) ∨ (c ∈ s.accesses ∧ c ∈ s'.writes)

end Mfmg.Spec
