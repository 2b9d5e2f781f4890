import Verif.Model.AmgxLibrary

/-!
# Specification: programs that use several coarse solvers
-/

set_option autoImplicit false

namespace Mfmg

/-- A call that a C++ program can make after the calls `h`: every construction makes a new solver, and only
solvers that exist are applied and destroyed. -/
def CoarseCall.Possible (h : List CoarseCall) : CoarseCall → Prop
  | .construct i _ => ∀ b, .construct i b ∉ h
  | .apply i => (∃ b, .construct i b ∈ h) ∧ .destruct i ∉ h
  | .destruct i => (∃ b, .construct i b ∈ h) ∧ .destruct i ∉ h

/-- The calls of a C++ program. -/
def IsProgram (h : List CoarseCall) : Prop :=
  ∀ (a : List CoarseCall) (c : CoarseCall) (b : List CoarseCall), h = a ++ c :: b → c.Possible a

/-- In the history `h` an AMGX solver `i` is destroyed after the construction of the AMGX solver `j` and
before a call `c` on `j`. -/
def Overtaken (h : List CoarseCall) (i j : ℕ) : Prop :=
  i ≠ j ∧ .construct i true ∈ h ∧
  (List.Sublist [.construct j true, .destruct i, .apply j] h ∨
    List.Sublist [.construct j true, .destruct i, .destruct j] h)

/-- At the end of `h` the AMGX solver `j` exists. -/
def AmgxExists (h : List CoarseCall) (j : ℕ) : Prop := .construct j true ∈ h ∧ .destruct j ∉ h

end Mfmg
