import Verif.Model.Hierarchy
import Mathlib.Data.Matrix.Mul

/-!
# The hierarchy as a preconditioner of the conjugate gradient method

/repo/tests/hierarchy_driver.cc, the program distributed with the library for trying out parameters, hands the
hierarchy to `dealii::SolverCG`.  deal.II is not part of /repo; its solver is modelled here from its
documentation: the usual algorithm, in exact arithmetic, with the checks `SolverControl` makes.
-/

set_option autoImplicit false

namespace Mfmg

section

variable {K : Type} [Field K] [LinearOrder K] {n : ℕ}

/-- The error `SolverCG` reports when a divisor is zero: an exception in debug builds; in release builds `0 / 0`
is not a number, which makes `SolverControl` give up.
In the calls at /repo/tests/hierarchy_driver.cc:111-112 and 208-209. -/
def cgDivisionByZero {α : Type} (debug : Bool) : Outcome α :=
  if debug then .throws "ExcDivideByZero" else .throws "SolverControl::NoConvergence"

/-- The loop of `dealii::SolverCG::solve`, called in /repo/tests/hierarchy_driver.cc:111-114 and 208-211.
`remaining` counts the steps `SolverControl` still allows, `it` those made.  `x` is the iterate, `g` the
residual `A x - b`, `d` the direction, `gh` the product of `g` with the preconditioned residual.  `prec i h g`
is the `i`-th call of `Hierarchy::vmult(h, g)`, where `h` still holds `A d`.  `tol2` is the square of
`solver.tolerance` (the code compares norms).  Returns the iterate and the number of steps. -/
def cgLoop (debug : Bool) (A : Matrix (Fin n) (Fin n) K)
    (prec : ℕ → (Fin n → K) → (Fin n → K) → Outcome (Fin n → K)) (tol2 : K) :
    ℕ → ℕ → (Fin n → K) → (Fin n → K) → (Fin n → K) → K → Outcome ((Fin n → K) × ℕ)
  | 0, _, _, _, _, _ => .throws "SolverControl::NoConvergence"
  | remaining + 1, it, x, g, d, gh => do
    let h := A.mulVec d
    if d ⬝ᵥ h = 0 then cgDivisionByZero debug
    else
      let alpha := gh / (d ⬝ᵥ h)
      let x := x + alpha • d
      let g := g + alpha • h
      if g ⬝ᵥ g ≤ tol2 then pure (x, it + 1)
      else if remaining = 0 then .throws "SolverControl::NoConvergence"
      else do
        let h ← prec (it + 1) h g
        if gh = 0 then cgDivisionByZero debug
        else
          let beta := (g ⬝ᵥ h) / gh
          cgLoop debug A prec tol2 remaining (it + 1) x g (beta • d - h) (g ⬝ᵥ h)

/-- `dealii::SolverCG::solve` with `SolverControl(maxSteps, tolerance)`.  `h` is the content of the solver's
temporary vector, which is not initialised.
Called at /repo/tests/hierarchy_driver.cc:111-112 and 208-209. -/
def cgSolve (debug : Bool) (A : Matrix (Fin n) (Fin n) K)
    (prec : ℕ → (Fin n → K) → (Fin n → K) → Outcome (Fin n → K)) (maxSteps : ℕ) (tol2 : K)
    (b x h : Fin n → K) : Outcome ((Fin n → K) × ℕ) := do
  let g := A.mulVec x - b
  if g ⬝ᵥ g ≤ tol2 then pure (x, 0)
  else if maxSteps = 0 then .throws "SolverControl::NoConvergence"
  else do
    let h ← prec 0 h g
    cgLoop debug A prec tol2 maxSteps 0 x g (-h) (g ⬝ᵥ h)

end

/-- The end of `matrix_based_two_grids` with `is preconditioner = true`, /repo/tests/hierarchy_driver.cc:201-214
(and of `matrix_free_two_grids`, 103-117): at most `solution.size()` steps.  `fresh i` is the content of the
vectors the `i`-th cycle makes. -/
def driverSolve {K : Type} [Field K] [LinearOrder K] {dims : ℕ → ℕ} (debug : Bool)
    (A : Matrix (Fin (dims 0)) (Fin (dims 0)) K) (H : Hierarchy fun l => Fin (dims l) → K)
    (fresh : ℕ → ∀ l, Fin (dims l) → K) (tol2 : K) (b x h : Fin (dims 0) → K) :
    Outcome ((Fin (dims 0) → K) × ℕ) :=
  cgSolve debug A (fun i h g => (H.vmult (fresh i) h g).result) (dims 0) tol2 b x h

end Mfmg
