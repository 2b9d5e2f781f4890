import Mathlib.Analysis.SpecialFunctions.Sqrt
import Mathlib.LinearAlgebra.Matrix.DotProduct
import Verif.Model.Hierarchy

/-!
# Model of the standalone cycles of the program hierarchy_driver

/repo/tests/hierarchy_driver.cc, with `is preconditioner = false`, does 20 cycles and prints a rate of convergence.
Numbers are real, but the divisions can give the infinity and the NaN of IEEE 754; `l2_norm` is exact.
-/

set_option autoImplicit false

namespace Mfmg

open Matrix

/-- A nonnegative `double` as it occurs in /repo/tests/hierarchy_driver.cc:88-99 and 185-196: a number, infinity or
NaN. -/
inductive Double where
  | number (r : ℝ)
  | infinity
  | nan

namespace Double

/-- The division of nonnegative doubles (IEEE 754), used in /repo/tests/hierarchy_driver.cc:95, 99, 192 and 196. -/
noncomputable def div : Double → Double → Double
  | number x, number y => if y = 0 then (if x = 0 then nan else infinity) else number (x / y)
  | number _, infinity => number 0
  | infinity, number _ => infinity
  | infinity, infinity => nan
  | nan, _ => nan
  | _, nan => nan

end Double

variable {dims : ℕ → ℕ}

/-- `a.vmult(residual, solution); residual.sadd(-1., 1., rhs); residual.l2_norm()`,
/repo/tests/hierarchy_driver.cc:83-85, 93-95, 180-182 and 190-192. -/
noncomputable def residualNorm (A : Matrix (Fin (dims 0)) (Fin (dims 0)) ℝ) (b x : Fin (dims 0) → ℝ) : ℝ :=
  let residual := (-1 : ℝ) • A.mulVec x + (1 : ℝ) • b
  √(residual ⬝ᵥ residual)

/-- The loop over the cycles, /repo/tests/hierarchy_driver.cc:89-97 and 186-194, from cycle `i` on with `left` cycles to
go: the entries `res[i + 1]`, ...  `fresh i` is the content of the vectors that cycle `i` makes. -/
noncomputable def cyclesLoop (A : Matrix (Fin (dims 0)) (Fin (dims 0)) ℝ) (H : Hierarchy fun l => Fin (dims l) → ℝ)
    (fresh : ℕ → ∀ l, Fin (dims l) → ℝ) (b : Fin (dims 0) → ℝ) (residual0 : ℝ) :
    ℕ → ℕ → (Fin (dims 0) → ℝ) → Outcome (List Double)
  | 0, _, _ => .ok []
  | left + 1, i, x => do
    let x ← (H.vmult (fresh i) x b).result
    let rel := (Double.number (residualNorm A b x)).div (.number residual0)
    let rest ← cyclesLoop A H fresh b residual0 left (i + 1) x
    pure (rel :: rest)

/-- `n_cycles`, /repo/tests/hierarchy_driver.cc:80 and 177. -/
def nCycles : ℕ := 20

/-- The end of `matrix_based_two_grids` with `is preconditioner = false`, /repo/tests/hierarchy_driver.cc:172-199 (and of
`matrix_free_two_grids`, 75-102): the number printed as convergence rate.  The formatting (two digits after the point)
is not modelled. -/
noncomputable def driverCycles (A : Matrix (Fin (dims 0)) (Fin (dims 0)) ℝ) (H : Hierarchy fun l => Fin (dims l) → ℝ)
    (fresh : ℕ → ∀ l, Fin (dims l) → ℝ) (b x : Fin (dims 0) → ℝ) : Outcome Double := do
  let rest ← cyclesLoop A H fresh b (residualNorm A b x) nCycles 0 x
  let res := Double.number 1 :: rest
  let last ← Outcome.get res nCycles "res[n_cycles]"
  let previous ← Outcome.get res (nCycles - 1) "res[n_cycles - 1]"
  pure (last.div previous)

end Mfmg
