import Verif.Model.Lanczos
import Verif.Model.LocalEig
import Mathlib.Analysis.InnerProductSpace.PiL2

/-!
# Model of the local eigenproblems solved by the Lanczos solver

/repo/include/mfmg/dealii/amge_host.templates.hpp:164-207 and 402-404, 433-438: the start vector made by the
library, the parameters passed on, and the call of the solver.
-/

set_option autoImplicit false

namespace Mfmg

/-- The entries of `eigensolver_params` that `lanczos_compute_eigenvalues_and_eigenvectors` reads,
/repo/include/mfmg/dealii/amge_host.templates.hpp:182-193; `deflated` holds `num_eigenpairs_per_cycle` and
`num_cycles` when `is_deflated` is set.  Both must be there in that case (otherwise the look-up throws, which is
not modelled here). -/
structure LanczosOptions where
  maxIterations : Option ℕ := none
  percentOvershoot : Option ℤ := none
  deflated : Option (ℕ × ℕ) := none

/-- The parameters passed to the solver, /repo/include/mfmg/dealii/amge_host.templates.hpp:173-193. -/
noncomputable def localLanczosParams (tolerance : ℝ) (o : LanczosOptions) : LanczosParams :=
  ⟨o.maxIterations.getD 200, max tolerance 1e-4, o.percentOvershoot.getD 5⟩

/-- `vmult` of the matrix of an agglomerate with `size` dofs.
`vmult` of the patch matrix, called in /repo/include/mfmg/common/lanczos_deflatedop.templates.hpp:43. -/
noncomputable def matOp (size : ℕ) (M : ℕ → ℕ → ℝ) :
    EuclideanSpace ℝ (Fin size) →ₗ[ℝ] EuclideanSpace ℝ (Fin size) :=
  Matrix.toEuclideanLin (Matrix.of fun i j : Fin size => M i j)

/-- The start vector, /repo/include/mfmg/dealii/amge_host.templates.hpp:402-404 with `set_initial_guess`
(`setInitialGuess`): `draw` are the random numbers. -/
noncomputable def libraryGuess (size : ℕ) (constrained : ℕ → Bool) (draw : ℕ → ℝ) :
    EuclideanSpace ℝ (Fin size) :=
  WithLp.toLp 2 (fun i => (setInitialGuess constrained draw size 0 0).getD i 0)

/-- `details_set_initial_guess`, /repo/include/mfmg/common/lanczos.templates.hpp:36-49, for the cycle `cycle`,
which is also the seed; `noise seed` are the numbers drawn. -/
noncomputable def libraryNoise (size : ℕ) (noise : ℕ → ℕ → ℝ) (cycle : ℕ) (v : EuclideanSpace ℝ (Fin size)) :
    EuclideanSpace ℝ (Fin size) :=
  WithLp.toLp 2 (fun i => (1 + noise cycle i) * v i)

/-- `lanczos_compute_eigenvalues_and_eigenvectors` with the start vector made before it,
/repo/include/mfmg/dealii/amge_host.templates.hpp:164-207, 402-404 and 433-438: `n` eigenvectors of the matrix
`M`.  The tolerance inside the tridiagonal step is 5e-12 (lanczos.templates.hpp:347); `emptyVec` stands for a
default-constructed vector. -/
noncomputable def localLanczos (debug : Bool) (dstev : List ℝ → List ℝ → List ℝ × List ℝ)
    (sortPerm : List ℝ → List ℕ) (noise : ℕ → ℕ → ℝ) (size : ℕ) (M : ℕ → ℕ → ℝ) (constrained : ℕ → Bool)
    (draw : ℕ → ℝ) (emptyVec : EuclideanSpace ℝ (Fin size)) (n : ℕ) (tolerance : ℝ) (o : LanczosOptions) :
    Outcome (List ℝ × List (EuclideanSpace ℝ (Fin size))) := do
  let r ← lanczosSolve debug (matOp size M) (calcTridiagEpairs Real.sqrt 5e-12 dstev) sortPerm
    (libraryNoise size noise) emptyVec n o.deflated (localLanczosParams tolerance o)
    (libraryGuess size constrained draw)
  Outcome.assert debug (n == r.2.length)
  let es ← copyInto r.1 (List.replicate n 0)
  .ok (es, r.2)

end Mfmg
