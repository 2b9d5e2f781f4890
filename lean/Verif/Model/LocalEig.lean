import Verif.Model.Basic
import Verif.Model.Text
import Mathlib.Algebra.Field.Basic
import Mathlib.Order.Defs.LinearOrder
import Mathlib.Algebra.BigOperators.Group.List.Basic

/-!
# Model of the local eigenvalue computations

Initial guesses and `compute_local_eigenvectors` on the host,
/repo/include/mfmg/dealii/amge_host.templates.hpp:164-483, and `AnasaziSolver::solve`,
/repo/include/mfmg/dealii/anasazi.templates.hpp:36-105.  Numbers are elements of a field, matrices are
functions of two indices, vectors are lists.
-/

set_option autoImplicit false

namespace Mfmg

section

variable {K : Type} [Field K]

/-! ### Initial guesses -/

/-- `DealIIMeshEvaluator::set_initial_guess`, /repo/source/dealii/dealii_mesh_evaluator.cc:43-55, from
dof `i` on; `draw` is the stream of random numbers, `used` of which have been drawn. -/
def setInitialGuess (constrained : ℕ → Bool) (draw : ℕ → K) : (left i used : ℕ) → List K
  | 0, _, _ => []
  | left + 1, i, used =>
    if constrained i then 0 :: setInitialGuess constrained draw left (i + 1) used
    else draw used :: setInitialGuess constrained draw left (i + 1) (used + 1)

/-- `details_set_initial_guess`, /repo/include/mfmg/common/lanczos.templates.hpp:36-49 (and its device
twin 51-71). -/
def lanczosNoise (draw : ℕ → K) (v : List K) : List K := v.mapIdx (fun i x => (1 + draw i) * x)

variable [DecidableEq K]

/-- Entry `i` of one start vector, /repo/include/mfmg/dealii/amge_host.templates.hpp:248-264; `g` is
entry `i` of the user's guess. -/
def mergeEntry (g : K) (i : ℕ) (v : List K) : Outcome (List K) := do
  let x ← Outcome.get v i "(*lobpcg_initial_guess[j])[i]"
  if g = 0 then .ok (v.set i 0)
  else if x = 0 then .ok (v.set i g)
  else .ok v

/-- `mapM` for `Outcome`, from left to right.
Such as the loops /repo/include/mfmg/dealii/amge_host.templates.hpp:250-253 and 257-263. -/
def mapOutcome {α β : Type} (f : α → Outcome β) : List α → Outcome (List β)
  | [] => .ok []
  | a :: l => do
    let b ← f a
    let bs ← mapOutcome f l
    .ok (b :: bs)

/-- The loop over the entries, /repo/include/mfmg/dealii/amge_host.templates.hpp:246-265, from entry
`i` on. -/
def mergeLoop : (guess : List K) → (i : ℕ) → List (List K) → Outcome (List (List K))
  | [], _, vs => .ok vs
  | g :: rest, i, vs => do
    let vs ← mapOutcome (mergeEntry g i) vs
    mergeLoop rest (i + 1) vs

/-- The start vectors for LOBPCG, /repo/include/mfmg/dealii/amge_host.templates.hpp:223-266. -/
def lobpcgGuess (n : ℕ) (guess : List K) (stored : List (List K)) : Outcome (List (List K)) :=
  match stored with
  | [] => .ok [guess]
  | v :: _ =>
    if v.length ≠ guess.length then .ok [guess]
    else do
      let copies ← mapOutcome (fun i => Outcome.get stored i "lobpcg_vectors[i]") (List.range n)
      mergeLoop guess 0 copies

/-! ### Extraction of the eigenpairs -/

/-- The loop of `AnasaziSolver::solve`, /repo/include/mfmg/dealii/anasazi.templates.hpp:97-102, from
pair `i` on, on the two result vectors. -/
def extractLoop (solution : List (List K)) : (evals : List K) → (i : ℕ) →
    List K × List (List K) → Outcome (List K × List (List K))
  | [], _, r => .ok r
  | l :: rest, i, (es, vs) =>
    if es.length ≤ i then .ub "evals[i]"
    else do
      let v ← Outcome.get solution i "(*solution.Evecs)[i]"
      extractLoop solution rest (i + 1) (es.set i l, vs.set i v)

/-- The end of `AnasaziSolver::solve`, /repo/include/mfmg/dealii/anasazi.templates.hpp:88-104:
`requested` is the number of eigenvectors asked for, `numVecs`, `evals`, `evecs` what Anasazi
reports (real eigenvalues only, the check in line 99 is left out). -/
def anasaziExtract (requested numVecs : ℕ) (evals : List K) (evecs : List (List K)) :
    Outcome (List K × List (List K)) :=
  let num := min numVecs requested
  extractLoop evecs evals 0 (List.replicate num 0, List.replicate num [])

/-! ### The matrix-based computation -/

/-- `diag_element(i) = x`.
Called in /repo/include/mfmg/dealii/amge_host.templates.hpp:388, 393 and 475. -/
def setDiag (M : ℕ → ℕ → K) (i : ℕ) (x : K) : ℕ → ℕ → K :=
  fun r c => if r = i ∧ c = i then x else M r c

/-- The diagonal, /repo/include/mfmg/dealii/amge_host.templates.hpp:379-382. -/
def diagElements (size : ℕ) (A : ℕ → ℕ → K) : List K := (List.range size).map (fun i => A i i)

/-- The mean of the diagonal, /repo/include/mfmg/dealii/amge_host.templates.hpp:385-386. -/
def averageDiagonal (size : ℕ) (A : ℕ → ℕ → K) : K := (diagElements size A).sum / (size : K)

/-- The matrix handed to the eigensolver, /repo/include/mfmg/dealii/amge_host.templates.hpp:387-394; `constrained`
are the constrained dofs. -/
def shiftedMatrix (size : ℕ) (A : ℕ → ℕ → K) (constrained : List ℕ) : ℕ → ℕ → K :=
  let avg := averageDiagonal size A
  let M := (List.range size).foldl (fun M i => setDiag M i (M i i + avg)) A
  constrained.foldl (fun M c => setDiag M c 200) M

/-- The eigensolvers: what ARPACK writes to the result vectors, what Lanczos and Anasazi return, and
what LAPACK finds between the bounds.  A pair of lists of eigenvalues and eigenvectors each.
They are called in /repo/include/mfmg/dealii/amge_host.templates.hpp:396-471. -/
structure EigenSolvers (K : Type) where
  arpack : (ℕ → ℕ → K) → List K × List (List K)
  lanczos : (ℕ → ℕ → K) → List K × List (List K)
  anasazi : (ℕ → ℕ → K) → List K × List (List K)
  lapack : (ℕ → ℕ → K) → List K × List (List K)

/-- `std::copy(src.begin(), src.end(), dst.begin())`; writing past the end of `dst` is undefined.
/repo/include/mfmg/dealii/amge_host.templates.hpp:204-206 and 273-274. -/
def copyInto (src dst : List K) : Outcome (List K) :=
  if dst.length < src.length then .ub "std::copy past the end"
  else .ok (src ++ dst.drop src.length)

/-- The end of the Lanczos and Anasazi branches,
/repo/include/mfmg/dealii/amge_host.templates.hpp:198-206 and 267-275. -/
def takeIterative (debug : Bool) (n : ℕ) (r : List K × List (List K)) (eigenvalues : List K) :
    Outcome (List K × List (List K)) := do
  Outcome.assert debug (n == r.2.length)
  let es ← copyInto r.1 eigenvalues
  .ok (es, r.2)

/-- The LAPACK branch, /repo/include/mfmg/dealii/amge_host.templates.hpp:446-467: the first `n` pairs
found. -/
def takeLapack (n : ℕ) (r : List K × List (List K)) : Outcome (List K × List (List K)) :=
  if r.1.length < n ∨ r.2.length < n then .ub "lapack_eigenvalues[i]"
  else .ok (r.1.take n, r.2.take n)

/-- The choice of the eigensolver in the matrix-based `compute_local_eigenvectors`,
/repo/include/mfmg/dealii/amge_host.templates.hpp:396-472; `M` is the shifted matrix. -/
def solveMatrixBased (debug : Bool) (name : List Char) (n size : ℕ) (M : ℕ → ℕ → K)
    (S : EigenSolvers K) : Outcome (List K × List (List K)) :=
  let eigenvalues : List K := List.replicate n 0
  let eigenvectors : List (List K) := List.replicate n (List.replicate size 0)
  if name = chars! "arpack" then .ok (S.arpack M)
  else if name = chars! "lanczos" then takeIterative debug n (S.lanczos M) eigenvalues
  else if name = chars! "anasazi" then takeIterative debug n (S.anasazi M) eigenvalues
  else if name = chars! "lapack" then takeLapack n (S.lapack M)
  else do
    Outcome.assert debug false
    .ok (eigenvalues, eigenvectors)

/-- `compute_local_eigenvectors`, matrix-based,
/repo/include/mfmg/dealii/amge_host.templates.hpp:350-483, without the mesh: eigenvalues,
eigenvectors and diagonal. -/
def localMatrixBased (debug : Bool) (type : Option (List Char)) (n size : ℕ) (A : ℕ → ℕ → K)
    (constrained : List ℕ) (S : EigenSolvers K) : Outcome (List K × List (List K) × List K) := do
  let r ← solveMatrixBased debug (type.getD (chars! "arpack")) n size
    (shiftedMatrix size A constrained) S
  .ok (r.1.map (fun l => l - averageDiagonal size A), r.2, diagElements size A)

/-- The choice of the eigensolver in the matrix-free `compute_local_eigenvectors`,
/repo/include/mfmg/dealii/amge_host.templates.hpp:304-337. -/
def solveMatrixFree (debug : Bool) (name : List Char) (n size : ℕ) (A : ℕ → ℕ → K)
    (S : EigenSolvers K) : Outcome (List K × List (List K)) :=
  let eigenvalues : List K := List.replicate n 0
  let eigenvectors : List (List K) := List.replicate n (List.replicate size 0)
  if name = chars! "lanczos" then takeIterative debug n (S.lanczos A) eigenvalues
  else if name = chars! "anasazi" then takeIterative debug n (S.anasazi A) eigenvalues
  else if name = chars! "arpack" then
    .throws "ARPACK not available as eigensolver in matrix-free mode"
  else if name = chars! "lapack" then
    .throws "LAPACK not available as eigensolver in matrix-free mode"
  else do
    Outcome.assert debug false
    .ok (eigenvalues, eigenvectors)

/-- `compute_local_eigenvectors`, matrix-free,
/repo/include/mfmg/dealii/amge_host.templates.hpp:278-348: the operator is `A` as it is; `diag` are
the diagonal elements it reports. -/
def localMatrixFree (debug : Bool) (type : Option (List Char)) (n size : ℕ)
    (A : ℕ → ℕ → K) (diag : List K) (S : EigenSolvers K) :
    Outcome (List K × List (List K) × List K) := do
  let r ← solveMatrixFree debug (type.getD (chars! "lanczos")) n size A S
  .ok (r.1, r.2, diag)

end

end Mfmg
