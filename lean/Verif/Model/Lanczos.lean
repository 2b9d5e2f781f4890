import Verif.Model.Basic
import Mathlib.Analysis.InnerProductSpace.Basic

/-!
# Model of the Lanczos eigensolver

/repo/include/mfmg/common/lanczos.templates.hpp and
/repo/include/mfmg/common/lanczos_deflatedop.templates.hpp.

Numbers are real numbers (exact arithmetic), vectors are elements of a real inner product space `E`.
Division by a zero norm, which gives NaN in C++, is the outcome `ub` here.
-/

set_option autoImplicit false

namespace Mfmg

/-! ## Eigenpairs of the tridiagonal matrix -/

section

variable {K : Type} [Field K] [LinearOrder K]

/-- `is_repeated[i]`, /repo/include/mfmg/common/lanczos.templates.hpp:354-358. -/
def isRepeated (tol : K) (ev : List K) (i : ℕ) : Bool :=
  (decide (0 < i) && decide (ev.getD i 0 ≤ ev.getD (i - 1) 0 + tol)) ||
    (decide (i + 1 < ev.length) && decide (ev.getD (i + 1) 0 ≤ ev.getD i 0 + tol))

/-- `is_marked[i]`, /repo/include/mfmg/common/lanczos.templates.hpp:360-363. -/
def isMarked (tol : K) (ev : List K) (i : ℕ) : Bool :=
  decide (i = 0) || decide (ev.getD i 0 > ev.getD (i - 1) 0 + tol)

/-- The inner loop, /repo/include/mfmg/common/lanczos.templates.hpp:398-417: the list holds
`evals2[j], evals2[j+1], …`; result: `is_spurious[i]` and the new `j_start`. -/
def scanInner (tol e : K) : List K → (j jStart : ℕ) → Bool × ℕ
  | [], _, jStart => (false, jStart)
  | x :: xs, j, jStart =>
    if x < e - tol then scanInner tol e xs (j + 1) j
    else if x > e + tol then (false, jStart)
    else (true, jStart)

/-- The outer loop, /repo/include/mfmg/common/lanczos.templates.hpp:387-418, over the pairs
(`evals[i]`, `is_repeated[i]`); result: `is_spurious`. -/
def scanOuter (tol : K) (ev2 : List K) : List (K × Bool) → (jStart : ℕ) → List Bool
  | [], _ => []
  | (e, rep) :: es, jStart =>
    if rep then false :: scanOuter tol ev2 es jStart
    else
      let r := scanInner tol e (ev2.drop jStart) jStart jStart
      r.1 :: scanOuter tol ev2 es r.2

/-- `is_spurious`, /repo/include/mfmg/common/lanczos.templates.hpp:366-419; `ev2` are the eigenvalues
of the matrix without its first row and column. -/
def spuriousFlags (tol : K) (ev ev2 : List K) (req : ℕ) : List Bool :=
  let n := ev.length
  if 1 ≤ n - 1 ∧ req ≤ n - 1 then
    scanOuter tol ev2 ((List.range n).map (fun i => (ev.getD i 0, isRepeated tol ev i))) 0
  else List.replicate n false

/-- The purge loop, /repo/include/mfmg/common/lanczos.templates.hpp:421-432, `i` iterations left:
state `evals`, the flat array `evecs_aux` and `num_available`. -/
def purgeLoop (bad : ℕ → Bool) (n : ℕ) :
    ℕ → List K × List K × ℕ → List K × List K × ℕ
  | 0, s => s
  | i + 1, (e, v, avail) =>
    if bad i then
      purgeLoop bad n i (e.eraseIdx i, v.take (n * i) ++ v.drop (n * (i + 1)), avail - 1)
    else purgeLoop bad n i (e, v, avail)

/-- One column of the result, /repo/include/mfmg/common/lanczos.templates.hpp:444-450. -/
def normaliseColumn (sqrt : K → K) (n : ℕ) (v : List K) (i : ℕ) : List K :=
  let col := (v.drop (n * i)).take n
  let norm := sqrt ((col.map (fun x => x * x)).sum)
  col.map (fun x => x / norm)

/-- `details_calc_tridiag_epairs`, /repo/include/mfmg/common/lanczos.templates.hpp:295-453.
`dstev` is the LAPACK routine (from diagonal and sub-diagonal to eigenvalues and the flat array of
eigenvectors), `sqrt` the square root.  The two size assertions (lines 303-305) are not repeated
here: the caller passes `n ≥ 1` and `n - 1` entries.  `req` is not negative. -/
def calcTridiagEpairs (sqrt : K → K) (tol2 : K) (dstev : List K → List K → List K × List K)
    (diag sub : List K) (req : ℕ) : List K × List K :=
  let n := diag.length
  if n < req then ([], []) else
  let ev := (dstev diag sub).1
  let aux := (dstev diag sub).2
  let spurious := spuriousFlags tol2 ev (dstev diag.tail sub.tail).1 req
  let bad := fun i => spurious.getD i false || !isMarked tol2 ev i
  let r := purgeLoop bad n n (ev, aux, n)
  if r.2.2 < req then ([], [])
  else (r.1.take req, (List.range req).flatMap (normaliseColumn sqrt n r.2.1))

end

/-! ## The iteration -/

section

variable {E : Type} [NormedAddCommGroup E] [InnerProductSpace ℝ E]

open scoped InnerProductSpace

/-- State of the loop of `details_solve_lanczos`: `vs` are the normalised Lanczos vectors, `w` the
one not yet normalised (`lanc_vectors[it]` at the end of iteration `it`).
The local variables of /repo/include/mfmg/common/lanczos.templates.hpp:202-219. -/
structure LanczosState (E : Type) where
  vs : List E
  w : E
  beta : ℝ
  diag : List ℝ
  sub : List ℝ

/-- Lines 201-215 of /repo/include/mfmg/common/lanczos.templates.hpp. -/
noncomputable def lanczosInit (guess : E) : LanczosState E := ⟨[], guess, ‖guess‖, [], []⟩

/-- One iteration without the convergence test,
/repo/include/mfmg/common/lanczos.templates.hpp:221-248. -/
noncomputable def lanczosStep (debug : Bool) (A : E → E) (s : LanczosState E) :
    Outcome (LanczosState E) :=
  if s.beta = 0 then (if debug then .aborted else .ub "division by zero (NaN)") else
  let v := s.beta⁻¹ • s.w
  let w := A v
  let w := match s.vs.getLast? with
    | none => w
    | some p => w + (-s.beta) • p
  let sub := match s.vs.getLast? with
    | none => s.sub
    | some _ => s.sub ++ [s.beta]
  let alpha := ⟪v, w⟫_ℝ
  let w := w + (-alpha) • v
  .ok ⟨s.vs ++ [v], w, ‖w‖, s.diag ++ [alpha], sub⟩

/-- The loop of `details_check_convergence`,
/repo/include/mfmg/common/lanczos.templates.hpp:472-476, for the pairs `i, i+1, …`. -/
noncomputable def checkLoop (beta tol : ℝ) (n : ℕ) (evecs : List ℝ) :
    (left i : ℕ) → Bool → Outcome Bool
  | 0, _, conv => .ok conv
  | left + 1, i, conv => do
    let x ← Outcome.get evecs (n - 1 + n * i) "evecs out of range"
    checkLoop beta tol n evecs left (i + 1) (conv && decide (beta * |x| ≤ tol))

/-- `details_check_convergence`, /repo/include/mfmg/common/lanczos.templates.hpp:455-479. -/
noncomputable def checkConvergence (beta : ℝ) (n req : ℕ) (tol : ℝ) (evecs : List ℝ) :
    Outcome Bool :=
  if n < req then .ok false else checkLoop beta tol n evecs req 0 true

/-- What the loop leaves behind; `tests` records the iterations at which the convergence test was
made and `converged` whether it was left by `break` (neither is a variable of the program).
/repo/include/mfmg/common/lanczos.templates.hpp:292. -/
structure LanczosResult (E : Type) where
  state : LanczosState E
  evals : List ℝ
  evecs : List ℝ
  tests : List ℕ
  converged : Bool

/-- The loop of `details_solve_lanczos`, /repo/include/mfmg/common/lanczos.templates.hpp:217-276,
with `left` iterations left until `max_iterations`; `prev` is `it_prev_check`. -/
noncomputable def lanczosLoop (debug : Bool) (A : E → E)
    (tridiag : List ℝ → List ℝ → List ℝ × List ℝ) (req : ℕ) (tol : ℝ) (pct : ℤ) (maxit : ℕ) :
    (left it prev : ℕ) → LanczosResult E → Outcome (LanczosResult E)
  | 0, _, _, r => .ok r
  | left + 1, it, prev, r => do
    let s ← lanczosStep debug A r.state
    if it = 1 ∨ it = maxit ∨ 100 * ((it : ℤ) - prev) > pct * prev then do
      let ep := tridiag s.diag s.sub
      let conv ← checkConvergence s.beta it req tol ep.2
      let r' : LanczosResult E := ⟨s, ep.1, ep.2, r.tests ++ [it], conv⟩
      if conv then .ok r'
      else lanczosLoop debug A tridiag req tol pct maxit left (it + 1) it r'
    else lanczosLoop debug A tridiag req tol pct maxit left (it + 1) prev { r with state := s }

/-- Inner loop of `details_calc_evecs`, /repo/include/mfmg/common/lanczos.templates.hpp:498-499. -/
noncomputable def calcEvecLoop (n i : ℕ) (evecs : List ℝ) : List E → (j : ℕ) → E → Outcome E
  | [], _, y => .ok y
  | v :: vs, j, y => do
    let c ← Outcome.get evecs (j + n * i) "evecs_tridiag out of range"
    calcEvecLoop n i evecs vs (j + 1) (y + c • v)

/-- `details_calc_evecs`, /repo/include/mfmg/common/lanczos.templates.hpp:481-503, for pairs
`i, i+1, …`; `vs` are the first `n` Lanczos vectors. -/
noncomputable def calcEvecs (n : ℕ) (vs : List E) (evecs : List ℝ) :
    (left i : ℕ) → Outcome (List E)
  | 0, _ => .ok []
  | left + 1, i => do
    let y ← calcEvecLoop n i evecs vs 0 0
    let ys ← calcEvecs n vs evecs left (i + 1)
    pure (y :: ys)

/-- Parameters of `details_solve_lanczos`, /repo/include/mfmg/common/lanczos.templates.hpp:186-194.
`maxit` is not negative. -/
structure LanczosParams where
  maxit : ℕ
  tol : ℝ
  pct : ℤ := 0

/-- `details_solve_lanczos`, /repo/include/mfmg/common/lanczos.templates.hpp:178-293.  At the end the
state has as many Lanczos vectors as `it` says (line 277). -/
noncomputable def solveLanczos (debug : Bool) (A : E → E)
    (tridiag : List ℝ → List ℝ → ℕ → List ℝ × List ℝ) (req : ℕ) (p : LanczosParams) (guess : E) :
    Outcome (LanczosResult E × List E) := do
  Outcome.assert debug (decide (0 ≤ p.pct ∧ p.pct < 100))
  Outcome.assert debug (decide (0 ≤ p.tol))
  Outcome.assert debug (decide (req ≤ p.maxit))
  let r ← lanczosLoop debug A (fun d s => tridiag d s req) req p.tol p.pct p.maxit p.maxit 1 0
    ⟨lanczosInit guess, [], [], [], false⟩
  Outcome.assert debug (decide (req ≤ r.state.vs.length))
  let ys ← calcEvecs r.state.vs.length r.state.vs r.evecs req 0
  pure (r, ys)

/-! ## Deflation -/

/-- `DeflatedOperator::deflate`, /repo/include/mfmg/common/lanczos_deflatedop.templates.hpp:119-126. -/
noncomputable def deflate (ds : List E) (x : E) : E :=
  ds.foldl (fun x d => x + (-⟪x, d⟫_ℝ) • d) x

/-- `DeflatedOperator::vmult`, /repo/include/mfmg/common/lanczos_deflatedop.templates.hpp:31-46. -/
noncomputable def deflatedVmult (A : E → E) (ds : List E) (x : E) : E := deflate ds (A x)

/-- `std::swap(perm[i], perm[j])`. /repo/include/mfmg/common/lanczos_deflatedop.templates.hpp:98. -/
def swapAt (p : ℕ → ℕ) (i j : ℕ) : ℕ → ℕ :=
  Function.update (Function.update p i (p j)) j (p i)

/-- Search of the longest vector, /repo/include/mfmg/common/lanczos_deflatedop.templates.hpp:87-100,
from position `j` with `left` positions left: new permutation and `dot_best`.  `v` is
`_deflation_vecs`, `p` is `perm_ind`. -/
noncomputable def searchLongest (v : ℕ → E) (i : ℕ) :
    (left j : ℕ) → (p : ℕ → ℕ) → (best : ℝ) → (ℕ → ℕ) × ℝ
  | 0, _, p, best => (p, best)
  | left + 1, j, p, best =>
    if ⟪v (p j), v (p j)⟫_ℝ > best then
      searchLongest v i left (j + 1) (swapAt p i j) ⟪v (p j), v (p j)⟫_ℝ
    else searchLongest v i left (j + 1) p best

/-- Lines 110-115 of /repo/include/mfmg/common/lanczos_deflatedop.templates.hpp: the later vectors
are made orthogonal to vector `p i`. -/
noncomputable def orthogonaliseLater (p : ℕ → ℕ) (i : ℕ) : (left j : ℕ) → (ℕ → E) → (ℕ → E)
  | 0, _, v => v
  | left + 1, j, v =>
    orthogonaliseLater p i left (j + 1)
      (Function.update v (p j) (v (p j) + (-⟪v (p i), v (p j)⟫_ℝ) • v (p i)))

/-- The loop over the new vectors, /repo/include/mfmg/common/lanczos_deflatedop.templates.hpp:85-116,
`left` iterations left out of `num`. -/
noncomputable def gramSchmidt (debug : Bool) (num : ℕ) :
    (left i : ℕ) → (p : ℕ → ℕ) → (ℕ → E) → Outcome (ℕ → E)
  | 0, _, _, v => .ok v
  | left + 1, i, p, v =>
    let r := searchLongest v i (num - i) i p (-1)
    let norm := Real.sqrt r.2
    if norm = 0 then (if debug then .aborted else .ub "division by zero (NaN)") else
    let v := Function.update v (r.1 i) (norm⁻¹ • v (r.1 i))
    gramSchmidt debug num left (i + 1) r.1
      (orthogonaliseLater r.1 i (num - (i + 1)) (i + 1) v)

/-- `DeflatedOperator::add_deflation_vecs`,
/repo/include/mfmg/common/lanczos_deflatedop.templates.hpp:57-117: `ds` is `_deflation_vecs`.  The
array is a function of the position during the computation. -/
noncomputable def addDeflationVecs (debug : Bool) (ds vecs : List E) : Outcome (List E) := do
  -- lines 64-81
  let all := ds ++ vecs.map (deflate ds)
  -- lines 83-116
  let v ← gramSchmidt debug vecs.length vecs.length 0 (fun k => ds.length + k)
    (fun k => all.getD k 0)
  pure ((List.range all.length).map v)

/-! ## The driver -/

/-- Lines 148-173 of /repo/include/mfmg/common/lanczos.templates.hpp: cut to `n` pairs, then sort if
there was more than one cycle.  `emptyVec` is the default-constructed vector, `sortPerm` is the
permutation computed by `std::sort` (any permutation that sorts). -/
def finishPairs {α : Type} (emptyVec : α) (sortPerm : List ℝ → List ℕ) (n numCycles : ℕ)
    (evals : List ℝ) (evecs : List α) : List ℝ × List α :=
  let evals := evals.take n ++ List.replicate (n - evals.length) 0
  let evecs := evecs.take n ++ List.replicate (n - evecs.length) emptyVec
  if numCycles > 1 then
    let perm := sortPerm evals
    (perm.map (fun i => evals.getD i 0), perm.map (fun i => evecs.getD i emptyVec))
  else (evals, evecs)

/-- `cycle_evals[i]`, `cycle_evecs[i]` for `i < per` (out of range is undefined),
/repo/include/mfmg/common/lanczos.templates.hpp:133-137. -/
def savePairs {α : Type} (per : ℕ) (evals : List ℝ) (evecs : List α) :
    Outcome (List ℝ × List α) :=
  if per ≤ evals.length ∧ per ≤ evecs.length then .ok (evals.take per, evecs.take per)
  else .ub "cycle_evals out of range"

/-- The loop over cycles, /repo/include/mfmg/common/lanczos.templates.hpp:111-146.  `run` is
`details_solve_lanczos` for a deflated operator and a start vector; `perturb` is
`details_set_initial_guess`. -/
noncomputable def cycleLoop (debug : Bool) (run : List E → E → Outcome (List ℝ × List E))
    (perturb : ℕ → E → E) (per numCycles : ℕ) :
    (left cycle : ℕ) → (ds : List E) → (guess : E) → List ℝ × List E → Outcome (List ℝ × List E)
  | 0, _, _, _, acc => .ok acc
  | left + 1, cycle, ds, guess, acc => do
    let guess := if cycle > 0 then perturb cycle guess else guess
    let guess := deflate ds guess
    let ep ← run ds guess
    let sv ← savePairs per ep.1 ep.2
    let acc := (acc.1 ++ sv.1, acc.2 ++ sv.2)
    if cycle ≠ numCycles - 1 then do
      let ds ← addDeflationVecs debug ds ep.2
      cycleLoop debug run perturb per numCycles left (cycle + 1) ds guess acc
    else cycleLoop debug run perturb per numCycles left (cycle + 1) ds guess acc

/-- `Lanczos::solve`, /repo/include/mfmg/common/lanczos.templates.hpp:82-176.  `deflated` holds
`num_eigenpairs_per_cycle` and `num_cycles` when `is_deflated` is set. -/
noncomputable def lanczosSolve (debug : Bool) (A : E → E)
    (tridiag : List ℝ → List ℝ → ℕ → List ℝ × List ℝ) (sortPerm : List ℝ → List ℕ)
    (perturb : ℕ → E → E) (emptyVec : E) (n : ℕ) (deflated : Option (ℕ × ℕ)) (p : LanczosParams)
    (guess : E) : Outcome (List ℝ × List E) := do
  let per := match deflated with | some (per, _) => per | none => n
  let numCycles := match deflated with | some (_, c) => c | none => 1
  Outcome.assert debug (decide (1 ≤ numCycles))
  Outcome.assert debug (decide (1 ≤ per))
  let acc ← cycleLoop debug
    (fun ds g => do
      let r ← solveLanczos debug (deflatedVmult A ds) tridiag per p g
      pure (r.1.evals, r.2))
    perturb per numCycles numCycles 0 [] guess ([], [])
  pure (finishPairs emptyVec sortPerm n numCycles acc.1 acc.2)

end

end Mfmg
