import Verif.Model.DeviceCsr
import Verif.Model.Permute
import Mathlib.Data.Nat.Basic

/-!
# Model of the conversion to the AMGX format

`csr_to_amgx`, /repo/source/cuda/utils.cu:206-303, and the vector reordering of `amgx_solve`,
/repo/source/cuda/cuda_solver.cu:108-200.
-/

set_option autoImplicit false

namespace Mfmg

/-- A `std::unordered_map<int, int>`: its elements in the order of iteration (which C++ leaves
unspecified; see `amgxToSolver`). /repo/source/cuda/utils.cu:234 and 257. -/
abbrev UMap := List (ℕ × ℕ)

/-- `m[k] = v`. /repo/source/cuda/utils.cu:236, 247, 264, 269. -/
def UMap.assign (m : UMap) (k v : ℕ) : UMap := m.filter (fun e => e.1 ≠ k) ++ [(k, v)]

/-- The value of `m[k]`; a missing key has the value 0 (`operator[]` value-initialises it; that it
also inserts the key is not modelled, the code never iterates over a map read with a missing key).
/repo/source/cuda/utils.cu:252, 277, 281. -/
def UMap.at (m : UMap) (k : ℕ) : ℕ := (m.lookup k).getD 0

/-- `cusparseXcsr2coo`, called at /repo/source/cuda/utils.cu:217-219: the row of every entry. -/
def csr2coo (n : ℕ) (rowPtr : List ℕ) : List ℕ :=
  (List.range n).flatMap fun i => List.replicate (rowPtr.getD (i + 1) 0 - rowPtr.getD i 0) i

/-- `cusparseXcoo2csr`, called at /repo/source/cuda/utils.cu:295-297, on sorted row indices: entry `i`
is the number of entries in the rows before `i`. -/
def coo2csr (n : ℕ) (rows : List ℕ) : List ℕ :=
  (List.range (n + 1)).map fun i => rows.countP (fun r => decide (r < i))

/-- The loop /repo/source/cuda/utils.cu:235-236: owned rows keep their position. -/
def ownedMap (owned : List ℕ) : UMap :=
  (List.range owned.length).foldl (fun m i => m.assign (owned.getD i 0) i) []

/-- The indices of a `dealii::IndexSet` of size `n` to which `l` has been added, in the order of
iteration: increasing, without repetition. /repo/source/cuda/utils.cu:239-241. -/
def indexSet (n : ℕ) (l : List ℕ) : List ℕ := (List.range n).filter (fun i => decide (i ∈ l))

/-- The loop /repo/source/cuda/utils.cu:242-250: columns not owned get the numbers from `next` on. -/
def haloLoop (owned : List ℕ) : List ℕ → UMap × ℕ → UMap × ℕ
  | [], s => s
  | g :: gs, (m, next) =>
    if g ∈ owned then haloLoop owned gs (m, next)
    else haloLoop owned gs (m.assign g next, next + 1)

/-- `halo_map`, /repo/source/cuda/utils.cu:234-250, for a matrix with `nGlobal` columns. -/
def haloMap (nGlobal : ℕ) (owned cols : List ℕ) : UMap :=
  (haloLoop owned (indexSet nGlobal cols) (ownedMap owned, owned.length)).1

/-- `local_map`, /repo/source/cuda/utils.cu:256-272: the rows `i, i+1, …` with the two counters.
`sent` are the elements of the `unordered_set` `rows_sent`. -/
def localLoop (sent : List ℕ) : (left i nextLocal nextSent : ℕ) → UMap → UMap
  | 0, _, _, _, m => m
  | left + 1, i, nextLocal, nextSent, m =>
    if i ∈ sent then localLoop sent left (i + 1) nextLocal (nextSent + 1) (m.assign i nextSent)
    else localLoop sent left (i + 1) (nextLocal + 1) nextSent (m.assign i nextLocal)

/-- `local_map`, /repo/source/cuda/utils.cu:256-272.  `strictly_owned_rows` is `n - rows_sent.size()`;
more sent rows than rows (a negative number in C++) is not modelled. -/
def localMap (n : ℕ) (sent : List ℕ) : UMap := localLoop sent n 0 0 (n - sent.length) []

/-- The column renumbering of /repo/source/cuda/utils.cu:251-252 followed by 274-278. -/
def amgxColumn (halo loc : UMap) (n : ℕ) (g : ℕ) : ℕ :=
  if halo.at g < n then loc.at (halo.at g) else halo.at g

/-- `apply_permutation_in_place` with as many iterations of the inner loop as it can need.
Called at /repo/source/cuda/utils.cu:285-287. -/
def applyPerm {α : Type} (perm : List ℕ) (v : List α) : Outcome (List α) :=
  match applyPermutation perm v.length v with
  | some o => o
  | none => .ub "endless loop"

/-- `csr_to_amgx`, /repo/source/cuda/utils.cu:206-303: the two maps and the new content of the matrix
on one process.  `owned` are the locally owned rows in increasing order. -/
def csrToAmgx {K : Type} (debug : Bool) (sort : (ℕ → ℕ → Bool) → List ℕ → List ℕ) (nGlobal : ℕ)
    (owned sent : List ℕ) (a : Csr K) : Outcome (UMap × UMap × Csr K) := do
  let n := owned.length
  let rowIndex := csr2coo n a.rowPtr
  let halo := haloMap nGlobal owned a.col
  let loc := localMap n sent
  let col := a.col.map (amgxColumn halo loc n)
  let row := rowIndex.map loc.at
  let perm ← sortPermutation debug sort row col
  let val' ← applyPerm perm a.val
  let col' ← applyPerm perm col
  let row' ← applyPerm perm row
  pure (halo, loc, { val := val', col := col', rowPtr := coo2csr n row' })

section

variable {K : Type}

/-- The loop /repo/source/cuda/cuda_solver.cu:126-127 (and 177-178): `val[pos.second] = tmp[pos.first]`
over the elements of the map in the order of iteration. -/
def amgxToSolver (rowMap : UMap) (b : List K) : Outcome (List K) :=
  rowMap.foldlM (fun v pos => do
    let t ← Outcome.get b pos.1 "tmp[pos.first]"
    if pos.2 < v.length then pure (v.set pos.2 t) else .ub "val_host[pos.second]") b

/-- The loop /repo/source/cuda/cuda_solver.cu:147-148 (and 198-199): `x[pos.first] = tmp[pos.second]`.
`x` is the vector written to: the solution itself on the device, the caller's vector on the host. -/
def amgxFromSolver (rowMap : UMap) (sol : List K) (x : List K) : Outcome (List K) :=
  rowMap.foldlM (fun v pos => do
    let t ← Outcome.get sol pos.2 "tmp[pos.second]"
    if pos.1 < v.length then pure (v.set pos.1 t) else .ub "x[pos.first]") x

/-- `amgx_solve` for device vectors, /repo/source/cuda/cuda_solver.cu:108-152.  `solve b x` stands for
upload, `AMGX_solver_solve` with initial guess `x` and download.  Returns the final content of `b` and
of `x`: the reordered right-hand side is copied back into `b` (line 128). -/
def amgxSolveDevice (rowMap : UMap) (solve : List K → List K → List K) (b x : List K) :
    Outcome (List K × List K) := do
  let b' ← amgxToSolver rowMap b
  let sol := solve b' x
  let x' ← amgxFromSolver rowMap sol sol
  pure (b', x')

/-- `amgx_solve` for host vectors, /repo/source/cuda/cuda_solver.cu:154-200.  The initial guess is the
device vector just created, filled with `zero`; `b` is not written. -/
def amgxSolveHost (rowMap : UMap) (zero : K) (solve : List K → List K → List K) (b x : List K) :
    Outcome (List K × List K) := do
  let b' ← amgxToSolver rowMap b
  let sol := solve b' (List.replicate b.length zero)
  let x' ← amgxFromSolver rowMap sol x
  pure (b, x')

end

end Mfmg
