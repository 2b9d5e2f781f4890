import Verif.Model.Relaxation

/-!
# Model of the incomplete factorisation smoother

`DealIISmoother` with the type "ILU" (/repo/source/dealii/dealii_smoother.cc:57-62) uses the Trilinos
preconditioner `PreconditionILU` with its default data: no fill outside the graph of the matrix, no
perturbation of the diagonal, no overlap between the processes.  Exact arithmetic.  A zero pivot, for which
Trilinos divides by zero, is not modelled (`a / 0 = 0` in Lean): every theorem concerns matrices without zero
pivots or proves that there are none.
-/

set_option autoImplicit false

namespace Mfmg

variable {K : Type} [Field K] {n : ℕ}

/-- Elimination of the unknown `k` from the rows `rest`, where only entries of the graph `graph` are kept;
the `initialize` of /repo/source/dealii/dealii_smoother.cc:60-61.  Trilinos eliminates row by row instead of
column by column; the factors are the same.  The multipliers `F i k / F k k` are not stored. -/
def iluStep (graph : Fin n → Fin n → Bool) (k : Fin n) (rest : List (Fin n))
    (F : Matrix (Fin n) (Fin n) K) : Matrix (Fin n) (Fin n) K :=
  Matrix.of fun i j =>
    if i ∈ rest ∧ j ∈ rest ∧ graph i j = true then F i j - F i k / F k k * F k j else F i j

/-- The factors made by the process that owns the rows `own`,
/repo/source/dealii/dealii_smoother.cc:59-61. -/
def iluFactor (graph : Fin n → Fin n → Bool) :
    List (Fin n) → Matrix (Fin n) (Fin n) K → Matrix (Fin n) (Fin n) K
  | [], F => F
  | k :: rest, F => iluFactor graph rest (iluStep graph k rest F)

/-- Forward substitution with the lower factor, /repo/source/dealii/dealii_smoother.cc:79. -/
def iluForward (F : Matrix (Fin n) (Fin n) K) : List (Fin n) → (Fin n → K) → Fin n → K
  | [], r => r
  | k :: rest, r =>
    iluForward F rest fun i => if i ∈ rest then r i - F i k / F k k * r k else r i

/-- Backward substitution with the upper factor, /repo/source/dealii/dealii_smoother.cc:79. -/
def iluBackward (F : Matrix (Fin n) (Fin n) K) : List (Fin n) → (Fin n → K) → Fin n → K
  | [], _ => 0
  | k :: rest, y =>
    let x := iluBackward F rest y
    Function.update x k ((y k - (rest.map fun j => F k j * x j).sum) / F k k)

/-- The preconditioner on the process that owns the rows `own`; the `vmult` of
/repo/source/dealii/dealii_smoother.cc:79. -/
def iluLocal (graph : Fin n → Fin n → Bool) (A : Matrix (Fin n) (Fin n) K) (own : List (Fin n))
    (r : Fin n → K) : Fin n → K :=
  let F := iluFactor graph own A
  iluBackward F own (iluForward F own r)

/-- The preconditioner on all processes, without communication; the `vmult` of
/repo/source/dealii/dealii_smoother.cc:79.  `procs` lists the rows of each process. -/
def iluVmult (graph : Fin n → Fin n → Bool) (A : Matrix (Fin n) (Fin n) K)
    (procs : List (List (Fin n))) (r : Fin n → K) : Fin n → K :=
  fun i => (procs.map fun own => iluLocal graph A own r i).sum

/-- `DealIISmoother::apply` with this preconditioner, /repo/source/dealii/dealii_smoother.cc:69-81. -/
def iluSmootherApply (graph : Fin n → Fin n → Bool) (procs : List (List (Fin n)))
    (a : Op (Fin n → K) (Fin n → K)) (b x : Fin n → K) : Fin n → K :=
  -- r = -(b - Ax)
  let r := a.fwd x
  let r := r - b
  -- x = x + B^{-1} (-r)
  let tmp := iluVmult graph (entriesOf a) procs r
  x - tmp

/-- The helpers of `DealIIHierarchyHelpers` (/repo/source/dealii/dealii_hierarchy_helpers.cc) with all four
smoothers of /repo/source/dealii/dealii_smoother.cc:24-67; `graph l` is the graph of the matrix of level `l`
(in the code a part of the matrix). -/
def fullHelpers (debug : Bool) (type : Option (List Char)) (dims : ℕ → ℕ)
    (procs : ∀ l, List (List (Fin (dims l)))) (graph : ∀ l, Fin (dims l) → Fin (dims l) → Bool)
    (A : Matrix (Fin (dims 0)) (Fin (dims 0)) K)
    (R : ∀ l, Matrix (Fin (dims (l + 1))) (Fin (dims l)) K)
    (solve : ∀ l, Matrix (Fin (dims l)) (Fin (dims l)) K → (Fin (dims l) → K) → Fin (dims l) → K) :
    Helpers (fun l => Fin (dims l) → K) :=
  { matrixHelpers debug type dims procs A R solve with
    buildSmoother := fun l a _ => do
      let kind ← dealiiSmoother debug true type
      match kind.relaxation with
      | some kind => .ok (dealiiSmootherApply kind (procs l) a)
      | none => .ok (iluSmootherApply (graph l) (procs l) a) }

end Mfmg
