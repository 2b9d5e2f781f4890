import Verif.Spec.MultiLevel

/-!
# Specification: the rate of convergence on several processes
-/

set_option autoImplicit false

namespace Mfmg

variable {K : Type} [Field K] {n : ℕ}

/-- The coupling of the rows of a process to the rows that follow them on this process: for every row the
square of the sum of the entries of the following rows, divided by the diagonal. -/
def followers (A : Matrix (Fin n) (Fin n) K) (w : Fin n → K) : List (Fin n) → K
  | [] => 0
  | i :: rest => (rest.map fun j => A i j * w j).sum * (rest.map fun j => A i j * w j).sum / A i i
      + followers A w rest

/-- The energy of the part of `w` on every process, with the coupling to the following rows, added over all
processes. -/
def processEnergy (A : Matrix (Fin n) (Fin n) K) (procs : List (List (Fin n))) (w : Fin n → K) : K :=
  (procs.map fun own => energyOf A (restrictTo own w) + followers A w own).sum

/-- The energy of every vector is at most `c` times the energy on the processes. -/
def CoupledAtMost [LinearOrder K] (A : Matrix (Fin n) (Fin n) K) (procs : List (List (Fin n))) (c : K) : Prop :=
  ∀ w : Fin n → K, energyOf A w ≤ c * processEnergy A procs w

/-- In every row the absolute values beside the diagonal add to at most `theta` times the diagonal. -/
def RowsDominated [LinearOrder K] (A : Matrix (Fin n) (Fin n) K) (theta : K) : Prop :=
  ∀ i, ∑ j, (if i = j then 0 else |A i j|) ≤ theta * A i i

/-- Every process owns neighbouring rows in increasing order, two or more. -/
def NeighbouringRows (procs : List (List (Fin n))) : Prop :=
  ∀ own ∈ procs, ∃ first count, 2 ≤ count ∧ own.map Fin.val = List.range' first count

end Mfmg
