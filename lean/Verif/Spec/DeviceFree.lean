import Verif.Spec.MatMult
import Verif.Spec.DeviceCsr
import Verif.Spec.DeviceGather
import Verif.Model.DeviceFree

/-!
# Specification: the product of a matrix-free operator with a transposed matrix on the device
-/

set_option autoImplicit false

namespace Mfmg

variable {K : Type}

/-- The parts hold the rows of the global matrix `b` that their process owns, and can be used with
cuSPARSE. -/
def HoldsMatrix (owned : List (List ℕ)) (b : ℕ → List (ℕ × K)) (parts : List (DevPart K)) : Prop :=
  parts.length = owned.length ∧ ∀ p (h : p < parts.length) (h' : p < owned.length),
    parts[p].csr.HasRows (owned[p].map b) ∧ parts[p].handle = true ∧ parts[p].descr = true

variable [Field K]

/-- The entry of a row in column `k`. -/
def entryOf (row : List (ℕ × K)) (k : ℕ) : K :=
  ((row.find? (fun e => e.1 == k)).map Prod.snd).getD 0

/-- `(A Bᵀ)_{ij}` for the matrix `a` with `n` columns and the rows `b`. -/
def freeProduct (n : ℕ) (a : ℕ → ℕ → K) (b : ℕ → List (ℕ × K)) (i j : ℕ) : K :=
  ((List.range n).map fun k => a i k * entryOf (b j) k).sum

variable [LinearOrder K]

/-- The same with the entries of modulus at most `eps` dropped. -/
def droppedProduct (eps : K) (n : ℕ) (a : ℕ → ℕ → K) (b : ℕ → List (ℕ × K)) (i j : ℕ) : K :=
  if eps < |freeProduct n a b i j| then freeProduct n a b i j else 0

end Mfmg
