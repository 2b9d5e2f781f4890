import Verif.Spec.DeviceCsr
import Verif.Model.LargeSizes

/-!
# Specification: row numbers and CSR arrays without bounds on the numbers
-/

set_option autoImplicit false

namespace Mfmg

/-- The row of the restriction matrix that belongs to the `k`-th eigenvector of the process `p`, if process `q` has
`sizes[q]` eigenvectors: the processes one after the other. -/
def trueRow (sizes : List ℕ) (p k : ℕ) : ℕ := (sizes.take p).sum + k

/-- Process `p` has an eigenvector `k`. -/
def HasEigenvector (sizes : List ℕ) (p k : ℕ) : Prop := p < sizes.length ∧ k < sizes.getD p 0

/-- The arrays of `int`s hold the numbers of `c`. -/
structure Csr32.Holds {K : Type} (d : Csr32 K) (c : Csr K) : Prop where
  val : d.val = c.val
  col : d.col = c.col.map (fun n : ℕ => (n : ℤ))
  rowPtr : d.rowPtr = c.rowPtr.map (fun n : ℕ => (n : ℤ))

end Mfmg
