import Verif.Model.DeviceCsr
import Mathlib.Data.List.Perm.Basic

/-!
# Specification: what a CSR matrix stands for
-/

set_option autoImplicit false

namespace Mfmg

variable {K : Type}

/-- The entries (column, value) of row `i` of a CSR matrix. -/
def Csr.row (c : Csr K) (i : ℕ) : List (ℕ × K) :=
  ((c.col.zip c.val).drop (c.rowPtr.getD i 0)).take (c.rowPtr.getD (i + 1) 0 - c.rowPtr.getD i 0)

/-- The number of entries in the rows before row `i`. -/
def rowStart (rows : List (List (ℕ × K))) (i : ℕ) : ℕ :=
  ((rows.take i).map List.length).sum

/-- `c` is a well-formed CSR matrix with these rows, in this order of entries. -/
structure Csr.HasRows (c : Csr K) (rows : List (List (ℕ × K))) : Prop where
  cols : c.col.length = (rows.map List.length).sum
  vals : c.val.length = (rows.map List.length).sum
  ptrs : c.rowPtr = (List.range (rows.length + 1)).map (rowStart rows)
  rows_eq : ∀ i (h : i < rows.length), c.row i = rows[i]

/-- A row of a square deal.II matrix: the diagonal entry first, then the other columns in
increasing order, all of them below `n`. -/
def DealiiRow (n row : ℕ) (entries : List (ℕ × K)) : Prop :=
  ∃ d rest, entries = (row, d) :: rest ∧ row < n ∧
    (rest.map Prod.fst).Pairwise (· < ·) ∧ ∀ e ∈ rest, e.1 ≠ row ∧ e.1 < n

/-- Entries by increasing column. -/
def SortedRow (entries : List (ℕ × K)) : Prop := (entries.map Prod.fst).Pairwise (· < ·)

/-- Reads inside the array return its elements. -/
def ReadsArray (read : List ℕ → ℕ → Outcome ℕ) : Prop :=
  ∀ (l : List ℕ) (i : ℕ) (h : i < l.length), read l i = .ok l[i]

end Mfmg
