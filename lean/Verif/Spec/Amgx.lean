import Verif.Spec.DeviceCsr
import Verif.Spec.DeviceGather

/-!
# Specification: the AMGX numbering of the rows and columns of one process
-/

set_option autoImplicit false

namespace Mfmg

/-- What the numbering `ν` of the global indices must satisfy on a process with locally owned rows
`owned`, column indices `cols` and sent rows `sent` (positions in `owned`): all indices in use have
different numbers, the numbers are `0, …, n + h - 1` where `h` is the number of different columns not
owned, the owned rows that are not sent come first, then the owned rows that are sent, then the columns
not owned. -/
structure AmgxNumbering (owned cols sent : List ℕ) (ν : ℕ → ℕ) : Prop where
  inj : ∀ g g', g ∈ owned ∨ g ∈ cols → g' ∈ owned ∨ g' ∈ cols → ν g = ν g' → g = g'
  inner : ∀ i (h : i < owned.length), i ∉ sent → ν owned[i] < owned.length - sent.length
  boundary : ∀ i (h : i < owned.length), i ∈ sent →
    owned.length - sent.length ≤ ν owned[i] ∧ ν owned[i] < owned.length
  halo : ∀ g ∈ cols, g ∉ owned → owned.length ≤ ν g
  onto : ∃ halo : List ℕ, halo.Nodup ∧ (∀ g, g ∈ halo ↔ g ∈ cols ∧ g ∉ owned) ∧
    ∀ k, k < owned.length + halo.length ↔ ∃ g, (g ∈ owned ∨ g ∈ cols) ∧ ν g = k

/-- `x` solves the equations of the given rows (entries with global columns), row `i` with right-hand
side `b i`. -/
def SolvesRows {K : Type} [AddMonoid K] [Mul K] (rows : List (List (ℕ × K))) (b : ℕ → K)
    (x : ℕ → K) : Prop :=
  ∀ i (h : i < rows.length), rowTimes rows[i] x = b i

end Mfmg
