import Verif.Model.Agglomerate
import Mathlib.Data.List.Forall2

/-! # Vocabulary for the agglomeration properties -/

set_option autoImplicit false

namespace Mfmg

/-- Every owned `+x`, `+y`, `+z` neighbour of an owned cell comes later in the iteration. -/
def Mesh.Forward (m : Mesh) : Prop :=
  ∀ c c' d, m.owned c = true → m.nbr d c = some c' → m.owned c' = true → c < c'

/-- The mesh is not locally refined: the check of the debug build can never fail. -/
def Mesh.Uniform (m : Mesh) : Prop :=
  ∀ c c' d, m.nbr d c = some c' → ∀ c0, m.sameLevel c0 c' = true

/-- The locally owned cells of the mesh form an `X × Y × Z` box of cells: `pos` gives their
coordinates, the `+x`, `+y`, `+z` neighbours are the cells one step further, there is no owned
neighbour behind the last cell of a line, and the iteration visits a cell before every cell with
larger coordinates (lexicographic and Morton orders do).  In two dimensions `Z = 1`. -/
structure OwnedBox (m : Mesh) (dim X Y Z : ℕ) (pos : ℕ → ℕ × ℕ × ℕ) : Prop where
  lt : ∀ c, m.owned c = true → c < m.nCells
  range : ∀ c, m.owned c = true → (pos c).1 < X ∧ (pos c).2.1 < Y ∧ (pos c).2.2 < Z
  inj : ∀ c d, m.owned c = true → m.owned d = true → pos c = pos d → c = d
  surj : ∀ x y z, x < X → y < Y → z < Z → ∃ c, m.owned c = true ∧ pos c = (x, y, z)
  order : ∀ c d, m.owned c = true → m.owned d = true → (pos c).1 ≤ (pos d).1 →
    (pos c).2.1 ≤ (pos d).2.1 → (pos c).2.2 ≤ (pos d).2.2 → c ≤ d
  xp : ∀ c, m.owned c = true → (pos c).1 + 1 < X → ∃ c', m.nbr .xp c = some c' ∧
    m.owned c' = true ∧ pos c' = ((pos c).1 + 1, (pos c).2.1, (pos c).2.2)
  yp : ∀ c, m.owned c = true → (pos c).2.1 + 1 < Y → ∃ c', m.nbr .yp c = some c' ∧
    m.owned c' = true ∧ pos c' = ((pos c).1, (pos c).2.1 + 1, (pos c).2.2)
  zp : dim = 3 → ∀ c, m.owned c = true → (pos c).2.2 + 1 < Z → ∃ c', m.nbr .zp c = some c' ∧
    m.owned c' = true ∧ pos c' = ((pos c).1, (pos c).2.1, (pos c).2.2 + 1)
  xend : ∀ c c', m.owned c = true → (pos c).1 + 1 = X → m.nbr .xp c = some c' → m.owned c' = false
  yend : ∀ c c', m.owned c = true → (pos c).2.1 + 1 = Y → m.nbr .yp c = some c' →
    m.owned c' = false
  zend : dim = 3 → ∀ c c', m.owned c = true → (pos c).2.2 + 1 = Z → m.nbr .zp c = some c' →
    m.owned c' = false
  flat : dim ≠ 3 → Z = 1 ∧ ∀ c, m.nbr .zp c = none

/-- Coordinates of the `nx × ny × nz` tile a position lies in. -/
def tile (nx ny nz : ℕ) (p : ℕ × ℕ × ℕ) : ℕ × ℕ × ℕ := (p.1 / nx, p.2.1 / ny, p.2.2 / nz)

/-- Depth of a block: `nz` in three dimensions, one layer otherwise. -/
def layers (dim nz : ℕ) : ℕ := if dim = 3 then nz else 1

/-- Number of tiles of width `n` needed to cover `X`. -/
def tiles (X n : ℕ) : ℕ := (X + n - 1) / n

/-- Position of an owned cell among the owned cells: the vertex that stands for it in the graph
given to the partitioner. -/
def vertexOf (m : GraphMesh) (c : ℕ) : ℕ := ((List.range c).filter m.owned).length

/-- What deal.II guarantees about the mesh and the partitioner requires: distinct owned cells
have distinct (level, index), and a face neighbour that is owned and has no children is one of the
owned active cells. -/
structure GraphMesh.Sound (m : GraphMesh) : Prop where
  key_inj : ∀ c d, c < m.nCells → d < m.nCells → m.owned c = true → m.owned d = true →
    m.key c = m.key d → c = d
  face : ∀ c k, c < m.nCells → m.owned c = true → (true, false, k) ∈ m.faces c →
    ∃ d, d < m.nCells ∧ m.owned d = true ∧ m.key d = k

/-- `d` is behind a face of `c`, owned and without children. -/
def adj (m : GraphMesh) (c d : ℕ) : Prop := (true, false, m.key d) ∈ m.faces c

/-- The graph whose vertices are the owned cells and whose edges are face adjacency (from either
side) together with one self edge per vertex. -/
def IsCellGraph (m : GraphMesh) (g : List (ℕ × ℕ)) : Prop :=
  ∀ i j, (i, j) ∈ g ↔ ∃ c d, c < m.nCells ∧ d < m.nCells ∧ m.owned c = true ∧ m.owned d = true ∧
    i = vertexOf m c ∧ j = vertexOf m d ∧ (c = d ∨ adj m c d ∨ adj m d c)

/-- Owned cells of the agglomerate with identifier `a`. -/
def inAgg (nCells : ℕ) (owned : ℕ → Bool) (u : UserIndex) (a c : ℕ) : Prop :=
  c < nCells ∧ owned c = true ∧ u c = a

/-- The dof numberings of patch and global mesh agree: the two lists of a cell have the same length,
and a patch dof has the same global partner on every cell that contains it. -/
def DofsAgree (cells : List (List ℕ × List ℕ)) : Prop :=
  (∀ a g, (a, g) ∈ cells → a.length = g.length) ∧
  ∀ (a g a' g' : List ℕ) (i j x : ℕ), (a, g) ∈ cells → (a', g') ∈ cells →
    a[i]? = some x → a'[j]? = some x → g[i]? = g'[j]?

/-- `s` is a spelling of the lower-case name `t` in some mixture of upper and lower case. -/
def CaseVariant (s t : String) : Prop :=
  List.Forall₂ (fun c d => c = d ∨ c = d.toUpper) s.toList t.toList

end Mfmg
