import Verif.Model.PatchBoundary

/-!
# What is assumed of a patch mesh
-/

set_option autoImplicit false

namespace Mfmg

/-- The patch mesh copies the cells of the agglomerate: every one of them has exactly one partner, and two
partners share a face only if the cells share the corresponding face. -/
structure PatchMesh.Copies (p : PatchMesh) (m : MeshFaces) (agglomerate : List ℕ) : Prop where
  partner : ∀ g ∈ agglomerate, ∃ a, (a, g) ∈ p.cells
  unique : ∀ a b g, (a, g) ∈ p.cells → (b, g) ∈ p.cells → a = b
  faces : ∀ a b g h f f', (a, g) ∈ p.cells → (b, h) ∈ p.cells → f < m.facesPerCell →
    f' < m.facesPerCell → p.face a f = p.face b f' → m.face g f = m.face h f'

end Mfmg
