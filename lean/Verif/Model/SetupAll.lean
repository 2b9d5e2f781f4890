import Verif.Model.WorkStream
import Verif.Model.Agglomerate

/-!
# Model of the whole set-up of the restriction matrix

`AMGe_host::setup_restrictor`, /repo/include/mfmg/dealii/amge_host.templates.hpp:485-535, from the mesh and the
parameters to the matrix, on all processes.
-/

set_option autoImplicit false

namespace Mfmg

section

variable {K : Type}

/-- What one process brings: its part of the mesh as the block partitioner and as the graph partitioners see it,
the external graph partitioner, the patch evaluation of the user followed by an eigensolver
(`compute_local_eigenvectors`, /repo/include/mfmg/dealii/amge_host.templates.hpp:278-483, on the patch made of the
given cells, for an eigensolver name and start vectors), what is returned when no eigensolver ran, and the
schedule by which its threads work on a given number of agglomerates. -/
structure Share (K : Type) where
  mesh : Mesh
  graph : GraphMesh
  partition : String → List (ℕ × ℕ) → ℕ → List ℕ
  solver : List ℕ → String → List (List K) → Outcome (CopyData K)
  unsolved : List ℕ → CopyData K
  schedule : ℕ → List WSEvent

/-- `build_agglomerates` with the chosen strategy, /repo/include/mfmg/common/amge.templates.hpp:51-85: new user
indices and the number of agglomerates. -/
def Share.agglomerate (debug : Bool) (dim : ℕ) (s : Strategy) (sh : Share K) (u : UserIndex) :
    Outcome (UserIndex × ℕ) :=
  match s with
  | .graph name n => buildAgglomeratesPartitioner sh.graph (sh.partition name) n u
  | .block nx ny nz => buildAgglomeratesBlock sh.mesh debug dim nx ny nz u

/-- The part of `setup_restrictor` before the assembly on one process,
/repo/include/mfmg/dealii/amge_host.templates.hpp:494-519: the agglomerates have the identifiers `1, …, n`
(`std::iota`, line 500), and `local_worker` builds the patch of an identifier (lines 586-615). -/
def Share.setup (debug matrixFree : Bool) (dim : ℕ) (ap : AggParams) (ep : EigParams) (sh : Share K)
    (u : UserIndex) : Outcome (UserIndex × Collected K) := do
  let s ← dispatch dim ap
  let (u, n) ← sh.agglomerate debug dim s u
  let col ← setupCollect debug matrixFree ep (fun i => sh.solver (patchCellsById sh.mesh.nCells u (i + 1)))
    (fun i => sh.unsolved (patchCellsById sh.mesh.nCells u (i + 1))) (sh.schedule n)
  pure (u, col)

/-- All processes.  They do not communicate before the assembly; if one fails, the call fails (see C76 for what
the others do then). Each runs /repo/include/mfmg/dealii/amge_host.templates.hpp:494-519. -/
def setupShares (debug matrixFree : Bool) (dim : ℕ) (ap : AggParams) (ep : EigParams) :
    List (Share K × UserIndex) → Outcome (List UserIndex × List (Collected K))
  | [] => .ok ([], [])
  | (sh, u) :: l => do
    let (u, col) ← sh.setup debug matrixFree dim ap ep u
    let (us, cols) ← setupShares debug matrixFree dim ap ep l
    pure (u :: us, col :: cols)

/-- `setup_restrictor` on all processes: the user indices left on the meshes, and the matrices.
/repo/include/mfmg/dealii/amge_host.templates.hpp:485-535. -/
def setupRestrictor [Field K] (debug dynAdds matrixFree : Bool) (dim : ℕ) (ap : AggParams) (ep : EigParams)
    (gdiag : ℕ → K) (l : List (Share K × UserIndex)) : Outcome (List UserIndex × Assembled K) := do
  let (us, cols) ← setupShares debug matrixFree dim ap ep l
  let a ← assembleAll debug dynAdds gdiag cols
  pure (us, a)

end

end Mfmg
