import Verif.Model.AmgxComm

/-!
# Model: the communication lists for AMGX on a part of the processes

The sparsity patterns are gathered over `MPI_COMM_WORLD` (/repo/source/cuda/cuda_solver.cu:298-299); the number
of processes and the own rank are those of the matrix's communicator (lines 244 and 309-310).
-/

set_option autoImplicit false

namespace Mfmg

/-- /repo/source/cuda/cuda_solver.cu:298-422 on the process with rank `rank` in a communicator of `commSize`
processes.  `world` are the buffers of all processes of `MPI_COMM_WORLD` in the order of their ranks there (all of
them construct a solver, or the call of line 298 does not return); the loops of lines 311 and 358 read the
first `commSize` of them.  Simplification: the bound `m()` of the `IndexSet` of line 364 is not
checked. -/
def subCommSetup (nGlobal rank commSize : ℕ) (world : List (List ℕ)) (rows cols : List ℕ) :
    Outcome AmgxComm :=
  commSetup nGlobal rank (world.take commSize) rows cols

end Mfmg
