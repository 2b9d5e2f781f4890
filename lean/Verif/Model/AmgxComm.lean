import Verif.Model.Amgx

/-!
# Model: the communication lists for AMGX

/repo/source/cuda/cuda_solver.cu:266-431.
-/

set_option autoImplicit false

namespace Mfmg

/-- `sparsity_pattern_buffer`, /repo/source/cuda/cuda_solver.cu:285-296: two lengths, the global ids of the
owned rows (in increasing order) and the column indices. -/
def patternBuffer (rows cols : List ℕ) : List ℕ := [rows.length, cols.length] ++ rows ++ cols

/-- The range of columns of a buffer, /repo/source/cuda/cuda_solver.cu:315-318. -/
def bufColumns (buf : List ℕ) : List ℕ := buf.drop (2 + buf.getD 0 0)

/-- The range of rows of a buffer, /repo/source/cuda/cuda_solver.cu:365-367. -/
def bufRows (buf : List ℕ) : List ℕ := (buf.drop 2).take (buf.getD 0 0)

/-- `insert` into an `std::unordered_set`; the elements in the order of insertion.
/repo/source/cuda/cuda_solver.cu:325. -/
def hashInsert (s : List ℕ) (j : ℕ) : List ℕ := if j ∈ s then s else s ++ [j]

/-- `halo` of /repo/source/cuda/cuda_solver.cu:319-327: the positions of the owned rows that occur among the
columns of another process. -/
def sendHalo (rows cols : List ℕ) : List ℕ :=
  (List.range rows.length).filter fun j => decide (rows.getD j 0 ∈ cols)

/-- `neighbors`, `row_halo` and `rows_sent`, /repo/source/cuda/cuda_solver.cu:306-308. -/
structure SendLists where
  neighbors : List ℕ
  rowHalo : List (List ℕ)
  sent : List ℕ
  deriving DecidableEq, Repr

/-- The loop /repo/source/cuda/cuda_solver.cu:311-335 over the buffers with their ranks.  Simplification: the
matrix's communicator is `MPI_COMM_WORLD`, so that there is one buffer for each of the `comm_size` ranks (the
code gathers over `MPI_COMM_WORLD`, line 298, and takes the number of ranks and its own rank from the
matrix's communicator). -/
def sendLoop (rank : ℕ) (rows : List ℕ) : List (List ℕ × ℕ) → SendLists → SendLists
  | [], s => s
  | (buf, i) :: rest, s =>
    if i ≠ rank then
      let halo := sendHalo rows (bufColumns buf)
      let s := { s with sent := halo.foldl hashInsert s.sent }
      if halo.length > 0 then
        sendLoop rank rows rest
          { s with neighbors := s.neighbors ++ [i], rowHalo := s.rowHalo ++ [halo] }
      else sendLoop rank rows rest s
    else sendLoop rank rows rest s

/-- `insert` into an `std::set<int>`; the elements in increasing order.
/repo/source/cuda/cuda_solver.cu:374. -/
def orderedInsert (j : ℕ) : List ℕ → List ℕ
  | [] => [j]
  | k :: s => if j < k then j :: k :: s else if j = k then k :: s else k :: orderedInsert j s

/-- `halo` of /repo/source/cuda/cuda_solver.cu:369-376: the set of columns owned by another process. -/
def recvHalo (cols rows : List ℕ) : List ℕ :=
  cols.foldl (fun s c => if c ∈ rows then orderedInsert c s else s) []

/-- The loop /repo/source/cuda/cuda_solver.cu:358-383. -/
def recvLoop (rank : ℕ) (cols : List ℕ) : List (List ℕ × ℕ) → List (List ℕ) → List (List ℕ)
  | [], s => s
  | (buf, i) :: rest, s =>
    if i ≠ rank then
      let halo := recvHalo cols (bufRows buf)
      if halo.length > 0 then recvLoop rank cols rest (s ++ [halo]) else recvLoop rank cols rest s
    else recvLoop rank cols rest s

/-- What is given to `AMGX_matrix_comm_from_maps_one_ring` (/repo/source/cuda/cuda_solver.cu:424-427), and
the two maps returned by `csr_to_amgx`. -/
structure AmgxComm where
  neighbors : List ℕ
  send : List (List ℕ)
  recv : List (List ℕ)
  sent : List ℕ
  halo : UMap
  rowMap : UMap
  deriving DecidableEq, Repr

/-- /repo/source/cuda/cuda_solver.cu:298-422 on process `rank` with the gathered buffers.  The receive lists
are read at the positions of the neighbours (lines 388-390, 403-404, 419-420); a missing list is an access
out of bounds.  `csr_to_amgx` (line 394) enters with its two maps. -/
def commSetup (nGlobal rank : ℕ) (bufs : List (List ℕ)) (rows cols : List ℕ) : Outcome AmgxComm := do
  let s := sendLoop rank rows bufs.zipIdx { neighbors := [], rowHalo := [], sent := [] }
  let r := recvLoop rank cols bufs.zipIdx []
  let recvHalos ← (List.range s.neighbors.length).mapM fun i => Outcome.get r i "recv_halo[i]"
  let halo := haloMap nGlobal rows cols
  let rowMap := localMap rows.length s.sent
  .ok { neighbors := s.neighbors
        send := s.rowHalo.map (List.map rowMap.at)
        recv := recvHalos.map (List.map halo.at)
        sent := s.sent
        halo := halo
        rowMap := rowMap }

end Mfmg
