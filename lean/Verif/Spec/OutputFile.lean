import Verif.Model.Agglomerate

/-!
# Specification for the data written by AMGe::output
-/

set_option autoImplicit false

namespace Mfmg

/-- A process and what it has when the files are written: the number of cells it knows, which of them it owns, and the
agglomerate of every cell. -/
structure OutputProcess where
  nCells : ℕ
  owned : ℕ → Bool
  agglomerate : UserIndex

/-- The file has the owned cells, once each, and for every one of them the rank and the number of its agglomerate. -/
def ShowsAgglomerates (rank : ℕ) (p : OutputProcess) (file : List (ℕ × ℕ × ℕ)) : Prop :=
  file.map Prod.fst = (List.range p.nCells).filter p.owned ∧
    ∀ c s a, (c, s, a) ∈ file → s = rank ∧ a = p.agglomerate c

/-- In the files of all processes two cells carry the same numbers exactly if they are in the same agglomerate (of the
same process). -/
def TellsApart (procs : List OutputProcess) (files : List (List (ℕ × ℕ × ℕ))) : Prop :=
  files.length = procs.length ∧
    ∀ (i j : ℕ) (p q : OutputProcess) (f g : List (ℕ × ℕ × ℕ)),
      procs[i]? = some p → procs[j]? = some q → files[i]? = some f → files[j]? = some g →
      ∀ c s a, (c, s, a) ∈ f → ∀ d t b, (d, t, b) ∈ g →
        ((s = t ∧ a = b) ↔ (i = j ∧ p.agglomerate c = q.agglomerate d))

end Mfmg
