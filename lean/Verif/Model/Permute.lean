import Verif.Model.Basic
import Mathlib.Data.Nat.Notation
import Mathlib.Order.Defs.LinearOrder

/-!
# Model of the permutation utilities

`sort_permutation` and `apply_permutation_in_place`, /repo/include/mfmg/common/utils.hpp:34-79.
-/

set_option autoImplicit false

namespace Mfmg

/-- The comparison function, /repo/include/mfmg/common/utils.hpp:47-52, on indices in range. -/
def lexLess {T : Type} [LinearOrder T] (v₁ v₂ : ℕ → T) (i j : ℕ) : Bool :=
  if v₁ i ≠ v₁ j then decide (v₁ i < v₁ j) else decide (v₂ i < v₂ j)

/-- `sort_permutation`, /repo/include/mfmg/common/utils.hpp:34-55.  `sort less l` is what `std::sort`
makes of the sequence `l` with comparison `less`.  The vectors are read through `getD`; with vectors
of different lengths the outcome is `aborted` in debug builds, and in release builds undefined if the
second one is shorter (a simplification: the read happens only if two entries of the first vector are
equal). -/
def sortPermutation {T : Type} [LinearOrder T] [Inhabited T] (debug : Bool)
    (sort : (ℕ → ℕ → Bool) → List ℕ → List ℕ) (v₁ v₂ : List T) : Outcome (List ℕ) := do
  Outcome.assert debug (v₁.length == v₂.length)
  if v₂.length < v₁.length then .ub "vec_2[i]"
  else pure (sort (lexLess (fun i => v₁.getD i default) (fun i => v₂.getD i default))
    (List.range v₁.length))

section

variable {α : Type}

/-- The `while` loop, /repo/include/mfmg/common/utils.hpp:69-75, with at most `fuel` iterations:
`none` if it has not ended by then.  State: the vector and `done`. -/
def cycleWalk (perm : List ℕ) (i : ℕ) : (fuel prev j : ℕ) → List α × List Bool →
    Option (Outcome (List α × List Bool))
  | fuel, prev, j, (vec, done) =>
    if i = j then some (.ok (vec, done))
    else match fuel with
      | 0 => none
      | fuel + 1 =>
        match vec[prev]?, vec[j]? with
        | some a, some b =>
          match perm[j]? with
          | some j' =>
            cycleWalk perm i fuel j j' ((vec.set prev b).set j a, done.set j true)
          | none => some (.ub "permutation[j]")
        | _, _ => some (.ub "vec[j]")

/-- The `for` loop, /repo/include/mfmg/common/utils.hpp:63-77, from index `i` on. -/
def applyLoop (perm : List ℕ) (fuel : ℕ) : (left i : ℕ) → List α × List Bool →
    Option (Outcome (List α × List Bool))
  | 0, _, s => some (.ok s)
  | left + 1, i, (vec, done) =>
    if done.getD i false = false then
      match perm[i]? with
      | some j =>
        match cycleWalk perm i fuel i j (vec, done.set i true) with
        | some (.ok s) => applyLoop perm fuel left (i + 1) s
        | r => r
      | none => some (.ub "permutation[i]")
    else applyLoop perm fuel left (i + 1) (vec, done)

/-- `apply_permutation_in_place`, /repo/include/mfmg/common/utils.hpp:57-79; `none` if one of the
inner loops needs more than `fuel` iterations. -/
def applyPermutation (perm : List ℕ) (fuel : ℕ) (vec : List α) : Option (Outcome (List α)) :=
  match applyLoop perm fuel vec.length 0 (vec, List.replicate vec.length false) with
  | some (.ok s) => some (.ok s.1)
  | some (.throws m) => some (.throws m)
  | some .aborted => some .aborted
  | some (.ub w) => some (.ub w)
  | none => none

end

end Mfmg
