import Verif.Model.DeviceOperator

/-!
# Specification: operators that do not change

The intended meaning of the operator interface: an operator is a matrix, calls read it, and calls that
return an operator append its matrix.
-/

set_option autoImplicit false

namespace Mfmg

section

variable {K : Type} [NonUnitalNonAssocSemiring K]

/-- The transpose: entry `(i, j)` is entry `(j, i)`. -/
def transposeOf (A : GMat K) : GMat K := ⟨A.cols, A.rows, fun i j => A.entry j i⟩

/-- The product with a vector, entry by entry; `none` if the dimensions do not agree. -/
def timesOf (A : GMat K) (x : List K) : Option (List K) :=
  if x.length = A.cols then some (List.ofFn fun i => ∑ j, A.entry i j * x.getD j 0) else none

/-- The product of two matrices, entry by entry; `none` if the dimensions do not agree. -/
def productOf (A B : GMat K) : Option (GMat K) :=
  if h : A.cols = B.rows then
    some ⟨A.rows, B.cols, fun i j => ∑ k, A.entry i k * B.entry (Fin.cast h k) j⟩
  else none

/-- The intended result of one call on operators that stand for the matrices `ms`; `none` if the call
is not meaningful (no such operator, or dimensions that do not agree). -/
def idealStep (ms : List (GMat K)) : OpCall K → Option (List (GMat K) × OpResult K)
  | .apply i tr x y => do
    let A ← ms[i]?
    let z ← timesOf (if tr then transposeOf A else A) x
    if y.length = z.length then pure (ms, .vector z) else none
  | .transpose i => do
    let A ← ms[i]?
    pure (ms ++ [transposeOf A], .created)
  | .multiply i j => do
    let A ← ms[i]?
    let B ← ms[j]?
    let C ← productOf A B
    pure (ms ++ [C], .created)
  | .multiplyTranspose i j => do
    let A ← ms[i]?
    let B ← ms[j]?
    let C ← productOf A (transposeOf B)
    pure (ms ++ [C], .created)

/-- The intended results of a history. -/
def idealRun : List (GMat K) → List (OpCall K) → Option (List (GMat K) × List (OpResult K))
  | ms, [] => some (ms, [])
  | ms, c :: cs => do
    let s ← idealStep ms c
    let r ← idealRun s.1 cs
    pure (r.1, s.2 :: r.2)

/-- Does the call make operator `i` compute its transpose? -/
def OpCall.needsTranspose (i : ℕ) : OpCall K → Bool
  | .apply k tr _ _ => decide (k = i) && tr
  | .transpose k => decide (k = i)
  | _ => false

/-- Is the call `i.transpose()`? -/
def OpCall.isTranspose (i : ℕ) : OpCall K → Bool
  | .transpose k => decide (k = i)
  | _ => false

/-- `multiply_transpose` on any operators. -/
def OpCall.isMultiplyTranspose : OpCall K → Bool
  | .multiplyTranspose _ _ => true
  | _ => false

/-- No operator is transposed by `transpose()` when an earlier call has made it compute its transpose
already, unless its matrix is symmetric (`sym i`). -/
def TransposesOnce (sym : ℕ → Prop) (cs : List (OpCall K)) : Prop :=
  ∀ (before after : List (OpCall K)) (c : OpCall K) (i : ℕ), cs = before ++ c :: after →
    c.isTranspose i = true → sym i ∨ ∀ d ∈ before, d.needsTranspose i = false

/-- A freshly made operator of a matrix with handle and descriptor. -/
def CudaOp.fresh (A : GMat K) : CudaOp K :=
  { matrix := { mat := A, handle := true, descr := true }, transposed := none }

end

end Mfmg
