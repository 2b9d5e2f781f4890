import Verif.Model.Basic
import Mathlib.Algebra.Field.Basic
import Mathlib.Algebra.BigOperators.Group.List.Basic
import Mathlib.Data.Int.Notation

/-!
# Model of the multivectors given to Anasazi

`MultiVector`, /repo/include/mfmg/dealii/multivector.hpp:23-53, and `MultiVecTraits`,
/repo/include/mfmg/dealii/anasazi_traits.hpp:32-283.  Vectors live on a heap; a multivector is a list
of handles (`std::shared_ptr`), so that several multivectors can share vectors.  Numbers are exact.
The `ASSERT`s on sizes are modelled in `MvAddMv`, `MvTimesMatAddMv` and `SetBlock`.
-/

set_option autoImplicit false

namespace Mfmg

section

variable {K : Type} [Field K]

/-- The heap: handles below `next` are in use.
The vectors behind the shared pointers of /repo/include/mfmg/dealii/multivector.hpp:52. -/
structure Heap (K : Type) where
  next : ℕ
  mem : ℕ → List K

/-- `MultiVector`: the handles of its vectors. /repo/include/mfmg/dealii/multivector.hpp:52. -/
abbrev MV := List ℕ

/-- `*handle = v`. An assignment to `*mv[i]`, such as /repo/include/mfmg/dealii/anasazi_traits.hpp:50. -/
def Heap.write (h : Heap K) (a : ℕ) (v : List K) : Heap K :=
  { h with mem := fun b => if b = a then v else h.mem b }

/-- `for (int i = 0; i < n; i++)`, from `i` on with `left` iterations left.
The loops over the vectors, such as /repo/include/mfmg/dealii/anasazi_traits.hpp:49-50. -/
def forLoop {S : Type} (f : ℕ → S → Outcome S) : (left i : ℕ) → S → Outcome S
  | 0, _, s => .ok s
  | left + 1, i, s => do
    let s ← f i s
    forLoop f left (i + 1) s

/-- Constructor `MultiVector(n_vectors, vector_size)`,
/repo/include/mfmg/dealii/multivector.hpp:27-33. -/
def newMV (h : Heap K) (n size : ℕ) : Heap K × MV :=
  ({ next := h.next + n,
     mem := fun b => if h.next ≤ b ∧ b < h.next + n then List.replicate size 0 else h.mem b },
    (List.range n).map (fun i => h.next + i))

/-- `size()`, /repo/include/mfmg/dealii/multivector.hpp:40. -/
def mvSize (h : Heap K) (mv : MV) : ℕ :=
  match mv with
  | [] => 0
  | a :: _ => (h.mem a).length

/-- `v *= a` of `dealii::Vector`.
`operator*=`, called in /repo/include/mfmg/dealii/anasazi_traits.hpp:146, 172 and 181. -/
def scaleVec (a : K) (v : List K) : List K := v.map (fun x => a * x)

/-- `v.add(a, w)` of `dealii::Vector`; with different sizes it reads or writes out of bounds.
Called in /repo/include/mfmg/dealii/anasazi_traits.hpp:148. -/
def addVec (a : K) (v w : List K) : Outcome (List K) :=
  if v.length = w.length then .ok (List.zipWith (fun x y => x + a * y) v w) else .ub "Vector::add"

/-- `v.sadd(s, a, w)` of `dealii::Vector`. Called in /repo/include/mfmg/dealii/anasazi_traits.hpp:165. -/
def saddVec (s a : K) (v w : List K) : Outcome (List K) :=
  if v.length = w.length then .ok (List.zipWith (fun x y => s * x + a * y) v w)
  else .ub "Vector::sadd"

/-- `v * w` of `dealii::Vector`. Called in /repo/include/mfmg/dealii/anasazi_traits.hpp:194 and 207. -/
def dotVec (v w : List K) : Outcome K :=
  if v.length = w.length then .ok (List.zipWith (fun x y => x * y) v w).sum else .ub "Vector::operator*"

/-! ### Copies and views -/

/-- `CloneCopy(mv, index)`, /repo/include/mfmg/dealii/anasazi_traits.hpp:55-77. -/
def cloneCopy (h : Heap K) (mv : MV) (index : List ℕ) : Outcome (Heap K × MV) := do
  let (h, new) := newMV h index.length 0
  let h ← forLoop (fun i (h : Heap K) => do
    let k ← Outcome.get index i "index[i]"
    let src ← Outcome.get mv k "mv[index[i]]"
    let dst ← Outcome.get new i "new_mv[i]"
    .ok (h.write dst (h.mem src))) index.length 0 h
  .ok (h, new)

/-- `CloneCopy(mv)`, /repo/include/mfmg/dealii/anasazi_traits.hpp:44-53. -/
def cloneCopyAll (h : Heap K) (mv : MV) : Outcome (Heap K × MV) := cloneCopy h mv (List.range mv.length)

/-- `CloneView` and `CloneViewNonConst`, /repo/include/mfmg/dealii/anasazi_traits.hpp:79-125: the
handles are copied (the vectors made by the constructor are dropped; they keep their handles here). -/
def cloneView (mv : MV) (index : List ℕ) : Outcome MV :=
  index.foldr (fun k rest => do
    let a ← Outcome.get mv k "mv[index[i]]"
    let as ← rest
    .ok (a :: as)) (.ok [])

/-! ### Arithmetic -/

/-- The inner loop of `MvTimesMatAddMv`, line 152.
/repo/include/mfmg/dealii/anasazi_traits.hpp:147-148. -/
def timesInner (alpha : K) (A : MV) (B : ℕ → ℕ → K) (dst j : ℕ) (k : ℕ) (h : Heap K) :
    Outcome (Heap K) := do
  let src ← Outcome.get A k "A[k]"
  let v ← addVec (alpha * B k j) (h.mem dst) (h.mem src)
  .ok (h.write dst v)

/-- `MvTimesMatAddMv`, /repo/include/mfmg/dealii/anasazi_traits.hpp:134-150; `rows` and `cols` are the
dimensions of `B`. -/
def mvTimesMatAddMv (debug : Bool) (alpha : K) (A : MV) (rows cols : ℕ) (B : ℕ → ℕ → K) (beta : K)
    (mv : MV) (h : Heap K) : Outcome (Heap K) := do
  Outcome.assert debug (rows == A.length)
  Outcome.assert debug (cols == mv.length)
  Outcome.assert debug (mvSize h mv == mvSize h A)
  forLoop (fun j (h : Heap K) => do
    let dst ← Outcome.get mv j "mv[j]"
    forLoop (timesInner alpha A B dst j) A.length 0 (h.write dst (scaleVec beta (h.mem dst))))
    cols 0 h

/-- `MvAddMv`, /repo/include/mfmg/dealii/anasazi_traits.hpp:152-167. -/
def mvAddMv (debug : Bool) (alpha : K) (A : MV) (beta : K) (B mv : MV) (h : Heap K) :
    Outcome (Heap K) := do
  Outcome.assert debug (mvSize h A == mvSize h B)
  Outcome.assert debug (B.length == A.length)
  Outcome.assert debug (mv.length == B.length)
  Outcome.assert debug (mvSize h mv == mvSize h B)
  forLoop (fun i (h : Heap K) => do
    let dst ← Outcome.get mv i "mv[i]"
    let a ← Outcome.get A i "A[i]"
    let b ← Outcome.get B i "B[i]"
    let h := h.write dst (h.mem a)
    let v ← saddVec alpha beta (h.mem dst) (h.mem b)
    .ok (h.write dst v)) A.length 0 h

/-- `MvScale(mv, alpha)` with one factor for each vector,
/repo/include/mfmg/dealii/anasazi_traits.hpp:175-182. -/
def mvScale (mv : MV) (alpha : List K) (h : Heap K) : Outcome (Heap K) :=
  forLoop (fun i (h : Heap K) => do
    let dst ← Outcome.get mv i "mv[i]"
    let a ← Outcome.get alpha i "alpha[i]"
    .ok (h.write dst (scaleVec a (h.mem dst)))) mv.length 0 h

/-- `MvInit`, /repo/include/mfmg/dealii/anasazi_traits.hpp:270-275. -/
def mvInit (mv : MV) (alpha : K) (h : Heap K) : Outcome (Heap K) :=
  forLoop (fun i (h : Heap K) => do
    let dst ← Outcome.get mv i "mv[i]"
    .ok (h.write dst ((h.mem dst).map (fun _ => alpha)))) mv.length 0 h

/-- `SetBlock(A, index, mv)`, /repo/include/mfmg/dealii/anasazi_traits.hpp:223-247. -/
def setBlock (debug : Bool) (A : MV) (index : List ℕ) (mv : MV) (h : Heap K) : Outcome (Heap K) := do
  Outcome.assert debug (A.length == index.length)
  Outcome.assert debug (decide (index.length ≤ mv.length))
  Outcome.assert debug (mvSize h A == mvSize h mv)
  forLoop (fun i (h : Heap K) => do
    let k ← Outcome.get index i "index[i]"
    let dst ← Outcome.get mv k "mv[index[i]]"
    let src ← Outcome.get A i "A[i]"
    .ok (h.write dst (h.mem src))) index.length 0 h

/-- Entry `(i, j)` of the result of `MvTransMv`,
/repo/include/mfmg/dealii/anasazi_traits.hpp:184-195. -/
def mvTransMv (alpha : K) (A B : MV) (h : Heap K) (i j : ℕ) : Outcome K := do
  let a ← Outcome.get A i "A[i]"
  let b ← Outcome.get B j "B[j]"
  let d ← dotVec (h.mem a) (h.mem b)
  .ok (alpha * d)

/-- Entry `i` of the result of `MvDot`, /repo/include/mfmg/dealii/anasazi_traits.hpp:197-209. -/
def mvDot (mv A : MV) (h : Heap K) (i : ℕ) : Outcome K := do
  let a ← Outcome.get mv i "mv[i]"
  let b ← Outcome.get A i "A[i]"
  dotVec (h.mem a) (h.mem b)

/-- `MvNorm`, /repo/include/mfmg/dealii/anasazi_traits.hpp:211-222: `normvec` is what the caller hands over, the
result what is in it afterwards.  `sqrt` is the square root of the arithmetic; `l2_norm` is taken as the square root
of the sum of squares (deal.II's rescaling against overflow is left out). -/
def mvNorm (sqrt : K → K) (mv : MV) (h : Heap K) (normvec : List K) : Outcome (List K) :=
  forLoop (fun i (normvec : List K) => do
    let a ← Outcome.get mv i "mv[i]"
    .ok (normvec.set i (sqrt ((h.mem a).map (fun x => x * x)).sum))) mv.length 0
    (normvec.take mv.length ++ List.replicate (mv.length - normvec.length) 0)

/-- `MvRandom`, /repo/include/mfmg/dealii/anasazi_traits.hpp:256-268.  `draw` is the sequence the
generator with the fixed seed 1337 yields; it starts anew in every call.  State: the heap and the
number of values drawn. -/
def mvRandom (draw : ℕ → K) (mv : MV) (h : Heap K) : Outcome (Heap K) := do
  let s ← forLoop (fun i (s : Heap K × ℕ) => do
    let dst ← Outcome.get mv i "mv[i]"
    .ok (s.1.write dst ((s.1.mem dst).mapIdx (fun p _ => draw (s.2 + p))),
      s.2 + (s.1.mem dst).length)) mv.length 0 (h, 0)
  .ok s.1

end

end Mfmg
