import Verif.Model.Hierarchy

/-!
# Model of an application of a hierarchy as a program on vectors in memory

`Model/Hierarchy.lean` describes `apply` as a function of the values of its arguments.  Here the vectors are
objects: the caller's vectors, which `apply` gets by reference and which may be one and the same object, and
the local vectors of `apply` and of the smoothers, which exist from their construction to the end of their
scope.  The statements are those of /repo/include/mfmg/common/hierarchy.hpp:246-309 and
/repo/source/dealii/dealii_smoother.cc:69-81 (the same as
/repo/source/dealii/dealii_matrix_free_smoother.cc:63-76), in their order.  No decision in them depends on the
contents of vectors, so that an application is a list of statements.

Simplifications: calls of the libraries (products, preconditioners, the coarse solver) are one statement each;
the timer is treated in `Model/Hierarchy.lean`; hosts only.
-/

set_option autoImplicit false

namespace Mfmg

/-- The name of a vector object: a vector of the caller, or the local vector with number `k` that thread `t`
has made. The vectors of /repo/include/mfmg/common/hierarchy.hpp:246-309. -/
inductive VecName where
  | user (i : ℕ)
  | temp (t k : ℕ)
  deriving DecidableEq, Repr

/-- The vectors that exist, with their contents.
The vectors of /repo/include/mfmg/common/hierarchy.hpp:246-309. -/
abbrev Store (V : ℕ → Type) := ∀ l, VecName → Option (V l)

variable {V : ℕ → Type}

/-- The vector `a` of level `l` gets a new content, or ceases to exist.
The vectors of /repo/include/mfmg/common/hierarchy.hpp:246-309. -/
def Store.set (σ : Store V) (l : ℕ) (a : VecName) (v : Option (V l)) : Store V :=
  Function.update σ l (Function.update (σ l) a v)

/-- A statement.

* `zero l x`: `x = 0.;`
* `build l a v`: `auto a = level.build_vector();`, the content is anything, here `v`
* `copy l a b`: `vector_type a(b);`
* `operate l m f x y`: `op->apply(x, y);` or `prec->vmult(y, x);`
* `subtract l x y`: `x.add(-1., y);`
* `solve l f p b x`: `coarse_solver->apply(b, x);` `p` is the object in which a direct solver stores pointers to
  its arguments while it is at work
* `drop l a`: the end of the scope of `a`.
They occur in /repo/include/mfmg/common/hierarchy.hpp:246-309 and
/repo/source/dealii/dealii_smoother.cc:69-81. -/
inductive VStmt (V : ℕ → Type) where
  | zero (l : ℕ) (x : VecName)
  | build (l : ℕ) (a : VecName) (v : V l)
  | copy (l : ℕ) (a b : VecName)
  | operate (l m : ℕ) (f : V l → V m) (x y : VecName)
  | subtract (l : ℕ) (x y : VecName)
  | solve (l : ℕ) (f : V l → V l → V l) (p : Option ℕ) (b x : VecName)
  | drop (l : ℕ) (a : VecName)

/-- A vector that is read. The vectors of /repo/include/mfmg/common/hierarchy.hpp:246-309. -/
def Store.read (σ : Store V) (l : ℕ) (a : VecName) : Outcome (V l) :=
  Outcome.deref (σ l a) "vector does not exist"

section

variable [∀ l, AddCommGroup (V l)]

/-- The effect of a statement.  A product whose source is its destination is not allowed in deal.II.
The statements of /repo/include/mfmg/common/hierarchy.hpp:246-309. -/
def VStmt.exec : VStmt V → Store V → Outcome (Store V)
  | .zero l x, σ => do
    let _ ← σ.read l x
    pure (σ.set l x (some 0))
  | .build l a v, σ => pure (σ.set l a (some v))
  | .copy l a b, σ => do
    let v ← σ.read l b
    pure (σ.set l a (some v))
  | .operate l m f x y, σ => do
    let v ← σ.read l x
    let _ ← σ.read m y
    if l = m ∧ x = y then .ub "source equals destination" else pure (σ.set m y (some (f v)))
  | .subtract l x y, σ => do
    let v ← σ.read l x
    let w ← σ.read l y
    pure (σ.set l x (some (v - w)))
  | .solve l f _ b x, σ => do
    let v ← σ.read l b
    let w ← σ.read l x
    pure (σ.set l x (some (f v w)))
  | .drop l a, σ => do
    let _ ← σ.read l a
    pure (σ.set l a none)

/-- One statement after the other. The statements of /repo/include/mfmg/common/hierarchy.hpp:246-309. -/
def runStmts : List (VStmt V) → Store V → Outcome (Store V)
  | [], σ => .ok σ
  | s :: p, σ => do
    let σ ← s.exec σ
    runStmts p σ

end

/-- The parts of a hierarchy that an application calls: operators `A`, the preconditioners `B` inside the
smoothers, restrictors `R` with transposes `RT`, the coarse solver `C` and, if it is a direct solver, the
object in which it stores pointers to its arguments.
Called in /repo/include/mfmg/common/hierarchy.hpp:246-309. -/
structure Parts (V : ℕ → Type) where
  numLevels : ℕ
  isPreconditioner : Bool
  nSmoothingSteps : ℕ
  A : ∀ l, V l → V l
  B : ∀ l, V l → V l
  R : ∀ l, V l → V (l + 1)
  RT : ∀ l, V (l + 1) → V l
  C : ∀ l, V l → V l → V l
  problem : Option ℕ

/-- `DealIISmoother::apply`, /repo/source/dealii/dealii_smoother.cc:69-81; `r` and `tmp` are the local vectors
`k` and `k + 1`. -/
def smoothStmts (P : Parts V) (t l k : ℕ) (b x : VecName) : List (VStmt V) :=
  [.copy l (.temp t k) b,
   .operate l l (P.A l) x (.temp t k),
   .subtract l (.temp t k) b,
   .copy l (.temp t (k + 1)) x,
   .operate l l (P.B l) (.temp t k) (.temp t (k + 1)),
   .subtract l x (.temp t (k + 1)),
   .drop l (.temp t (k + 1)),
   .drop l (.temp t k)]

/-- `for (i = 0; i < n; ++i) smoother->apply(b, x)`,
/repo/include/mfmg/common/hierarchy.hpp:278-279 and 305-306. -/
def smoothLoopStmts (P : Parts V) (t l k : ℕ) (b x : VecName) : ℕ → List (VStmt V)
  | 0 => []
  | n + 1 => smoothStmts P t l k b x ++ smoothLoopStmts P t l k b x n

/-- `Hierarchy::apply(b, x, l)`, /repo/include/mfmg/common/hierarchy.hpp:246-309, where `d` levels are below level
`l`, in thread `t`, which has made `k` local vectors so far.  `res`, `b_coarse`, `x_coarse` and `x_correction`
are the local vectors `k` to `k + 3`; `junk` are the contents of vectors newly built. -/
def applyStmts (P : Parts V) (junk : ∀ l, ℕ → V l) (t : ℕ) :
    (d l k : ℕ) → (b x : VecName) → List (VStmt V)
  | 0, l, _, b, x =>
    (if l > 0 ∨ P.isPreconditioner then [.zero l x] else []) ++ [.solve l (P.C l) P.problem b x]
  | d + 1, l, k, b, x =>
    (if l > 0 ∨ P.isPreconditioner then [.zero l x] else []) ++
    smoothLoopStmts P t l k b x P.nSmoothingSteps ++
    [.build l (.temp t k) (junk l k),
     .operate l l (P.A l) x (.temp t k),
     .subtract l (.temp t k) b,
     .build (l + 1) (.temp t (k + 1)) (junk (l + 1) (k + 1)),
     .operate l (l + 1) (P.R l) (.temp t k) (.temp t (k + 1)),
     .build (l + 1) (.temp t (k + 2)) (junk (l + 1) (k + 2))] ++
    applyStmts P junk t d (l + 1) (k + 3) (.temp t (k + 1)) (.temp t (k + 2)) ++
    [.build l (.temp t (k + 3)) (junk l (k + 3)),
     .operate (l + 1) l (P.RT l) (.temp t (k + 2)) (.temp t (k + 3)),
     .subtract l x (.temp t (k + 3))] ++
    smoothLoopStmts P t l (k + 4) b x P.nSmoothingSteps ++
    [.drop l (.temp t (k + 3)),
     .drop (l + 1) (.temp t (k + 2)),
     .drop (l + 1) (.temp t (k + 1)),
     .drop l (.temp t k)]

/-- `Hierarchy::vmult(x, b)`, /repo/include/mfmg/common/hierarchy.hpp:238-244, called by thread `t`. -/
def vmultStmts (P : Parts V) (junk : ∀ l, ℕ → V l) (t : ℕ) (x b : VecName) : List (VStmt V) :=
  applyStmts P junk t (P.numLevels - 1) 0 0 b x

/-- What the destructors do when an exception leaves `vmult` in thread `t`: the local vectors that exist cease
to exist.
The scopes are those of /repo/include/mfmg/common/hierarchy.hpp:246-309 and
/repo/source/dealii/dealii_smoother.cc:69-81. -/
def unwind (t : ℕ) (σ : Store V) : Store V := fun l a =>
  match a with
  | .user i => σ l (.user i)
  | .temp t' k => if t' = t then none else σ l (.temp t' k)

/-! ## Threads -/

/-- What statements access: vectors, and the objects in which direct solvers store their arguments
(`Epetra_LinearProblem`). The object is the member of /repo/source/dealii/dealii_solver.cc:43-47. -/
inductive VCell where
  | vec (l : ℕ) (a : VecName)
  | problem (p : ℕ)
  deriving DecidableEq, Repr

/-- What a statement writes to. The statements of /repo/include/mfmg/common/hierarchy.hpp:246-309. -/
def VStmt.writes : VStmt V → List VCell
  | .zero l x => [.vec l x]
  | .build l a _ => [.vec l a]
  | .copy l a _ => [.vec l a]
  | .operate _ m _ _ y => [.vec m y]
  | .subtract l x _ => [.vec l x]
  | .solve l _ p _ x => .vec l x :: (p.map VCell.problem).toList
  | .drop l a => [.vec l a]

/-- What a statement accesses. The statements of /repo/include/mfmg/common/hierarchy.hpp:246-309. -/
def VStmt.accesses : VStmt V → List VCell
  | .zero l x => [.vec l x]
  | .build l a _ => [.vec l a]
  | .copy l a b => [.vec l a, .vec l b]
  | .operate l m _ x y => [.vec l x, .vec m y]
  | .subtract l x y => [.vec l x, .vec l y]
  | .solve l _ p b x => .vec l b :: .vec l x :: (p.map VCell.problem).toList
  | .drop l a => [.vec l a]

end Mfmg
