import Verif.Model.HostOperator

/-!
# Model of the hierarchy's constructor and V-cycle with matrices that have sizes

The same functions as in `Model/Hierarchy.lean`, where the spaces of the levels fit by definition.
Here every operator is a host operator (`Model/HostOperator.lean`) with its own dimensions, and vectors
are lists.  Not modelled here: parameters, timers, exceptions of smoothers and solvers (see
`Model/Hierarchy.lean`, `Model/Factory.lean`).
-/

set_option autoImplicit false

namespace Mfmg

section

variable {K : Type} [Field K]

/-- What the mesh evaluator determines: the number of dofs of its `DoFHandler`, the matrix of
`evaluate_global`, and the entries of the matrices that the `k`-th call of `build_restrictor` makes:
the rows of the restrictor and, with `fast_ap`, of the transpose of `ap`
(/repo/source/dealii/dealii_hierarchy_helpers.cc:33-303).  Calls can differ because the first one
changes the user indices of the cells (C13). -/
structure Evaluator (K : Type) where
  nDofs : ℕ
  matrix : Matrix (Fin nDofs) (Fin nDofs) K
  nRows : ℕ → ℕ
  restrictor : ∀ k, Matrix (Fin (nRows k)) (Fin nDofs) K
  ap : ∀ k, Matrix (Fin nDofs) (Fin (nRows k)) K

/-- `get_global_operator(evaluator)`, /repo/source/dealii/dealii_hierarchy_helpers.cc:33-54. -/
def Evaluator.globalOperator (ev : Evaluator K) : HostOp K :=
  .assembled ⟨ev.nDofs, ev.nDofs, ev.matrix⟩ true

/-- The `k`-th call of `build_restrictor(comm, evaluator, params)`: as many columns as the evaluator's
`DoFHandler` has dofs (/repo/include/mfmg/common/amge.templates.hpp:624-625:
the pattern has `_dof_handler.locally_owned_dofs()` as columns). -/
def Evaluator.buildRestrictor (ev : Evaluator K) (k : ℕ) : HostOp K :=
  .assembled ⟨ev.nRows k, ev.nDofs, ev.restrictor k⟩ true

/-- `fast_multiply_transpose()`, the operator stored by the last call of `build_restrictor`,
/repo/source/dealii/dealii_hierarchy_helpers.cc:287, 323-328. -/
def Evaluator.fastAp (ev : Evaluator K) (k : ℕ) : HostOp K :=
  .assembled ⟨ev.nDofs, ev.nRows k, ev.ap k⟩ true

/-- `Level` without smoother and solver. /repo/include/mfmg/common/level.hpp:72-75. -/
structure SizedLevel (K : Type) where
  operator : HostOp K
  restrictor : Option (HostOp K)

variable [LinearOrder K]

/-- The level loop, /repo/include/mfmg/common/hierarchy.hpp:178-234, from level `l` with operator `a` and
restrictor `r` on, `more` levels following.  Note that `build_restrictor` gets the evaluator, not the
level's operator. -/
def sizedLoop (debug fast : Bool) (eps : K) (mm : GMat K → GMat K → Outcome (HostOp K))
    (ev : Evaluator K) : ℕ → ℕ → HostOp K → Option (HostOp K) → Outcome (List (SizedLevel K))
  | 0, _, a, r => .ok [⟨a, r⟩]
  | more + 1, l, a, r => do
    let restrictor := ev.buildRestrictor l
    let ap ← (if fast then .ok (ev.fastAp l) else hostMultiplyTranspose debug eps a restrictor)
    let ac ← hostMultiply mm restrictor ap
    let rest ← sizedLoop debug fast eps mm ev more (l + 1) ac (some restrictor)
    pure (⟨a, r⟩ :: rest)

/-- The constructor for `"max levels" = numLevels ≥ 1`, /repo/include/mfmg/common/hierarchy.hpp:159-236. -/
def sizedHierarchy (debug fast : Bool) (eps : K) (mm : GMat K → GMat K → Outcome (HostOp K))
    (ev : Evaluator K) (numLevels : ℕ) : Outcome (List (SizedLevel K)) :=
  sizedLoop debug fast eps mm ev (numLevels - 1) 0 ev.globalOperator none

/-- The size of the vectors `build_vector()` makes on a level, /repo/include/mfmg/common/level.hpp:63-70. -/
def HostOp.domainSize : HostOp K → ℕ
  | .assembled A _ => A.cols
  | .matrixFree n _ => n

omit [LinearOrder K] in
/-- `x.add(-1., y)`, /repo/include/mfmg/common/hierarchy.hpp:286, 302. -/
def vecSub (x y : List K) : Outcome (List K) :=
  if x.length = y.length then .ok (List.zipWith (· - ·) x y) else .ub "sizes of the vectors"

omit [LinearOrder K] in
/-- `Hierarchy::apply`, /repo/include/mfmg/common/hierarchy.hpp:246-309, on the levels that remain.
`smooth o b x` is the result of all smoothing steps for the operator `o`, `solve` that of the coarse
solver; `zero` says whether `x` is set to zero first. -/
def sizedApply (smooth solve : HostOp K → List K → List K → List K) :
    Bool → List (SizedLevel K) → List K → List K → Outcome (List K)
  | _, [], _, _ => .ub "_levels index out of range"
  | zero, [level], b, x =>
    .ok (solve level.operator b (if zero then List.replicate x.length 0 else x))
  | zero, level :: next :: rest, b, x => do
    let x := if zero then List.replicate x.length 0 else x
    let r ← Outcome.deref next.restrictor "null restrictor"
    let x := smooth level.operator b x
    let res ← hostApply level.operator false x level.operator.domainSize
    let res ← vecSub res b
    let bCoarse ← hostApply r false res next.operator.domainSize
    let xCoarse ← sizedApply smooth solve true (next :: rest) bCoarse
      (List.replicate next.operator.domainSize 0)
    let correction ← hostApply r true xCoarse level.operator.domainSize
    let x ← vecSub x correction
    pure (smooth level.operator b x)

end

end Mfmg
