import Verif.Model.Relaxation
import Verif.Spec.Relaxation
import Verif.Spec.TwoLevel
import Verif.Spec.SetupAll

/-!
# Specification: methods that are not slower with more eigenvectors or more smoothing steps
-/

set_option autoImplicit false

namespace Mfmg

variable {K : Type} [Field K] {n : ℕ}

/-- Every row of `R` is a combination of rows of `R'`: the coarse space of `R'` contains that of `R`. -/
def ContainsRows {m m' : ℕ} (R' : Matrix (Fin m') (Fin n) K) (R : Matrix (Fin m) (Fin n) K) : Prop :=
  ∃ W : Matrix (Fin m) (Fin m') K, R = W * R'

/-- The rows of the processes on the fine level; the coarse level is on one process. -/
def twoLevelRows (procs : List (List (Fin n))) (m : ℕ) : ∀ l, List (List (Fin (twoLevels n m l)))
  | 0 => procs
  | _ + 1 => [List.finRange m]

/-- One application of the two-level hierarchy with the restriction matrix `R`: construction succeeds, and applied to
`x` and `b` the hierarchy gives `y`, whatever is in new vectors. -/
def TwoLevelGives (debug timer : Bool) (p : Params) (type : Option (List Char)) (procs : List (List (Fin n)))
    (solve : ∀ m, Matrix (Fin m) (Fin m) K → (Fin m → K) → Fin m → K) (A : Matrix (Fin n) (Fin n) K) {m : ℕ}
    (R : Matrix (Fin m) (Fin n) K) (x b y : Fin n → K) : Prop :=
  ∃ H, (buildHierarchy debug timer (some p) (.ok (matrixHelpers debug type (twoLevels n m)
      (twoLevelRows procs m) A (twoLevelRestriction R) (fun l => solve (twoLevels n m l))))).result = .ok H ∧
    ∀ fresh, (H.vmult fresh x b).result = .ok y

/-- Every application with the exact solution `xs` reduces the energy of the error by the factor `c`. -/
def ReducesBy [LinearOrder K] (A : Matrix (Fin n) (Fin n) K) (gives : (x b y : Fin n → K) → Prop) (c : K) : Prop :=
  ∀ x b xs, A.mulVec xs = b → ∃ y, gives x b y ∧ energyOf A (xs - y) ≤ c * energyOf A (xs - x)

/-- Methods for all restriction matrices: with a larger coarse space every bound `c²` of the reduction still holds. -/
def LargerNotSlower [LinearOrder K] (A : Matrix (Fin n) (Fin n) K)
    (gives : ∀ {m : ℕ}, Matrix (Fin m) (Fin n) K → (x b y : Fin n → K) → Prop) : Prop :=
  ∀ {m m' : ℕ} (R : Matrix (Fin m) (Fin n) K) (R' : Matrix (Fin m') (Fin n) K), IndependentRows R → IndependentRows R' →
    ContainsRows R' R → ∀ c, 0 ≤ c → ReducesBy A (gives R) (c * c) → ReducesBy A (gives R') (c * c)

/-- With a larger coarse space every single application leaves at most the error it leaves with the smaller one. -/
def LargerBetterEachTime [LinearOrder K] (A : Matrix (Fin n) (Fin n) K)
    (gives : ∀ {m : ℕ}, Matrix (Fin m) (Fin n) K → (x b y : Fin n → K) → Prop) : Prop :=
  ∀ {m m' : ℕ} (R : Matrix (Fin m) (Fin n) K) (R' : Matrix (Fin m') (Fin n) K), IndependentRows R → IndependentRows R' →
    ContainsRows R' R → ∀ x b xs y y', A.mulVec xs = b → gives R x b y → gives R' x b y' →
    energyOf A (xs - y') ≤ energyOf A (xs - y)

/-- The same finite element problem on the same mesh; on every agglomerate `q'` has the vectors of `q` and possibly
more. -/
structure MoreVectors (name : String) (q q' : ProcFem K) : Prop where
  mesh : q'.share.mesh = q.share.mesh
  agglomerate : ∀ debug dim s u, q'.share.agglomerate debug dim s u = q.share.agglomerate debug dim s u
  more : ∀ cells c, q.share.solver cells name [] = .ok c → ∃ c', q'.share.solver cells name [] = .ok c' ∧
    c'.dofMap = c.dofMap ∧ c'.diag = c.diag ∧ c.eigenvectors <+: c'.eigenvectors

end Mfmg
