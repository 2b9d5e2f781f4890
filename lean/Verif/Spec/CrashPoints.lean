import Verif.Model.CrashPoints
import Verif.Spec.DeviceSetup
import Mathlib.Data.List.Perm.Basic

/-!
# Specification for C99: what a failed set-up leaves behind
-/

set_option autoImplicit false

namespace Mfmg

/-- In `c` everything in use in `h` is still in use, and besides exactly `k` resources acquired since. -/
def DevHeap.Leaves (h c : DevHeap) (k : ℕ) : Prop :=
  ∃ l : List ℕ, h.Leaks c l ∧ l.Nodup ∧ l.length = k ∧ h.next ≤ c.next

/-- The program `m`, started with the resources `h`, has `left.length` calls that can throw.  If the call
number `i` throws, the exception leaves the program and `left[i]` resources acquired by it stay in use for
ever.  If none throws, the program ends normally and `kept` of the resources it acquired are in use. -/
def Crashy.FailsLeaving {α : Type} (m : Crashy α) (h : DevHeap) (left : List ℕ) (kept : ℕ) : Prop :=
  (∀ (i k : ℕ), left[i]? = some k → ∃ c, m (some i) h = (.thrown, none, c) ∧ h.Leaves c k) ∧
  (∀ i, left.length ≤ i → ∃ a c, m (some i) h = (.done a, some (i - left.length), c) ∧ h.Leaves c kept) ∧
  (∃ a c, m none h = (.done a, none, c) ∧ h.Leaves c kept)

/-- What the set-up should satisfy: whatever call throws, nothing stays in use. -/
def Crashy.FailsCleanly {α : Type} (m : Crashy α) : Prop :=
  ∀ (h : DevHeap) (i : ℕ), (∃ a n c, m (some i) h = (.done a, n, c)) ∨
    ∃ n c, m (some i) h = (.thrown, n, c) ∧ h.Leaves c 0

/-- What stays in use if a call throws while an agglomerate is treated, call by call: the triangulation, the
evaluator (before and after it has filled the matrix), the workspace on the host, the map of the dofs and its
copy, the eigenvectors on the host (one array, then each of the `m` eigenvectors), the diagonal (array, list),
the lists of maps and of numbers. -/
def aggLeft (m : ℕ) : List ℕ :=
  [0, 0, 0, 5, 4, 4, 4] ++ List.replicate m 4 ++ [3, 3, 2, 2]

/-- The arrays acquired before each index set among the arguments. -/
def argsLeft : ℕ → List ConvertArg → List ℕ
  | _, [] => []
  | k, .range :: as => k :: argsLeft k as
  | k, .domain :: as => k :: argsLeft k as
  | k, .val :: as => argsLeft (k + 1) as
  | k, .col :: as => argsLeft (k + 1) as
  | k, .rowPtr :: as => argsLeft (k + 1) as

/-- An order of the five arguments. -/
def ArgOrder (order : List ConvertArg) : Prop :=
  order.Perm [.val, .col, .rowPtr, .range, .domain]

/-- `convert_matrix`: the vectors on the host, the arguments, the two index sets of the object. -/
def convertLeft (hostVectors : ℕ) (order : List ConvertArg) : List ℕ :=
  List.replicate hostVectors 0 ++ argsLeft 0 order ++ [3, 3]

/-- The set-up of the restrictor with `n` agglomerates: each agglomerate that has been treated leaves two
resources. -/
def setupLeft (m hostVectors : ℕ) (order : List ConvertArg) (n : ℕ) : List ℕ :=
  [0, 0] ++ (List.range n).flatMap (fun j => (aggLeft m).map (2 * j + ·)) ++
    ([0, 0, 0] ++ convertLeft hostVectors order ++ [0, 0, 0, 0, 0]).map (2 * n + ·)

/-- What is left behind by one attempt that fails at `n`, or succeeds and is destroyed afterwards. -/
def leftBy (left : List ℕ) (kept : ℕ) : Option ℕ → ℕ
  | none => kept
  | some n => left.getD n kept

end Mfmg
