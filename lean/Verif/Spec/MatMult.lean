import Verif.Model.MatMult

/-!
# Specification: the product with a transpose
-/

set_option autoImplicit false

namespace Mfmg

variable {K : Type} [Field K]

/-- The number at row `j`, column `k`: the stored value, zero if nothing is stored. -/
def DistMatrix.value (B : DistMatrix K) (j k : ℕ) : K :=
  (((B.entries j).find? (fun e => e.1 == k)).map Prod.snd).getD 0

/-- Every row has an owner among the processes and stores no column twice. -/
def DistMatrix.WellFormed (procs : ℕ) (B : DistMatrix K) : Prop :=
  ∀ j, j < B.rows → B.rowOwner j < procs ∧ ((B.entries j).map Prod.fst).Nodup

/-- `apply` is multiplication by the matrix `a` with `n` columns. -/
def IsMatrix (n : ℕ) (a : ℕ → ℕ → K) (apply : (ℕ → K) → (ℕ → K)) : Prop :=
  ∀ v i, apply v i = ((List.range n).map (fun k => a i k * v k)).sum

/-- `(A Bᵀ)_{ij} = Σ_k A_{ik} B_{jk}`. -/
def productTransposed (n : ℕ) (a : ℕ → ℕ → K) (B : DistMatrix K) (i j : ℕ) : K :=
  ((List.range n).map (fun k => a i k * B.value j k)).sum

end Mfmg
