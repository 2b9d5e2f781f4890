import Verif.Model.Relaxation
import Mathlib.Algebra.Order.AbsoluteValue.Basic
import Mathlib.Algebra.Order.Field.Basic

/-!
# Model of the Chebyshev smoother of matrix-free hierarchies

`DealIIMatrixFreeSmoother`, /repo/source/dealii/dealii_matrix_free_smoother.cc:18-76.  The preconditioner is deal.II's
`PreconditionChebyshev`, modelled as deal.II documents it (version 9.1 and later; the version used by the
project is the development version named in /repo/ci/Dockerfile:233-234).
-/

set_option autoImplicit false

namespace Mfmg

variable {K : Type} [Field K] [LinearOrder K] {n : ℕ}

/-- `PreconditionChebyshev::AdditionalData`.
Filled at /repo/source/dealii/dealii_matrix_free_smoother.cc:37-53. -/
structure ChebyshevSettings (K : Type) where
  degree : ℕ
  smoothingRange : K
  maxEigenvalue : K
  eigCgIterations : ℕ

/-- The settings made in the constructor, /repo/source/dealii/dealii_matrix_free_smoother.cc:37-51, on top of
deal.II's defaults (degree 1, smoothing range 0, largest eigenvalue 1, 8 iterations to estimate eigenvalues).
The degree is converted from `int` to `unsigned int` (line 40). -/
def ChebyshevData.settings (d : ChebyshevData K) : ChebyshevSettings K where
  degree := (d.degree.map toUnsigned).getD 1
  smoothingRange := d.smoothingRange.getD 0
  maxEigenvalue := d.maxEigenvalue.getD 1
  eigCgIterations := 8

/-- The interval `[alpha, lmax]` chosen by `PreconditionChebyshev::initialize`
(/repo/source/dealii/dealii_matrix_free_smoother.cc:55).  `ritz` are the eigenvalue estimates of the conjugate
gradient iteration in increasing order, none if it made no step. -/
def chebyshevInterval (s : ChebyshevSettings K) (ritz : List K) : K × K :=
  let lmin := if 0 < s.eigCgIterations then ritz.head?.getD 1 else s.maxEigenvalue / s.smoothingRange
  let lmax := if 0 < s.eigCgIterations then (ritz.getLast?.map fun m => 6 / 5 * m).getD 1
    else s.maxEigenvalue
  let alpha := if 1 < s.smoothingRange then lmax / s.smoothingRange else min (9 / 10 * lmax) lmin
  (alpha, lmax)

/-- The loop of `PreconditionChebyshev::vmult`: `x` and `xold` are the last two iterates, `rho` the last
factor. Called at /repo/source/dealii/dealii_matrix_free_smoother.cc:74. -/
def chebyshevLoop (A P : (Fin n → K) → Fin n → K) (r : Fin n → K) (delta sigma : K) :
    ℕ → (Fin n → K) → (Fin n → K) → K → Fin n → K
  | 0, _, x, _ => x
  | k + 1, xold, x, rho =>
    let rho' := 1 / (2 * sigma - rho)
    chebyshevLoop A P r delta sigma k x
      (x + (rho' * rho) • (x - xold) + (2 * rho' / delta) • P (r - A x)) rho'

/-- `PreconditionChebyshev::vmult` (/repo/source/dealii/dealii_matrix_free_smoother.cc:74): `A` is the operator,
`dinv` the inverse of its diagonal.  For the degree `numbers::invalid_unsigned_int` deal.II chooses a degree,
`auto`. -/
def chebyshevVmult (s : ChebyshevSettings K) (auto : ℕ) (ritz : List K) (A : (Fin n → K) → Fin n → K)
    (dinv : Fin n → K) (r : Fin n → K) : Fin n → K :=
  let (alpha, lmax) := chebyshevInterval s ritz
  let delta := (lmax - alpha) / 2
  let theta := (lmax + alpha) / 2
  let P : (Fin n → K) → Fin n → K := fun v i => dinv i * v i
  let x := (1 / theta) • P r
  let degree := if s.degree = 2 ^ 32 - 1 then auto else s.degree
  if degree < 2 ∨ |delta| < 1 / 10 ^ 40 then x
  else chebyshevLoop A P r delta (theta / delta) (degree - 1) 0 x (delta / theta)

/-- `DealIIMatrixFreeSmoother::apply`, /repo/source/dealii/dealii_matrix_free_smoother.cc:63-76. -/
def matrixFreeSmootherApply (vmult : (Fin n → K) → Fin n → K) (a : Op (Fin n → K) (Fin n → K))
    (b x : Fin n → K) : Fin n → K :=
  -- r = -(b - Ax)
  let r := a.fwd x
  let r := r - b
  -- x = x + B^{-1} (-r)
  let tmp := vmult r
  x - tmp

/-- The helpers of `DealIIMatrixFreeHierarchyHelpers`
(/repo/source/dealii/dealii_matrix_free_hierarchy_helpers.cc:38-51, 305-322) for a problem with matrix `A`:
`dinv` is the inverse diagonal given by the user, `estimate` the eigenvalue estimates of deal.II; only the
operator of level 0 is matrix-free.  The products are exact (their drop tolerance is treated in C38); the
coarse solver is the direct solver `solve`. -/
def matrixFreeHelpers (debug : Bool) (type : Option (List Char)) (degree : Option ℤ)
    (range maxEigenvalue : Option K) (auto : ℕ) (dims : ℕ → ℕ) (dinv : ∀ l, Fin (dims l) → K)
    (estimate : ∀ l, ((Fin (dims l) → K) → Fin (dims l) → K) → (Fin (dims l) → K) → List K)
    (A : Matrix (Fin (dims 0)) (Fin (dims 0)) K)
    (R : ∀ l, Matrix (Fin (dims (l + 1))) (Fin (dims l)) K)
    (solve : ∀ l, Matrix (Fin (dims l)) (Fin (dims l)) K → (Fin (dims l) → K) → Fin (dims l) → K) :
    Helpers (fun l => Fin (dims l) → K) where
  globalOperator := .ok (matrixOp A)
  buildSmoother := fun l a _ => do
    let data ← matrixFreeSmoother debug (l == 0) type degree range maxEigenvalue
    pure (matrixFreeSmootherApply
      (chebyshevVmult data.settings auto (estimate l a.fwd (dinv l)) a.fwd (dinv l)) a)
  buildRestrictor := fun l _ => .ok (matrixOp (R l))
  fastMultiplyTranspose := fun _ => .throws "not modelled"
  multiplyTranspose := fun _ a r => .ok (a.mulTranspose r)
  multiply := fun _ r ap => .ok (r.mul ap)
  buildCoarseSolver := fun l a _ => .ok fun b _ => solve l (entriesOf a) b

end Mfmg
