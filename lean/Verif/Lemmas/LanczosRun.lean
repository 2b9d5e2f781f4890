import Verif.Lemmas.Tridiag
import Mathlib.Analysis.InnerProductSpace.Spectrum
import Mathlib.Analysis.Matrix.Spectrum
import Mathlib.Analysis.Real.Sqrt
import Mathlib.Data.Fin.Tuple.Sort

/-!
# A contract-abiding `dstev` exists; lemmas on whole runs
-/

set_option autoImplicit false

namespace Mfmg

open Finset
open scoped InnerProductSpace

/-- The tridiagonal matrix as a Mathlib matrix. -/
noncomputable def tridiagMatrix (n : ℕ) (d s : List ℝ) : Matrix (Fin n) (Fin n) ℝ :=
  fun j k => tridiagEntry d s j k

theorem tridiagEntry_symm (d s : List ℝ) (j k : ℕ) : tridiagEntry d s j k = tridiagEntry d s k j := by
  simp only [tridiagEntry]
  split_ifs <;> first | rfl | omega | (subst_vars; rfl)

theorem tridiagMatrix_herm (n : ℕ) (d s : List ℝ) : (tridiagMatrix n d s).IsHermitian := by
  ext j k
  simp [tridiagMatrix, Matrix.conjTranspose_apply, tridiagEntry_symm d s k j]

/-- Order of the eigenvalues. -/
noncomputable def eigenOrder (n : ℕ) (d s : List ℝ) : Equiv.Perm (Fin n) :=
  Tuple.sort (tridiagMatrix_herm n d s).eigenvalues

/-- The exact eigenvalue routine. -/
noncomputable def exactDstev (d s : List ℝ) : List ℝ × List ℝ :=
  let h := tridiagMatrix_herm d.length d s
  let σ := eigenOrder d.length d s
  (List.ofFn (fun k => h.eigenvalues (σ k)),
    (List.range d.length).flatMap (fun k =>
      if hk : k < d.length then List.ofFn (fun j => (h.eigenvectorBasis (σ ⟨k, hk⟩)).ofLp j) else []))

theorem getD_ofFn {α : Type} (n : ℕ) (f : Fin n → α) (d : α) (k : ℕ) (hk : k < n) :
    (List.ofFn f).getD k d = f ⟨k, hk⟩ := by
  simp [List.getD, List.getElem?_ofFn, hk]

theorem exactDstev_column (d s : List ℝ) (k : ℕ) (hk : k < d.length) :
    column d.length (exactDstev d s).2 k = List.ofFn (fun j =>
      ((tridiagMatrix_herm d.length d s).eigenvectorBasis (eigenOrder d.length d s ⟨k, hk⟩)).ofLp j) := by
  unfold exactDstev
  simp only
  rw [column_flatMap d.length _ (List.range d.length) ?_ k k (by simp [hk])]
  · rw [dif_pos hk]
  · intro j hj
    rw [dif_pos (List.mem_range.1 hj)]; simp

/-- The contract of `dstev` can be met. -/
theorem exactDstev_contract : DstevContract exactDstev where
  len := by intro d s _; simp [exactDstev]
  flat := by
    intro d s _
    simp only [exactDstev, List.length_flatMap]
    have : (List.range d.length).map (fun k => (if hk : k < d.length then List.ofFn (fun j =>
        ((tridiagMatrix_herm d.length d s).eigenvectorBasis
          (eigenOrder d.length d s ⟨k, hk⟩)).ofLp j) else []).length)
        = List.replicate d.length d.length := by
      rw [List.eq_replicate_iff]
      refine ⟨by simp, ?_⟩
      intro b hb
      obtain ⟨k, hk, rfl⟩ := List.mem_map.1 hb
      rw [dif_pos (List.mem_range.1 hk)]; simp
    rw [this]
    simp
  sorted := by
    intro d s _
    simp only [exactDstev]
    rw [List.pairwise_iff_getElem]
    intro i j hi hj hij
    simp only [List.getElem_ofFn]
    exact Tuple.monotone_sort (tridiagMatrix_herm d.length d s).eigenvalues
      (by simpa [Fin.le_def] using hij.le)
  eigen := by
    intro d s _ k hk j hj
    simp only
    rw [exactDstev_column d s k hk]
    have := congrFun ((tridiagMatrix_herm d.length d s).mulVec_eigenvectorBasis
      (eigenOrder d.length d s ⟨k, hk⟩)) ⟨j, hj⟩
    simp only [exactDstev]
    rw [getD_ofFn _ _ _ _ hk, getD_ofFn _ _ _ _ hj]
    simp only [Matrix.mulVec, dotProduct, Pi.smul_apply, smul_eq_mul] at this
    rw [← this, Finset.sum_range]
    refine Finset.sum_congr rfl ?_
    intro i _
    rw [getD_ofFn _ _ _ _ i.2]
    rfl
  orthonormal := by
    intro d s _ k l hk hl
    rw [exactDstev_column d s k hk, exactDstev_column d s l hl, Finset.sum_range]
    have := (orthonormal_iff_ite.1
      (tridiagMatrix_herm d.length d s).eigenvectorBasis.orthonormal)
      (eigenOrder d.length d s ⟨k, hk⟩) (eigenOrder d.length d s ⟨l, hl⟩)
    rw [PiLp.inner_apply] at this
    have hkl : (eigenOrder d.length d s ⟨k, hk⟩ = eigenOrder d.length d s ⟨l, hl⟩) ↔ k = l := by
      rw [(eigenOrder d.length d s).injective.eq_iff, Fin.mk.injEq]
    simp only [hkl] at this
    rw [← this]
    refine Finset.sum_congr rfl ?_
    intro i _
    rw [getD_ofFn _ _ _ _ i.2, getD_ofFn _ _ _ _ i.2]
    simp [mul_comm]

end Mfmg
