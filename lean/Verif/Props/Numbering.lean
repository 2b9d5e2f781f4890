import Verif.Lemmas.Numbering
import Verif.Props.Ilu
import Verif.Props.Chebyshev
import Verif.Props.Units
import Verif.Props.RelaxationProcs

/-!
# Numbering of the unknowns and distribution over the processes (C90)
-/

set_option autoImplicit false

namespace Mfmg

open Spec

section

variable {K : Type} [Field K] [LinearOrder K]

omit [LinearOrder K] in
/-- Two hierarchies whose components correspond to each other under renumbering. -/
theorem vmult_rename {dims : ℕ → ℕ} (σ : ∀ l, Equiv.Perm (Fin (dims l)))
    (H H' : Hierarchy (fun l => Fin (dims l) → K))
    (D D' : Data K (fun l => Fin (dims l) → K)) (hH : IsLinear H D) (hH' : IsLinear H' D')
    (hn : H'.numLevels = H.numLevels) (hs : H'.nSmoothingSteps = H.nSmoothingSteps)
    (hp : H'.isPreconditioner = H.isPreconditioner)
    (hmode : H.isPreconditioner = true ∨ 2 ≤ H.numLevels)
    (hA : ∀ l x, D'.A l (renameVec (σ l) x) = renameVec (σ l) (D.A l x))
    (hB : ∀ l r, D'.B l (renameVec (σ l) r) = renameVec (σ l) (D.B l r))
    (hR : ∀ l x, D'.R l (renameVec (σ l) x) = renameVec (σ (l + 1)) (D.R l x))
    (hP : ∀ l y, D'.P l (renameVec (σ (l + 1)) y) = renameVec (σ l) (D.P l y))
    (hC : ∀ l r, D'.C l (renameVec (σ l) r) = renameVec (σ l) (D.C l r)) :
    ∀ fresh fresh' b x, ∃ y, (H.vmult fresh x b).result = .ok y ∧
      (H'.vmult fresh' (renameVec (σ 0) x) (renameVec (σ 0) b)).result = .ok (renameVec (σ 0) y) := by
  have hpos := hH.pos
  intro fresh fresh' b x
  refine ⟨_, C04_cycle_is_textbook H D hH fresh x b hmode, ?_⟩
  rw [C04_cycle_is_textbook H' D' hH' fresh' _ _ (by rw [hp, hn]; exact hmode), hp, hn, hs]
  have h := fun x => cycle_transport D D' (fun l => renameLin (σ l)) 1 H.numLevels
    (fun l _ x => by rw [one_smul]; exact hA l x) (fun l _ r => by rw [one_smul]; exact hB l r)
    (fun l _ => hR l) (fun l _ => hP l) (fun l _ r => by rw [one_smul]; exact hC l r)
    H.nSmoothingSteps (H.numLevels - 1) 0 (by omega) b x
  have hx : (if H.isPreconditioner = true then 0 else renameVec (σ 0) x)
      = renameLin (σ 0) (if H.isPreconditioner = true then 0 else x) := by
    split_ifs
    · rfl
    · rfl
  rw [hx]
  have h' := h (if H.isPreconditioner = true then 0 else x)
  rw [one_smul] at h'
  exact congrArg Outcome.ok h'

/-- **C90**, names: if the unknowns of all levels are renumbered and the processes keep their rows in the same
order, the result of every cycle is the renumbered result, for all four smoothers, any number of levels and
processes, and any two exact coarse solvers. -/
theorem C90_names (debug timer : Bool) (p : Params) (type : Option (List Char)) (k : SmootherKind)
    (hk : dealiiSmoother debug true type = .ok k) (dims : ℕ → ℕ)
    (procs : ∀ l, List (List (Fin (dims l)))) (graph : ∀ l, Fin (dims l) → Fin (dims l) → Bool)
    (A : Matrix (Fin (dims 0)) (Fin (dims 0)) K) (hA : IsSpd A)
    (R : ∀ l, Matrix (Fin (dims (l + 1))) (Fin (dims l)) K) (hR : ∀ l, IndependentRows (R l))
    (solve solve' : ∀ l, Matrix (Fin (dims l)) (Fin (dims l)) K → (Fin (dims l) → K) → Fin (dims l) → K)
    (hsolve : ∀ l, SolvesExactly (solve l)) (hsolve' : ∀ l, SolvesExactly (solve' l))
    (hpos : 0 < p.maxLevels.getD 2) (hfast : p.fastAp.getD false = false)
    (hmode : p.isPreconditioner.getD true = true ∨ 2 ≤ p.maxLevels.getD 2)
    (σ : ∀ l, Equiv.Perm (Fin (dims l))) :
    ∃ H H' : Hierarchy (fun l => Fin (dims l) → K),
      (buildHierarchy debug timer (some p)
        (.ok (fullHelpers debug type dims procs graph A R solve))).result = .ok H ∧
      (buildHierarchy debug timer (some p)
        (.ok (fullHelpers debug type dims (fun l => renameProcs (σ l) (procs l))
          (fun l => renameGraph (σ l) (graph l)) (renameMatrix (σ 0) (σ 0) A)
          (fun l => renameMatrix (σ (l + 1)) (σ l) (R l)) solve'))).result = .ok H' ∧
      ∀ fresh fresh' b x, ∃ y, (H.vmult fresh x b).result = .ok y ∧
        (H'.vmult fresh' (renameVec (σ 0) x) (renameVec (σ 0) b)).result = .ok (renameVec (σ 0) y) := by
  have hA' := spd_rename (σ 0) hA
  have hR' := fun l => independentRows_rename (σ (l + 1)) (σ l) (hR l)
  have hop : ∀ l x, (coarseMatrix dims (renameMatrix (σ 0) (σ 0) A)
      (fun l => renameMatrix (σ (l + 1)) (σ l) (R l)) l).mulVec (renameVec (σ l) x)
        = renameVec (σ l) ((coarseMatrix dims A R l).mulVec x) := by
    intro l x
    rw [coarseMatrix_rename, renameMatrix_mulVec]
  have hinv : ∀ l x, (coarseMatrix dims (renameMatrix (σ 0) (σ 0) A)
      (fun l => renameMatrix (σ (l + 1)) (σ l) (R l)) l)⁻¹.mulVec (renameVec (σ l) x)
        = renameVec (σ l) ((coarseMatrix dims A R l)⁻¹.mulVec x) := by
    intro l x
    rw [coarseMatrix_rename, renameMatrix_inv, renameMatrix_mulVec]
  cases hrel : k.relaxation with
  | some kind =>
    rw [fullHelpers_relaxation debug type k kind hk hrel, fullHelpers_relaxation debug type k kind hk hrel]
    obtain ⟨H, e, h1, h2, h3, h4⟩ := matrixHelpers_build debug timer p type k kind hk hrel dims procs A hA R hR
      solve hsolve hpos hfast
    obtain ⟨H', e', h1', h2', h3', h4'⟩ := matrixHelpers_build debug timer p type k kind hk hrel dims
      (fun l => renameProcs (σ l) (procs l)) _ hA' _ hR' solve' hsolve' hpos hfast
    refine ⟨H, H', e, e', vmult_rename σ H H' _ _ h1 h1' (h2'.trans h2.symm) (h4'.trans h4.symm)
      (h3'.trans h3.symm) (by rw [h3, h2]; exact hmode.imp id (fun h => by omega)) hop ?_
      (fun l x => renameMatrix_mulVec _ _ _ _) (fun l x => renameMatrix_mulVec _ _ (R l).transpose _) hinv⟩
    intro l r
    change relaxVmult kind (coarseMatrix dims _ _ l) (renameProcs (σ l) (procs l)) (renameVec (σ l) r)
      = renameVec (σ l) (relaxVmult kind (coarseMatrix dims A R l) (procs l) r)
    rw [coarseMatrix_rename, relaxVmult_rename]
  | none =>
    obtain rfl : k = .ilu := by cases k <;> simp_all [SmootherKind.relaxation]
    obtain ⟨H, e, h1, h2, h3, h4⟩ := fullHelpers_build debug timer p type hk dims procs graph A hA R hR
      solve hsolve hpos hfast
    obtain ⟨H', e', h1', h2', h3', h4'⟩ := fullHelpers_build debug timer p type hk dims
      (fun l => renameProcs (σ l) (procs l)) (fun l => renameGraph (σ l) (graph l)) _ hA' _ hR'
      solve' hsolve' hpos hfast
    refine ⟨H, H', e, e', vmult_rename σ H H' _ _ h1 h1' (h2'.trans h2.symm) (h4'.trans h4.symm)
      (h3'.trans h3.symm) (by rw [h3, h2]; exact hmode.imp id (fun h => by omega)) hop ?_
      (fun l x => renameMatrix_mulVec _ _ _ _) (fun l x => renameMatrix_mulVec _ _ (R l).transpose _) hinv⟩
    intro l r
    change iluVmult (renameGraph (σ l) (graph l)) (coarseMatrix dims _ _ l) (renameProcs (σ l) (procs l))
      (renameVec (σ l) r) = renameVec (σ l) (iluVmult (graph l) (coarseMatrix dims A R l) (procs l) r)
    rw [coarseMatrix_rename, iluVmult_rename]

omit [LinearOrder K] in
/-- **C90**, processes, with the Jacobi smoother: the whole behaviour of the hierarchy, from its construction
on, is the same for all distributions of the rows over any numbers of processes, in any order.  Missing: the
other smoothers, see the `_violated` theorems. -/
theorem C90_processes_partial (debug timer : Bool) (p : Option Params) (type : Option (List Char))
    (hk : dealiiSmoother debug true type = .ok .jacobi) (dims : ℕ → ℕ)
    (procs procs' : ∀ l, List (List (Fin (dims l)))) (hprocs : ∀ l, ListsAll (procs l).flatten)
    (hprocs' : ∀ l, ListsAll (procs' l).flatten) (graph graph' : ∀ l, Fin (dims l) → Fin (dims l) → Bool)
    (A : Matrix (Fin (dims 0)) (Fin (dims 0)) K)
    (R : ∀ l, Matrix (Fin (dims (l + 1))) (Fin (dims l)) K)
    (solve : ∀ l, Matrix (Fin (dims l)) (Fin (dims l)) K → (Fin (dims l) → K) → Fin (dims l) → K) :
    buildHierarchy debug timer p (.ok (fullHelpers debug type dims procs graph A R solve))
      = buildHierarchy debug timer p (.ok (fullHelpers debug type dims procs' graph' A R solve)) := by
  have h : fullHelpers debug type dims procs graph A R solve
      = fullHelpers debug type dims procs' graph' A R solve := by
    unfold fullHelpers matrixHelpers
    simp only [Helpers.mk.injEq, true_and, and_true]
    funext l a q
    rw [hk]
    change Outcome.ok (dealiiSmootherApply .jacobi (procs l) a) = .ok (dealiiSmootherApply .jacobi (procs' l) a)
    congr 1
    funext b x
    simp only [dealiiSmootherApply]
    rw [relaxVmult_jacobi_all (hprocs l), relaxVmult_jacobi_all (hprocs' l)]
  rw [h]

/-- **C90**, numbering and processes together, with the Jacobi smoother. -/
theorem C90_numbering_partial (debug timer : Bool) (p : Params) (type : Option (List Char))
    (hk : dealiiSmoother debug true type = .ok .jacobi) (dims : ℕ → ℕ)
    (procs procs' : ∀ l, List (List (Fin (dims l)))) (hprocs : ∀ l, ListsAll (procs l).flatten)
    (hprocs' : ∀ l, ListsAll (procs' l).flatten) (graph graph' : ∀ l, Fin (dims l) → Fin (dims l) → Bool)
    (A : Matrix (Fin (dims 0)) (Fin (dims 0)) K) (hA : IsSpd A)
    (R : ∀ l, Matrix (Fin (dims (l + 1))) (Fin (dims l)) K) (hR : ∀ l, IndependentRows (R l))
    (solve solve' : ∀ l, Matrix (Fin (dims l)) (Fin (dims l)) K → (Fin (dims l) → K) → Fin (dims l) → K)
    (hsolve : ∀ l, SolvesExactly (solve l)) (hsolve' : ∀ l, SolvesExactly (solve' l))
    (hpos : 0 < p.maxLevels.getD 2) (hfast : p.fastAp.getD false = false)
    (hmode : p.isPreconditioner.getD true = true ∨ 2 ≤ p.maxLevels.getD 2)
    (σ : ∀ l, Equiv.Perm (Fin (dims l))) :
    ∃ H H' : Hierarchy (fun l => Fin (dims l) → K),
      (buildHierarchy debug timer (some p)
        (.ok (fullHelpers debug type dims procs graph A R solve))).result = .ok H ∧
      (buildHierarchy debug timer (some p)
        (.ok (fullHelpers debug type dims procs' graph' (renameMatrix (σ 0) (σ 0) A)
          (fun l => renameMatrix (σ (l + 1)) (σ l) (R l)) solve'))).result = .ok H' ∧
      ∀ fresh fresh' b x, ∃ y, (H.vmult fresh x b).result = .ok y ∧
        (H'.vmult fresh' (renameVec (σ 0) x) (renameVec (σ 0) b)).result = .ok (renameVec (σ 0) y) := by
  have hren : ∀ l, ListsAll (renameProcs (σ l) (procs l)).flatten := by
    intro l
    have : (renameProcs (σ l) (procs l)).flatten = (procs l).flatten.map (σ l) := by
      rw [List.map_flatten]
      rfl
    rw [this]
    refine ⟨(hprocs l).1.map (σ l).injective, fun i => ?_⟩
    obtain ⟨i, rfl⟩ := (σ l).surjective i
    exact List.mem_map_of_mem ((hprocs l).2 i)
  rw [C90_processes_partial debug timer (some p) type hk dims procs' (fun l => renameProcs (σ l) (procs l))
    hprocs' hren graph' (fun l => renameGraph (σ l) (graph l))]
  exact C90_names debug timer p type _ hk dims procs graph A hA R hR solve solve' hsolve hsolve' hpos hfast hmode σ

end

/-! ## Chebyshev smoothing -/

theorem chebyshevVmult_rename {K : Type} [Field K] [LinearOrder K] {n : ℕ} (σ : Equiv.Perm (Fin n))
    (s : ChebyshevSettings K) (auto : ℕ) (ritz : List K) (A A' : (Fin n → K) → Fin n → K)
    (hA : ∀ x, A' (renameVec σ x) = renameVec σ (A x)) (dinv r : Fin n → K) :
    chebyshevVmult s auto ritz A' (renameVec σ dinv) (renameVec σ r)
      = renameVec σ (chebyshevVmult s auto ritz A dinv r) := by
  have hloop : ∀ (delta sigma : K) k xold x rho,
      chebyshevLoop A' (fun v i => renameVec σ dinv i * v i) (renameVec σ r) delta sigma k
          (renameVec σ xold) (renameVec σ x) rho
        = renameVec σ (chebyshevLoop A (fun v i => dinv i * v i) r delta sigma k xold x rho) := by
    intro delta sigma k
    induction k with
    | zero => intros; rfl
    | succ k ih =>
      intro xold x rho
      simp only [chebyshevLoop]
      rw [hA, ← ih]
      rfl
  simp only [chebyshevVmult]
  split_ifs <;> first | rfl | (rw [← hloop]; rfl)

/-- **C90**, names, for matrix-free hierarchies with Chebyshev smoothing (which knows no processes), if the
eigenvalue estimates are the same in both numberings.  Missing: the estimates come from an iteration whose
start vector depends on the numbers of the unknowns. -/
theorem C90_chebyshev_partial (debug timer : Bool) (p : Params) (type : Option (List Char))
    (htype : EqNoCase (type.getD (chars! "Chebyshev")) (chars! "chebyshev")) (degree : Option ℤ)
    (range maxEigenvalue : Option ℝ) (auto : ℕ) (dims : ℕ → ℕ) (dinv : ∀ l, Fin (dims l) → ℝ)
    (estimate : ∀ l, ((Fin (dims l) → ℝ) → Fin (dims l) → ℝ) → (Fin (dims l) → ℝ) → List ℝ)
    (A : Matrix (Fin (dims 0)) (Fin (dims 0)) ℝ) (hA : IsSpd A)
    (R : ∀ l, Matrix (Fin (dims (l + 1))) (Fin (dims l)) ℝ) (hR : ∀ l, IndependentRows (R l))
    (solve solve' : ∀ l, Matrix (Fin (dims l)) (Fin (dims l)) ℝ → (Fin (dims l) → ℝ) → Fin (dims l) → ℝ)
    (hsolve : ∀ l, SolvesExactly (solve l)) (hsolve' : ∀ l, SolvesExactly (solve' l))
    (hlev : p.maxLevels.getD 2 = 2) (hfast : p.fastAp.getD false = false)
    (σ : ∀ l, Equiv.Perm (Fin (dims l)))
    (hest : estimate 0 (renameMatrix (σ 0) (σ 0) A).mulVec (renameVec (σ 0) (dinv 0))
      = estimate 0 A.mulVec (dinv 0)) :
    ∃ H H' : Hierarchy (fun l => Fin (dims l) → ℝ),
      (buildHierarchy debug timer (some p) (.ok (matrixFreeHelpers debug type degree range maxEigenvalue
        auto dims dinv estimate A R solve))).result = .ok H ∧
      (buildHierarchy debug timer (some p) (.ok (matrixFreeHelpers debug type degree range maxEigenvalue
        auto dims (fun l => renameVec (σ l) (dinv l)) estimate (renameMatrix (σ 0) (σ 0) A)
        (fun l => renameMatrix (σ (l + 1)) (σ l) (R l)) solve'))).result = .ok H' ∧
      ∀ fresh fresh' b x, ∃ y, (H.vmult fresh x b).result = .ok y ∧
        (H'.vmult fresh' (renameVec (σ 0) x) (renameVec (σ 0) b)).result = .ok (renameVec (σ 0) y) := by
  have hA' := spd_rename (σ 0) hA
  have hR' := fun l => independentRows_rename (σ (l + 1)) (σ l) (hR l)
  have hop : ∀ l x, (coarseMatrix dims (renameMatrix (σ 0) (σ 0) A)
      (fun l => renameMatrix (σ (l + 1)) (σ l) (R l)) l).mulVec (renameVec (σ l) x)
        = renameVec (σ l) ((coarseMatrix dims A R l).mulVec x) := by
    intro l x
    rw [coarseMatrix_rename, renameMatrix_mulVec]
  obtain ⟨H, e, h1, h2, h3, h4⟩ := matrixFreeHelpers_build debug timer p type htype degree range maxEigenvalue
    auto dims dinv estimate A hA R hR solve hsolve hlev hfast
  obtain ⟨H', e', h1', h2', h3', h4'⟩ := matrixFreeHelpers_build debug timer p type htype degree range
    maxEigenvalue auto dims (fun l => renameVec (σ l) (dinv l)) estimate _ hA' _ hR' solve' hsolve' hlev hfast
  refine ⟨H, H', e, e', vmult_rename σ H H' _ _ h1 h1' (h2'.trans h2.symm) (h4'.trans h4.symm)
    (h3'.trans h3.symm) (by rw [h2]; exact Or.inr le_rfl) hop ?_
    (fun l x => renameMatrix_mulVec _ _ _ _) (fun l x => renameMatrix_mulVec _ _ (R l).transpose _) ?_⟩
  · intro l r
    change chebyshevVmult _ auto _ (coarseMatrix dims _ _ l).mulVec (renameVec (σ l) (dinv l))
      (renameVec (σ l) r) = renameVec (σ l) (chebyshevVmult _ auto _ (coarseMatrix dims A R l).mulVec (dinv l) r)
    rw [hest]
    exact chebyshevVmult_rename (σ l) _ auto _ _ _ (hop l) (dinv l) r
  · intro l x
    change (coarseMatrix dims _ _ l)⁻¹.mulVec (renameVec (σ l) x)
      = renameVec (σ l) ((coarseMatrix dims A R l)⁻¹.mulVec x)
    rw [coarseMatrix_rename, renameMatrix_inv, renameMatrix_mulVec]

/-! ## The restriction matrix -/

section

variable {K : Type} [Field K]

/-- The rows of one agglomerate, one after the other, from row `row` on. -/
def agglomerateRows (debug dynAdds : Bool) (gdiag : ℕ → K) (dofs : List ℕ) (diag : List K) :
    List (List K) → ℕ → Assembled K → Outcome (Assembled K)
  | [], _, s => .ok s
  | ev :: evs, row, s => do
    Outcome.assert debug (ev.length == dofs.length)
    let s ← match ev with
      | [] => .ok s
      | _ :: _ => elemLoop dynAdds gdiag row dofs diag ev 0 s
    agglomerateRows debug dynAdds gdiag dofs diag evs (row + 1) s

/-- The rows of a list of agglomerates. -/
def agglomeratesRows (debug dynAdds : Bool) (gdiag : ℕ → K) :
    List (CopyData K) → ℕ → Assembled K → Outcome (Assembled K)
  | [], _, a => .ok a
  | c :: cs, row, a => do
    let a ← agglomerateRows debug dynAdds gdiag c.dofMap c.diag c.eigenvectors row a
    agglomeratesRows debug dynAdds gdiag cs (row + c.eigenvectors.length) a

theorem outcome_bind_assoc {α β γ : Type} (x : Outcome α) (f : α → Outcome β) (g : β → Outcome γ) :
    (x >>= f) >>= g = x >>= fun a => f a >>= g := by
  cases x <;> rfl

theorem vecLoop_rows (debug dynAdds : Bool) (gdiag : ℕ → K) (first : ℕ) (evs : List (List K))
    (dofs : List ℕ) (diag : List K) (l rest : List (List K)) (pos : ℕ) (hl : evs.drop pos = l ++ rest)
    (s : Assembled K) :
    vecLoop debug dynAdds gdiag first evs dofs (.ok diag) l.length pos s
      = (do let s ← agglomerateRows debug dynAdds gdiag dofs diag l (first + pos) s
            .ok (pos + l.length, s)) := by
  induction l generalizing pos s with
  | nil => rfl
  | cons ev l ih =>
    have hget : Outcome.get evs pos "eigenvectors[pos]" = .ok ev := by
      have : evs[pos]? = some ev := by
        have := congrArg (fun l => l[0]?) hl
        simpa using this
      simp [Outcome.get, this]
    have hdrop : evs.drop (pos + 1) = l ++ rest := by
      have := congrArg (List.drop 1) hl
      rw [List.drop_drop] at this
      simpa using this
    have hlen : pos + (l.length + 1) = pos + 1 + l.length := by omega
    simp only [List.length_cons, vecLoop, agglomerateRows, hget, Outcome.ok_bind, outcome_bind_assoc]
    congr 1
    funext _
    cases ev with
    | nil =>
      simp only [ih (pos + 1) hdrop, hlen]
      rfl
    | cons x ev =>
      simp only [outcome_bind_assoc, ih (pos + 1) hdrop, hlen]
      rfl

theorem aggLoop_rows (debug dynAdds : Bool) (gdiag : ℕ → K) (first : ℕ) (s : Collected K)
    (before cs : List (CopyData K)) (hs : s = collect (before ++ cs)) (a : Assembled K) :
    aggLoop debug dynAdds gdiag first s (cs.map fun c => c.eigenvectors.length) before.length
        (before.flatMap (·.eigenvectors)).length a
      = agglomeratesRows debug dynAdds gdiag cs (first + (before.flatMap (·.eigenvectors)).length) a := by
  induction cs generalizing before a with
  | nil => rfl
  | cons c cs ih =>
    have hs' : s = collect ((before ++ [c]) ++ cs) := by rw [hs]; simp
    have h1 : Outcome.get s.dofMaps before.length "dof_indices_maps[i]" = .ok c.dofMap := by
      simp [hs, collect_eq, Outcome.get]
    have h2 : Outcome.get s.diag before.length "diag_elements[i]" = .ok c.diag := by
      simp [hs, collect_eq, Outcome.get]
    have h3 : s.eigenvectors.drop (before.flatMap (·.eigenvectors)).length
        = c.eigenvectors ++ cs.flatMap (·.eigenvectors) := by
      simp [hs, collect_eq]
    have hlen : (before.flatMap (·.eigenvectors)).length + c.eigenvectors.length
        = ((before ++ [c]).flatMap (·.eigenvectors)).length := by
      simp
    have hrest := fun a => ih (before ++ [c]) hs' a
    rw [← hlen, List.length_append, List.length_singleton] at hrest
    rw [List.map_cons, agglomeratesRows]
    cases hev : c.eigenvectors with
    | nil =>
      rw [hev] at hrest
      simp only [List.length_nil, add_zero, Outcome.ok_bind, agglomerateRows, aggLoop] at hrest ⊢
      exact hrest a
    | cons ev evs =>
      have hv := vecLoop_rows debug dynAdds gdiag first s.eigenvectors c.dofMap c.diag _ _ _ h3 a
      rw [hev] at hv hrest
      simp only [List.length_cons] at hv hrest ⊢
      simp only [aggLoop, h1, h2, Outcome.ok_bind, hv, outcome_bind_assoc, hrest, add_assoc]

theorem assembleRanks_rows (debug dynAdds : Bool) (gdiag : ℕ → K) (before css : List (List (CopyData K)))
    (a : Assembled K) :
    assembleRanks debug dynAdds gdiag
        (((before ++ css).map collect).map fun s => s.eigenvectors.length) (css.map collect) before.length a
      = agglomeratesRows debug dynAdds gdiag css.flatten (before.flatten.flatMap (·.eigenvectors)).length a := by
  have happ : ∀ (l l' : List (CopyData K)) row a, agglomeratesRows debug dynAdds gdiag (l ++ l') row a
      = (do let a ← agglomeratesRows debug dynAdds gdiag l row a
            agglomeratesRows debug dynAdds gdiag l' (row + (l.flatMap (·.eigenvectors)).length) a) := by
    intro l l'
    induction l with
    | nil => intro row a; simp [agglomeratesRows]
    | cons c l ih =>
      intro row a
      simp only [List.cons_append, agglomeratesRows, ih, outcome_bind_assoc, List.flatMap_cons,
        List.length_append, add_assoc]
  induction css generalizing before a with
  | nil => rfl
  | cons cs css ih =>
    have hbefore : rowsBefore (((before ++ cs :: css).map collect).map fun s => s.eigenvectors.length)
        before.length = (before.flatten.flatMap (·.eigenvectors)).length := by
      unfold rowsBefore
      have htake : (((before ++ cs :: css).map collect).map fun s => s.eigenvectors.length).take before.length
          = before.map fun cs => (collect cs).eigenvectors.length := by
        rw [List.map_append, List.map_append, List.take_left' (by simp), List.map_map]
        rfl
      rw [htake]
      clear ih htake
      induction before with
      | nil => rfl
      | cons x before ih =>
        rw [List.map_cons, List.sum_cons, ih]
        simp [collect_eq]
    have hrest := fun a => ih (before ++ [cs]) a
    simp only [List.append_assoc, List.singleton_append, List.length_append, List.length_singleton] at hrest
    simp only [List.map_cons, assembleRanks, List.flatten_cons, happ]
    have hone : assemble debug dynAdds gdiag
        (rowsBefore (((before ++ cs :: css).map collect).map fun s => s.eigenvectors.length) before.length)
        (collect cs) a = agglomeratesRows debug dynAdds gdiag cs
          (before.flatten.flatMap (·.eigenvectors)).length a := by
      unfold assemble
      have := aggLoop_rows debug dynAdds gdiag
        (rowsBefore (((before ++ cs :: css).map collect).map fun s => s.eigenvectors.length) before.length)
        (collect cs) [] cs rfl a
      simp only [List.flatMap_nil, List.length_nil, add_zero] at this
      rw [hbefore] at this ⊢
      rw [← this]
      simp [collect_eq, Outcome.assert]
    rw [hone]
    congr 1
    funext a
    rw [hrest a]
    congr 1
    simp

/-- **C90**, the restriction matrix: the matrix assembled for a list of agglomerates does not depend on how
the list is divided among the processes. -/
theorem C90_assembly (debug dynAdds : Bool) (gdiag : ℕ → K) (css css' : List (List (CopyData K)))
    (h : css.flatten = css'.flatten) :
    assembleAll debug dynAdds gdiag (css.map collect) = assembleAll debug dynAdds gdiag (css'.map collect) := by
  unfold assembleAll
  have h1 := assembleRanks_rows debug dynAdds gdiag [] css ⟨fun _ _ => 0, fun _ _ => 0, fun _ _ => 0⟩
  have h2 := assembleRanks_rows debug dynAdds gdiag [] css' ⟨fun _ _ => 0, fun _ _ => 0, fun _ _ => 0⟩
  simp only [List.nil_append, List.length_nil] at h1 h2
  rw [h1, h2, h]

end

/-! ## Examples -/

/-- A numbering of the ring of four unknowns in which neighbours are exchanged. -/
def exNumbers : ∀ l, Equiv.Perm (Fin (twoDims 4 l))
  | 0 => (Equiv.swap (0 : Fin 4) 1).trans (Equiv.swap (2 : Fin 4) 3)
  | _ + 1 => Equiv.refl _

example : ∃ H H' : Hierarchy (fun l => Fin (twoDims 4 l) → ℚ),
    (buildHierarchy true false (some { isPreconditioner := some false })
      (.ok (fullHelpers true (some (chars! "ILU")) (twoDims 4) exTwoProcs ringGraphs
        exRing (differenceRow 4) (fun l => exInvSolve l (twoDims 4))))).result = .ok H ∧
    (buildHierarchy true false (some { isPreconditioner := some false })
      (.ok (fullHelpers true (some (chars! "ILU")) (twoDims 4)
        (fun l => renameProcs (exNumbers l) (exTwoProcs l)) (fun l => renameGraph (exNumbers l) (ringGraphs l))
        (renameMatrix (exNumbers 0) (exNumbers 0) exRing)
        (fun l => renameMatrix (exNumbers (l + 1)) (exNumbers l) (differenceRow 4 l))
        (fun l => exInvSolve l (twoDims 4))))).result = .ok H' ∧
    ∀ fresh fresh' b x, ∃ y, (H.vmult fresh x b).result = .ok y ∧
      (H'.vmult fresh' (renameVec (exNumbers 0) x) (renameVec (exNumbers 0) b)).result
        = .ok (renameVec (exNumbers 0) y) :=
  C90_names true false { isPreconditioner := some false }
    (some (chars! "ILU")) _ rfl (twoDims 4) exTwoProcs ringGraphs exRing exRing_stieltjes.1 _
    (fun l => differenceRow_independent 4 (by norm_num) l) _ _ (fun l => exInvSolve_exact _ l)
    (fun l => exInvSolve_exact _ l) (by decide) rfl (Or.inr (by decide)) exNumbers

/-- Jacobi smoothing on two processes, on as many processes as rows, and with other numbers. -/
example : buildHierarchy true false (some {})
      (.ok (fullHelpers true (some (chars! "Jacobi")) (twoDims 4) exTwoProcs ringGraphs
        exRing (differenceRow 4) (fun l => exInvSolve l (twoDims 4))))
    = buildHierarchy true false (some {})
      (.ok (fullHelpers true (some (chars! "Jacobi")) (twoDims 4) (fun l => oneRowEach (twoDims 4 l)) ringGraphs
        exRing (differenceRow 4) (fun l => exInvSolve l (twoDims 4)))) ∧
    ∃ H H' : Hierarchy (fun l => Fin (twoDims 4 l) → ℚ),
    (buildHierarchy true false (some {})
      (.ok (fullHelpers true (some (chars! "Jacobi")) (twoDims 4) exTwoProcs ringGraphs
        exRing (differenceRow 4) (fun l => exInvSolve l (twoDims 4))))).result = .ok H ∧
    (buildHierarchy true false (some {})
      (.ok (fullHelpers true (some (chars! "Jacobi")) (twoDims 4) (fun l => oneRowEach (twoDims 4 l)) ringGraphs
        (renameMatrix (exNumbers 0) (exNumbers 0) exRing)
        (fun l => renameMatrix (exNumbers (l + 1)) (exNumbers l) (differenceRow 4 l))
        (fun l => exInvSolve l (twoDims 4))))).result = .ok H' ∧
    ∀ fresh fresh' b x, ∃ y, (H.vmult fresh x b).result = .ok y ∧
      (H'.vmult fresh' (renameVec (exNumbers 0) x) (renameVec (exNumbers 0) b)).result
        = .ok (renameVec (exNumbers 0) y) :=
  ⟨C90_processes_partial true false (some {}) _ rfl (twoDims 4) _ _ exTwoProcs_all (fun l => oneRowEach_all _) _ _ _ _ _,
    C90_numbering_partial true false {} _ rfl (twoDims 4) _ _ exTwoProcs_all (fun l => oneRowEach_all _)
      ringGraphs ringGraphs exRing exRing_stieltjes.1 _ (fun l => differenceRow_independent 4 (by norm_num) l) _ _
      (fun l => exInvSolve_exact _ l) (fun l => exInvSolve_exact _ l) (by decide) rfl (Or.inl rfl) exNumbers⟩

/-- The two unknowns of a matrix-free problem exchanged. -/
def exSwap : ∀ l, Equiv.Perm (Fin (twoLevels 2 1 l))
  | 0 => Equiv.swap (0 : Fin 2) (1 : Fin 2)
  | _ + 1 => Equiv.refl _

example : ∃ H H' : Hierarchy (fun l => Fin (twoLevels 2 1 l) → ℝ),
    (buildHierarchy true false (some { isPreconditioner := some false })
      (.ok (matrixFreeHelpers true none (some 3) none none 0 (twoLevels 2 1) (fun _ _ => 1)
        (fun _ _ _ => [1 / 2, 3 / 2]) (signMatrix exPair (1 / 2)) (twoLevelRestriction exSumRow)
        (fun l => exInvSolve l (twoLevels 2 1))))).result = .ok H ∧
    (buildHierarchy true false (some { isPreconditioner := some false })
      (.ok (matrixFreeHelpers true none (some 3) none none 0 (twoLevels 2 1)
        (fun l => renameVec (exSwap l) fun _ => 1) (fun _ _ _ => [1 / 2, 3 / 2])
        (renameMatrix (exSwap 0) (exSwap 0) (signMatrix exPair (1 / 2)))
        (fun l => renameMatrix (exSwap (l + 1)) (exSwap l) (twoLevelRestriction exSumRow l))
        (fun l => exInvSolve l (twoLevels 2 1))))).result = .ok H' ∧
    ∀ fresh fresh' b x, ∃ y, (H.vmult fresh x b).result = .ok y ∧
      (H'.vmult fresh' (renameVec (exSwap 0) x) (renameVec (exSwap 0) b)).result
        = .ok (renameVec (exSwap 0) y) :=
  C90_chebyshev_partial true false { isPreconditioner := some false } none exName
    (some 3) none none 0 (twoLevels 2 1) (fun _ _ => 1) (fun _ _ _ => [1 / 2, 3 / 2])
    (signMatrix exPair (1 / 2)) exPair_spd
    (twoLevelRestriction exSumRow) (twoLevelRestriction_independent exSumRow_independent) _ _
    (fun l => exInvSolve_exact _ l) (fun l => exInvSolve_exact _ l) rfl rfl exSwap rfl

/-- Three agglomerates on one, two and four processes. -/
example : ∃ a, assembleAll true true (fun x => ([1, 2, 2, 1] : List ℚ).getD x 1)
      ([[⟨[0], [[1, 1]], [1, 1], [0, 1]⟩, ⟨[0], [[1, -1]], [1, 1], [1, 2]⟩, ⟨[0], [[2, 3]], [1, 1], [2, 3]⟩]].map
        collect) = .ok a ∧ a.R 2 3 = 3 ∧
    assembleAll true true (fun x => ([1, 2, 2, 1] : List ℚ).getD x 1)
      ([[⟨[0], [[1, 1]], [1, 1], [0, 1]⟩], [⟨[0], [[1, -1]], [1, 1], [1, 2]⟩, ⟨[0], [[2, 3]], [1, 1], [2, 3]⟩]].map
        collect) = .ok a ∧
    assembleAll true true (fun x => ([1, 2, 2, 1] : List ℚ).getD x 1)
      ([[⟨[0], [[1, 1]], [1, 1], [0, 1]⟩], [⟨[0], [[1, -1]], [1, 1], [1, 2]⟩], [],
        [⟨[0], [[2, 3]], [1, 1], [2, 3]⟩]].map collect) = .ok a :=
  ⟨_, rfl, by decide +kernel, (C90_assembly true true _ _ _ rfl).trans rfl,
    (C90_assembly true true _ _ _ rfl).trans rfl⟩

end Mfmg
