import Verif.Lemmas.Units
import Verif.Props.MatMult
import Verif.Props.LocalEig
import Verif.Props.Restriction

/-!
# Change of units (C89): what the hierarchy of a multiple of the matrix does
-/

set_option autoImplicit false

namespace Mfmg

open Spec

/-! ## The hierarchy with given restriction matrices -/

section

variable {K : Type} [Field K] [LinearOrder K] [IsStrictOrderedRing K]

theorem spd_units {n : ℕ} {A : Matrix (Fin n) (Fin n) K} (hA : IsSpd A) {c : K} (hc : 0 < c) :
    IsSpd (c • A) := by
  refine ⟨by rw [Matrix.transpose_smul, hA.1], ?_⟩
  intro x hx
  rw [Matrix.smul_mulVec, dotProduct_smul, smul_eq_mul]
  exact mul_pos hc (hA.2 x hx)

omit [LinearOrder K] [IsStrictOrderedRing K] in
/-- Two hierarchies whose operators differ by the factor `c`. -/
theorem vmult_units {dims : ℕ → ℕ} (H H' : Hierarchy (fun l => Fin (dims l) → K))
    (D D' : Data K (fun l => Fin (dims l) → K)) (hH : IsLinear H D) (hH' : IsLinear H' D')
    (hn : H'.numLevels = H.numLevels) (hs : H'.nSmoothingSteps = H.nSmoothingSteps)
    (hp : H'.isPreconditioner = H.isPreconditioner) {c : K} (hc : c ≠ 0)
    (hmode : H.isPreconditioner = true ∨ 2 ≤ H.numLevels)
    (hA : ∀ l < H.numLevels, ∀ x, D'.A l x = c • D.A l x)
    (hB : ∀ l, l + 1 < H.numLevels → ∀ r, D'.B l (c • r) = D.B l r)
    (hR : ∀ l x, D'.R l x = D.R l x) (hP : ∀ l y, D'.P l y = D.P l y)
    (hC : ∀ l < H.numLevels, ∀ r, D'.C l (c • r) = D.C l r) :
    (∀ fresh fresh' b x, ∃ y, (H.vmult fresh x b).result = .ok y ∧
      (H'.vmult fresh' x (c • b)).result = .ok y) ∧
    (H.isPreconditioner = true → ∀ fresh fresh' b x x', ∃ y, (H.vmult fresh x b).result = .ok y ∧
      (H'.vmult fresh' x' b).result = .ok (c⁻¹ • y)) := by
  have hpos := hH.pos
  have hcyc : ∀ b x : Fin (dims 0) → K, cycle D' H'.nSmoothingSteps (H'.numLevels - 1) 0 (c • b) x
      = cycle D H.nSmoothingSteps (H.numLevels - 1) 0 b x := by
    intro b x
    rw [hn, hs]
    exact cycle_transport D D' (fun l => LinearMap.id) c H.numLevels hA hB (fun l _ => hR l)
      (fun l _ => hP l) hC H.nSmoothingSteps (H.numLevels - 1) 0 (by omega) b x
  have hmode' : H'.isPreconditioner = true ∨ 2 ≤ H'.numLevels := by rw [hp, hn]; exact hmode
  constructor
  · intro fresh fresh' b x
    refine ⟨_, C04_cycle_is_textbook H D hH fresh x b hmode, ?_⟩
    rw [C04_cycle_is_textbook H' D' hH' fresh' x (c • b) hmode', hcyc, hp]
  · intro hpre fresh fresh' b x x'
    refine ⟨_, C04_cycle_is_textbook H D hH fresh x b hmode, ?_⟩
    rw [C04_cycle_is_textbook H' D' hH' fresh' x' b hmode', hp, hpre]
    simp only [if_true]
    have hb : b = c • (c⁻¹ • b) := by rw [smul_smul, mul_inv_cancel₀ hc, one_smul]
    conv_lhs => rw [hb, hcyc]
    rw [cycle_zero, cycle_zero, map_smul]

omit [LinearOrder K] [IsStrictOrderedRing K] in
/-- The helpers with all four smoothers are those of the relaxation smoothers if one of these is chosen. -/
theorem fullHelpers_relaxation (debug : Bool) (type : Option (List Char)) (k : SmootherKind) (kind : Relaxation)
    (hk : dealiiSmoother debug true type = .ok k) (hk' : k.relaxation = some kind) (dims : ℕ → ℕ)
    (procs : ∀ l, List (List (Fin (dims l)))) (graph : ∀ l, Fin (dims l) → Fin (dims l) → Bool)
    (A : Matrix (Fin (dims 0)) (Fin (dims 0)) K)
    (R : ∀ l, Matrix (Fin (dims (l + 1))) (Fin (dims l)) K)
    (solve : ∀ l, Matrix (Fin (dims l)) (Fin (dims l)) K → (Fin (dims l) → K) → Fin (dims l) → K) :
    fullHelpers debug type dims procs graph A R solve = matrixHelpers debug type dims procs A R solve := by
  unfold fullHelpers matrixHelpers
  simp only [Helpers.mk.injEq, true_and, and_true]
  funext l a p
  simp [hk, hk']

/-- **C89**, the cycle: with the same restriction matrices, for every smoother, any number of levels and
processes, the hierarchy built for `c A` and applied to the right-hand side `c b` gives exactly what the
hierarchy built for `A` gives for `b`; as a preconditioner it gives that divided by `c` for the same `b`.
Missing: restriction matrices computed by the eigensolvers, see the `_violated` theorems. -/
theorem C89_hierarchy_partial (debug timer : Bool) (p : Params) (type : Option (List Char)) (k : SmootherKind)
    (hk : dealiiSmoother debug true type = .ok k) (dims : ℕ → ℕ)
    (procs : ∀ l, List (List (Fin (dims l)))) (graph : ∀ l, Fin (dims l) → Fin (dims l) → Bool)
    (A : Matrix (Fin (dims 0)) (Fin (dims 0)) K) (hA : IsSpd A)
    (R : ∀ l, Matrix (Fin (dims (l + 1))) (Fin (dims l)) K) (hR : ∀ l, IndependentRows (R l))
    (solve : ∀ l, Matrix (Fin (dims l)) (Fin (dims l)) K → (Fin (dims l) → K) → Fin (dims l) → K)
    (hsolve : ∀ l, SolvesExactly (solve l)) (hpos : 0 < p.maxLevels.getD 2)
    (hfast : p.fastAp.getD false = false)
    (hmode : p.isPreconditioner.getD true = true ∨ 2 ≤ p.maxLevels.getD 2) (c : K) (hc : 0 < c) :
    ∃ H H' : Hierarchy (fun l => Fin (dims l) → K),
      (buildHierarchy debug timer (some p)
        (.ok (fullHelpers debug type dims procs graph A R solve))).result = .ok H ∧
      (buildHierarchy debug timer (some p)
        (.ok (fullHelpers debug type dims procs graph (c • A) R solve))).result = .ok H' ∧
      (∀ fresh fresh' b x, ∃ y, (H.vmult fresh x b).result = .ok y ∧
        (H'.vmult fresh' x (c • b)).result = .ok y) ∧
      (p.isPreconditioner.getD true = true → ∀ fresh fresh' b x x', ∃ y,
        (H.vmult fresh x b).result = .ok y ∧ (H'.vmult fresh' x' b).result = .ok (c⁻¹ • y)) := by
  have hA' := spd_units hA hc
  have hdet := fun l => spd_det (coarseMatrix_spd dims A hA R hR l)
  cases hrel : k.relaxation with
  | some kind =>
    rw [fullHelpers_relaxation debug type k kind hk hrel, fullHelpers_relaxation debug type k kind hk hrel]
    obtain ⟨H, e, h1, h2, h3, h4⟩ := matrixHelpers_build debug timer p type k kind hk hrel dims procs A hA R hR
      solve hsolve hpos hfast
    obtain ⟨H', e', h1', h2', h3', h4'⟩ := matrixHelpers_build debug timer p type k kind hk hrel dims procs
      (c • A) hA' R hR solve hsolve hpos hfast
    have := vmult_units H H' _ _ h1 h1' (h2'.trans h2.symm) (h4'.trans h4.symm) (h3'.trans h3.symm) hc.ne'
      (by rw [h3, h2]; exact hmode.imp id (fun h => by omega))
      (by
        intro l _ x
        change (coarseMatrix dims (c • A) R l).mulVec x = c • (coarseMatrix dims A R l).mulVec x
        rw [coarseMatrix_units, Matrix.smul_mulVec])
      (by
        intro l _ r
        change relaxVmult kind (coarseMatrix dims (c • A) R l) (procs l) (c • r)
          = relaxVmult kind (coarseMatrix dims A R l) (procs l) r
        rw [coarseMatrix_units, relaxVmult_units hc.ne'])
      (fun _ _ => rfl) (fun _ _ => rfl)
      (by
        intro l _ r
        change (coarseMatrix dims (c • A) R l)⁻¹.mulVec (c • r) = (coarseMatrix dims A R l)⁻¹.mulVec r
        rw [coarseMatrix_units, inv_units hc.ne' _ (hdet l)])
    exact ⟨H, H', e, e', this.1, fun h => this.2 (by rw [h3]; exact h)⟩
  | none =>
    obtain rfl : k = .ilu := by cases k <;> simp_all [SmootherKind.relaxation]
    obtain ⟨H, e, h1, h2, h3, h4⟩ := fullHelpers_build debug timer p type hk dims procs graph A hA R hR
      solve hsolve hpos hfast
    obtain ⟨H', e', h1', h2', h3', h4'⟩ := fullHelpers_build debug timer p type hk dims procs graph
      (c • A) hA' R hR solve hsolve hpos hfast
    have := vmult_units H H' _ _ h1 h1' (h2'.trans h2.symm) (h4'.trans h4.symm) (h3'.trans h3.symm) hc.ne'
      (by rw [h3, h2]; exact hmode.imp id (fun h => by omega))
      (by
        intro l _ x
        change (coarseMatrix dims (c • A) R l).mulVec x = c • (coarseMatrix dims A R l).mulVec x
        rw [coarseMatrix_units, Matrix.smul_mulVec])
      (by
        intro l _ r
        change iluVmult (graph l) (coarseMatrix dims (c • A) R l) (procs l) (c • r)
          = iluVmult (graph l) (coarseMatrix dims A R l) (procs l) r
        rw [coarseMatrix_units, iluVmult_units hc.ne'])
      (fun _ _ => rfl) (fun _ _ => rfl)
      (by
        intro l _ r
        change (coarseMatrix dims (c • A) R l)⁻¹.mulVec (c • r) = (coarseMatrix dims A R l)⁻¹.mulVec r
        rw [coarseMatrix_units, inv_units hc.ne' _ (hdet l)])
    exact ⟨H, H', e, e', this.1, fun h => this.2 (by rw [h3]; exact h)⟩

end

/-- **C89**, the same for matrix-free hierarchies with Chebyshev smoothing, if the eigenvalue estimates, which
concern the matrix divided by its diagonal, are the same for both. -/
theorem C89_chebyshev_partial (debug timer : Bool) (p : Params) (type : Option (List Char))
    (htype : EqNoCase (type.getD (chars! "Chebyshev")) (chars! "chebyshev")) (degree : Option ℤ)
    (range maxEigenvalue : Option ℝ) (auto : ℕ) (dims : ℕ → ℕ) (dinv : ∀ l, Fin (dims l) → ℝ)
    (estimate : ∀ l, ((Fin (dims l) → ℝ) → Fin (dims l) → ℝ) → (Fin (dims l) → ℝ) → List ℝ)
    (A : Matrix (Fin (dims 0)) (Fin (dims 0)) ℝ) (hA : IsSpd A)
    (R : ∀ l, Matrix (Fin (dims (l + 1))) (Fin (dims l)) ℝ) (hR : ∀ l, IndependentRows (R l))
    (solve : ∀ l, Matrix (Fin (dims l)) (Fin (dims l)) ℝ → (Fin (dims l) → ℝ) → Fin (dims l) → ℝ)
    (hsolve : ∀ l, SolvesExactly (solve l)) (hlev : p.maxLevels.getD 2 = 2)
    (hfast : p.fastAp.getD false = false) (c : ℝ) (hc : 0 < c)
    (hest : estimate 0 (c • A).mulVec (c⁻¹ • dinv 0) = estimate 0 A.mulVec (dinv 0)) :
    ∃ H H' : Hierarchy (fun l => Fin (dims l) → ℝ),
      (buildHierarchy debug timer (some p) (.ok (matrixFreeHelpers debug type degree range maxEigenvalue
        auto dims dinv estimate A R solve))).result = .ok H ∧
      (buildHierarchy debug timer (some p) (.ok (matrixFreeHelpers debug type degree range maxEigenvalue
        auto dims (fun l => c⁻¹ • dinv l) estimate (c • A) R solve))).result = .ok H' ∧
      (∀ fresh fresh' b x, ∃ y, (H.vmult fresh x b).result = .ok y ∧
        (H'.vmult fresh' x (c • b)).result = .ok y) ∧
      (p.isPreconditioner.getD true = true → ∀ fresh fresh' b x x', ∃ y,
        (H.vmult fresh x b).result = .ok y ∧ (H'.vmult fresh' x' b).result = .ok (c⁻¹ • y)) := by
  have hA' := spd_units hA hc
  have hdet := fun l => spd_det (coarseMatrix_spd dims A hA R hR l)
  obtain ⟨H, e, h1, h2, h3, h4⟩ := matrixFreeHelpers_build debug timer p type htype degree range maxEigenvalue
    auto dims dinv estimate A hA R hR solve hsolve hlev hfast
  obtain ⟨H', e', h1', h2', h3', h4'⟩ := matrixFreeHelpers_build debug timer p type htype degree range
    maxEigenvalue auto dims (fun l => c⁻¹ • dinv l) estimate (c • A) hA' R hR solve hsolve hlev hfast
  have := vmult_units H H' _ _ h1 h1' (h2'.trans h2.symm) (h4'.trans h4.symm) (h3'.trans h3.symm) hc.ne'
    (by rw [h2]; exact Or.inr le_rfl)
    (by
      intro l _ x
      change (coarseMatrix dims (c • A) R l).mulVec x = c • (coarseMatrix dims A R l).mulVec x
      rw [coarseMatrix_units, Matrix.smul_mulVec])
    (by
      intro l _ r
      change chebyshevVmult _ auto _ (coarseMatrix dims (c • A) R l).mulVec (c⁻¹ • dinv l) (c • r)
        = chebyshevVmult _ auto _ (coarseMatrix dims A R l).mulVec (dinv l) r
      rw [coarseMatrix_units, hest]
      have : (c • coarseMatrix dims A R l).mulVec = fun x => c • (coarseMatrix dims A R l).mulVec x := by
        funext x
        rw [Matrix.smul_mulVec]
      rw [this, chebyshevVmult_units hc.ne'])
    (fun _ _ => rfl) (fun _ _ => rfl)
    (by
      intro l _ r
      change (coarseMatrix dims (c • A) R l)⁻¹.mulVec (c • r) = (coarseMatrix dims A R l)⁻¹.mulVec r
      rw [coarseMatrix_units, inv_units hc.ne' _ (hdet l)])
  exact ⟨H, H', e, e', this.1, fun h => this.2 (by rw [h3]; exact h)⟩

/-! ## The restriction matrix -/

section

variable {K : Type} [Field K]

/-- The eigenpairs and the diagonal of an agglomerate in other units. -/
def CopyData.scale (c : K) (d : CopyData K) : CopyData K :=
  { d with eigenvalues := d.eigenvalues.map (c * ·), diag := d.diag.map (c * ·) }

theorem get_map_mul (c : K) (l : List K) (j : ℕ) (why : String) :
    Outcome.get (l.map (c * ·)) j why = (do let x ← Outcome.get l j why; .ok (c * x)) := by
  unfold Outcome.get
  rw [List.getElem?_map]
  cases l[j]? <;> rfl

theorem elemLoop_units {c : K} (hc : c ≠ 0) (dynAdds : Bool) (gdiag : ℕ → K) (row : ℕ) (dofs : List ℕ)
    (diag ev : List K) (j : ℕ) (s : Assembled K) :
    elemLoop dynAdds (fun x => c * gdiag x) row dofs (diag.map (c * ·)) ev j s
      = elemLoop dynAdds gdiag row dofs diag ev j s := by
  induction ev generalizing j s with
  | nil => rfl
  | cons v ev ih =>
    simp only [elemLoop, get_map_mul]
    cases Outcome.get dofs j "dof_indices_maps[i][j]" with
    | ok x =>
      cases Outcome.get diag j "diag_elements[i][j]" with
      | ok d =>
        simp only [Outcome.ok_bind, ih]
        rw [mul_div_mul_left _ _ hc]
      | _ => rfl
    | _ => rfl

theorem vecLoop_units {c : K} (hc : c ≠ 0) (debug dynAdds : Bool) (gdiag : ℕ → K) (first : ℕ)
    (evs : List (List K)) (dofs : List ℕ) (diag : Outcome (List K)) (n pos : ℕ) (s : Assembled K) :
    vecLoop debug dynAdds (fun x => c * gdiag x) first evs dofs (do let d ← diag; .ok (d.map (c * ·))) n pos s
      = vecLoop debug dynAdds gdiag first evs dofs diag n pos s := by
  induction n generalizing pos s with
  | zero => rfl
  | succ n ih =>
    simp only [vecLoop]
    cases Outcome.get evs pos "eigenvectors[pos]" with
    | ok ev =>
      simp only [Outcome.ok_bind]
      cases Outcome.assert debug (ev.length == dofs.length) with
      | ok _ =>
        simp only [Outcome.ok_bind]
        cases ev with
        | nil => simp only [ih]
        | cons v ev =>
          cases diag with
          | ok d =>
            simp only [Outcome.ok_bind, elemLoop_units hc]
            cases elemLoop dynAdds gdiag (first + pos) dofs d (v :: ev) 0 s with
            | ok s => exact ih _ _
            | _ => rfl
          | _ => rfl
      | _ => rfl
    | _ => rfl

/-- The collected data in other units. -/
def Collected.scale (c : K) (s : Collected K) : Collected K :=
  { s with eigenvalues := s.eigenvalues.map (c * ·), diag := s.diag.map (·.map (c * ·)) }

theorem aggLoop_units {c : K} (hc : c ≠ 0) (debug dynAdds : Bool) (gdiag : ℕ → K) (first : ℕ)
    (s : Collected K) (ns : List ℕ) (i pos : ℕ) (a : Assembled K) :
    aggLoop debug dynAdds (fun x => c * gdiag x) first (s.scale c) ns i pos a
      = aggLoop debug dynAdds gdiag first s ns i pos a := by
  induction ns generalizing i pos a with
  | nil => rfl
  | cons n ns ih =>
    have hg : Outcome.get (s.scale c).diag i "diag_elements[i]"
        = (do let d ← Outcome.get s.diag i "diag_elements[i]"; .ok (d.map (c * ·))) := by
      unfold Outcome.get Collected.scale
      rw [List.getElem?_map]
      cases s.diag[i]? <;> rfl
    simp only [aggLoop, hg]
    cases n with
    | zero => simp only [Outcome.ok_bind, ih]
    | succ n =>
      simp only
      change Bind.bind (Outcome.get s.dofMaps i "dof_indices_maps[i]") _ = _
      congr 1
      funext dofs
      simp only [ih]
      congr 1
      exact vecLoop_units hc debug dynAdds gdiag first s.eigenvectors dofs _ (n + 1) pos a

theorem collect_units (c : K) (cs : List (CopyData K)) :
    collect (cs.map (CopyData.scale c)) = (collect cs).scale c := by
  have key : ∀ (cs : List (CopyData K)) (s : Collected K),
      (cs.map (CopyData.scale c)).foldl copyLocalToGlobal (s.scale c)
        = (cs.foldl copyLocalToGlobal s).scale c := by
    intro cs
    induction cs with
    | nil => intro s; rfl
    | cons d cs ih =>
      intro s
      rw [List.map_cons, List.foldl_cons, List.foldl_cons, ← ih]
      congr 1
      simp [copyLocalToGlobal, CopyData.scale, Collected.scale]
  exact key cs ⟨[], [], [], [], []⟩

/-- **C89**, the weights of the restriction: if all diagonals are multiplied by `c` (and the eigenvalues, which
are not used) and the eigenvectors are the same, the restriction matrix is exactly the same, on any number of
processes, with or without `fast_ap`, and if set-up fails it fails in the same way. -/
theorem C89_weights (debug dynAdds : Bool) (gdiag : ℕ → K) (copies : List (List (CopyData K))) (c : K)
    (hc : c ≠ 0) :
    assembleAll debug dynAdds (fun x => c * gdiag x) (copies.map fun cs => collect (cs.map (CopyData.scale c)))
      = assembleAll debug dynAdds gdiag (copies.map collect) := by
  have key : ∀ (counts : List ℕ) (ss : List (Collected K)) (rank : ℕ) (a : Assembled K),
      assembleRanks debug dynAdds (fun x => c * gdiag x) counts (ss.map (Collected.scale c)) rank a
        = assembleRanks debug dynAdds gdiag counts ss rank a := by
    intro counts ss
    induction ss with
    | nil => intro rank a; rfl
    | cons s ss ih =>
      intro rank a
      simp only [List.map_cons, assembleRanks, ih]
      have : assemble debug dynAdds (fun x => c * gdiag x) (rowsBefore counts rank) (s.scale c) a
          = assemble debug dynAdds gdiag (rowsBefore counts rank) s a := by
        unfold assemble
        rw [aggLoop_units hc]
        rfl
      rw [this]
  unfold assembleAll
  have e : (copies.map fun cs => collect (cs.map (CopyData.scale c)))
      = (copies.map collect).map (Collected.scale c) := by
    rw [List.map_map]
    apply List.map_congr_left
    intro cs _
    exact collect_units c cs
  rw [e, key]
  congr 1
  rw [List.map_map]
  rfl

end

/-! ## The eigenproblems -/

section

variable {K : Type} [Field K]

theorem averageDiagonal_units (c : K) (size : ℕ) (A : ℕ → ℕ → K) :
    averageDiagonal size (fun i j => c * A i j) = c * averageDiagonal size A := by
  unfold averageDiagonal diagElements
  rw [List.sum_map_mul_left, mul_div_assoc]

theorem matVec_units (c : K) (size : ℕ) (A : ℕ → ℕ → K) (v : List K) (i : ℕ) :
    matVec size (fun i j => c * A i j) v i = c * matVec size A v i := by
  unfold matVec
  rw [← List.sum_map_mul_left]
  congr 1
  apply List.map_congr_left
  intro j _
  rw [mul_assoc]

/-- **C89**, the eigenproblem of an agglomerate without constrained dofs: the matrix given to the eigensolver
has the same eigenvectors, and `c` times the eigenvalues.  Missing: constrained dofs, see
`C89_constrained_violated`. -/
theorem C89_eigenpairs_partial (size : ℕ) (A : ℕ → ℕ → K) (c : K) (hc : c ≠ 0) (l : K) (v : List K) :
    IsEigenpair size (shiftedMatrix size (fun i j => c * A i j) []) (c * l) v ↔
      IsEigenpair size (shiftedMatrix size A []) l v := by
  unfold IsEigenpair
  refine and_congr_right fun _ => forall_congr' fun i => forall_congr' fun hi => ?_
  rw [matVec_shifted _ _ _ _ _ hi, matVec_shifted _ _ _ _ _ hi, matVec_units, averageDiagonal_units]
  simp only [List.not_mem_nil, if_false]
  rw [show c * matVec size A v i + c * averageDiagonal size A * v.getD i 0
      = c * (matVec size A v i + averageDiagonal size A * v.getD i 0) by ring, mul_assoc c l]
  exact mul_right_inj' hc

end

/-! ## Examples -/

/-- A ring of four unknowns with ILU, two processes, in units 1000 times smaller. -/
example : ∃ H H' : Hierarchy (fun l => Fin (twoDims 4 l) → ℚ),
    (buildHierarchy true false (some { isPreconditioner := some false })
      (.ok (fullHelpers true (some (chars! "ILU")) (twoDims 4) exTwoProcs ringGraphs
        exRing (differenceRow 4) (fun l => exInvSolve l (twoDims 4))))).result = .ok H ∧
    (buildHierarchy true false (some { isPreconditioner := some false })
      (.ok (fullHelpers true (some (chars! "ILU")) (twoDims 4) exTwoProcs ringGraphs
        ((1000 : ℚ) • exRing) (differenceRow 4) (fun l => exInvSolve l (twoDims 4))))).result = .ok H' ∧
    ∀ fresh fresh' b x, ∃ y, (H.vmult fresh x b).result = .ok y ∧
      (H'.vmult fresh' x ((1000 : ℚ) • b)).result = .ok y := by
  obtain ⟨H, H', h1, h2, h3, -⟩ := C89_hierarchy_partial true false { isPreconditioner := some false }
    (some (chars! "ILU")) _ rfl (twoDims 4) exTwoProcs ringGraphs exRing exRing_stieltjes.1 _
    (fun l => differenceRow_independent 4 (by norm_num) l) _ (fun l => exInvSolve_exact _ l) (by decide) rfl
    (Or.inr (by decide)) (1000 : ℚ) (by norm_num)
  exact ⟨H, H', h1, h2, h3⟩

/-- The default smoother and mode. -/
example : ∃ H H' : Hierarchy (fun l => Fin (twoDims 4 l) → ℚ),
    (buildHierarchy true false (some {})
      (.ok (fullHelpers true none (twoDims 4) exTwoProcs ringGraphs
        exRing (differenceRow 4) (fun l => exInvSolve l (twoDims 4))))).result = .ok H ∧
    (buildHierarchy true false (some {})
      (.ok (fullHelpers true none (twoDims 4) exTwoProcs ringGraphs
        ((1000 : ℚ) • exRing) (differenceRow 4) (fun l => exInvSolve l (twoDims 4))))).result = .ok H' ∧
    ∀ fresh fresh' b x x', ∃ y, (H.vmult fresh x b).result = .ok y ∧
      (H'.vmult fresh' x' b).result = .ok ((1000 : ℚ)⁻¹ • y) := by
  obtain ⟨H, H', h1, h2, -, h3⟩ := C89_hierarchy_partial true false {}
    none _ rfl (twoDims 4) exTwoProcs ringGraphs exRing exRing_stieltjes.1 _
    (fun l => differenceRow_independent 4 (by norm_num) l) _ (fun l => exInvSolve_exact _ l) (by decide) rfl
    (Or.inr (by decide)) (1000 : ℚ) (by norm_num)
  exact ⟨H, H', h1, h2, h3 rfl⟩

/-- Chebyshev smoothing of degree 3. -/
example : ∃ H H' : Hierarchy (fun l => Fin (twoLevels 2 1 l) → ℝ),
    (buildHierarchy true false (some { isPreconditioner := some false })
      (.ok (matrixFreeHelpers true none (some 3) none none 0 (twoLevels 2 1) (fun _ _ => 1)
        (fun _ _ _ => [1 / 2, 3 / 2]) (signMatrix exPair (1 / 2)) (twoLevelRestriction exSumRow)
        (fun l => exInvSolve l (twoLevels 2 1))))).result = .ok H ∧
    (buildHierarchy true false (some { isPreconditioner := some false })
      (.ok (matrixFreeHelpers true none (some 3) none none 0 (twoLevels 2 1)
        (fun _ => (1000 : ℝ)⁻¹ • fun _ => 1)
        (fun _ _ _ => [1 / 2, 3 / 2]) ((1000 : ℝ) • signMatrix exPair (1 / 2)) (twoLevelRestriction exSumRow)
        (fun l => exInvSolve l (twoLevels 2 1))))).result = .ok H' ∧
    ∀ fresh fresh' b x, ∃ y, (H.vmult fresh x b).result = .ok y ∧
      (H'.vmult fresh' x ((1000 : ℝ) • b)).result = .ok y := by
  obtain ⟨H, H', h1, h2, h3, -⟩ := C89_chebyshev_partial true false { isPreconditioner := some false } none exName
    (some 3) none none 0 (twoLevels 2 1) (fun _ _ => 1) (fun _ _ _ => [1 / 2, 3 / 2])
    (signMatrix exPair (1 / 2)) exPair_spd
    (twoLevelRestriction exSumRow) (twoLevelRestriction_independent exSumRow_independent) _
    (fun l => exInvSolve_exact _ l) rfl rfl (1000 : ℝ) (by norm_num) rfl
  exact ⟨H, H', h1, h2, h3⟩

/-- Two agglomerates on two processes that share dof 1: the same restriction matrix in both units. -/
example : (assembleAll true true (fun x => 1000 * ([1, 2, 1] : List ℚ).getD x 1)
      ([[⟨[0], [[1, 1]], [1, 1], [0, 1]⟩], [⟨[0], [[1, -1]], [1, 1], [1, 2]⟩]].map
        fun cs => collect (cs.map (CopyData.scale 1000))))
    = assembleAll true true (fun x => ([1, 2, 1] : List ℚ).getD x 1)
      ([[⟨[0], [[1, 1]], [1, 1], [0, 1]⟩], [⟨[0], [[1, -1]], [1, 1], [1, 2]⟩]].map collect) ∧
    ∃ a, assembleAll true true (fun x => ([1, 2, 1] : List ℚ).getD x 1)
      ([[⟨[0], [[1, 1]], [1, 1], [0, 1]⟩], [⟨[0], [[1, -1]], [1, 1], [1, 2]⟩]].map collect) = .ok a ∧
      a.R 0 1 = 1 / 2 :=
  ⟨C89_weights true true _ _ 1000 (by norm_num), _, rfl, by decide +kernel⟩

/-- The constant vector on two unconstrained dofs. -/
example : IsEigenpair 2 (shiftedMatrix 2 (fun i j => (1000 : ℚ) * exAgg i j) []) (1000 * 1) [1, 1] :=
  (C89_eigenpairs_partial 2 exAgg 1000 (by norm_num) 1 [1, 1]).2 ⟨rfl, by decide +kernel⟩

end Mfmg
