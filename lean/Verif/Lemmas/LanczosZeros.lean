import Verif.Props.Lanczos
import Verif.Lemmas.StartVector
import Verif.Model.LocalLanczos
import Mathlib.Data.List.GetD

/-!
# The vectors returned by the Lanczos solver lie in every invariant subspace that holds the start vector
-/

set_option autoImplicit false

namespace Mfmg

open scoped InnerProductSpace

variable {E : Type} [NormedAddCommGroup E] [InnerProductSpace ℝ E] (U : Submodule ℝ E)

theorem lanczosStep_mem {debug : Bool} {A : E → E} (hA : ∀ x ∈ U, A x ∈ U) {s s' : LanczosState E}
    (hs : s.w ∈ U ∧ ∀ v ∈ s.vs, v ∈ U) (h : lanczosStep debug A s = .ok s') :
    s'.w ∈ U ∧ ∀ v ∈ s'.vs, v ∈ U := by
  unfold lanczosStep at h
  split_ifs at h
  simp only [Outcome.ok.injEq] at h
  subst h
  have hv : s.beta⁻¹ • s.w ∈ U := U.smul_mem _ hs.1
  constructor
  · refine U.add_mem ?_ (U.smul_mem _ hv)
    cases hl : s.vs.getLast? with
    | none => exact hA _ hv
    | some p => exact U.add_mem (hA _ hv) (U.smul_mem _ (hs.2 p (List.mem_of_getLast? hl)))
  · intro v hv'
    rcases List.mem_append.1 hv' with h | h
    · exact hs.2 v h
    · rw [List.mem_singleton.1 h]
      exact hv

theorem calcEvecLoop_memU {n i : ℕ} {evecs : List ℝ} {vs : List E} (hvs : ∀ v ∈ vs, v ∈ U) {j : ℕ} {y z : E}
    (hy : y ∈ U) (h : calcEvecLoop n i evecs vs j y = .ok z) : z ∈ U := by
  induction vs generalizing j y with
  | nil =>
    simp only [calcEvecLoop, Outcome.ok.injEq] at h
    exact h ▸ hy
  | cons v vs ih =>
    simp only [calcEvecLoop, Outcome.bind_eq_ok] at h
    obtain ⟨c, -, h⟩ := h
    exact ih (fun w hw => hvs w (List.mem_cons_of_mem _ hw))
      (U.add_mem hy (U.smul_mem _ (hvs v List.mem_cons_self))) h

theorem calcEvecs_memU {n : ℕ} {evecs : List ℝ} {vs : List E} (hvs : ∀ v ∈ vs, v ∈ U) {left i : ℕ}
    {ys : List E} (h : calcEvecs n vs evecs left i = .ok ys) : ∀ y ∈ ys, y ∈ U := by
  induction left generalizing i ys with
  | zero =>
    simp only [calcEvecs, Outcome.ok.injEq] at h
    subst h
    simp
  | succ left ih =>
    simp only [calcEvecs, Outcome.bind_eq_ok, Outcome.pure_eq, Outcome.ok.injEq] at h
    obtain ⟨y, hy, ys', hys, rfl⟩ := h
    intro z hz
    rcases List.mem_cons.1 hz with rfl | hz
    · exact calcEvecLoop_memU U hvs U.zero_mem hy
    · exact ih hys z hz

theorem solveLanczos_mem {debug : Bool} {A : E → E} (hA : ∀ x ∈ U, A x ∈ U)
    {tridiag : List ℝ → List ℝ → ℕ → List ℝ × List ℝ} {req : ℕ} {p : LanczosParams} {guess : E}
    (hg : guess ∈ U) {r : LanczosResult E} {ys : List E}
    (h : solveLanczos debug A tridiag req p guess = .ok (r, ys)) : ∀ y ∈ ys, y ∈ U := by
  obtain ⟨h1, -, h2, -⟩ := solveLanczos_ok debug A (fun s => s.w ∈ U ∧ ∀ v ∈ s.vs, v ∈ U)
    (fun s s' hs hst => lanczosStep_mem U hA hs hst) tridiag req p guess ⟨hg, by simp [lanczosInit]⟩ r ys h
  exact calcEvecs_memU U h1.2 h2

theorem deflate_memU {ds : List E} (hds : ∀ d ∈ ds, d ∈ U) {x : E} (hx : x ∈ U) : deflate ds x ∈ U := by
  unfold deflate
  induction ds generalizing x with
  | nil => exact hx
  | cons d ds ih =>
    exact ih (fun e he => hds e (List.mem_cons_of_mem _ he))
      (U.add_mem hx (U.smul_mem _ (hds d List.mem_cons_self)))

theorem orthogonaliseLater_mem {p : ℕ → ℕ} {i left j : ℕ} {v : ℕ → E} (hv : ∀ k, v k ∈ U) :
    ∀ k, orthogonaliseLater p i left j v k ∈ U := by
  induction left generalizing j v with
  | zero => exact hv
  | succ left ih =>
    apply ih
    intro k
    by_cases hk : k = p j
    · subst hk
      rw [Function.update_self]
      exact U.add_mem (hv _) (U.smul_mem _ (hv _))
    · rw [Function.update_of_ne hk]
      exact hv k

theorem gramSchmidt_mem {debug : Bool} {num left i : ℕ} {p : ℕ → ℕ} {v v' : ℕ → E} (hv : ∀ k, v k ∈ U)
    (h : gramSchmidt debug num left i p v = .ok v') : ∀ k, v' k ∈ U := by
  induction left generalizing i p v with
  | zero =>
    simp only [gramSchmidt, Outcome.ok.injEq] at h
    exact h ▸ hv
  | succ left ih =>
    simp only [gramSchmidt] at h
    split_ifs at h
    refine ih (orthogonaliseLater_mem U ?_) h
    intro k
    by_cases hk : k = (searchLongest v i (num - i) i p (-1)).1 i
    · subst hk
      rw [Function.update_self]
      exact U.smul_mem _ (hv _)
    · rw [Function.update_of_ne hk]
      exact hv k

theorem addDeflationVecs_mem {debug : Bool} {ds vecs ds' : List E} (hds : ∀ d ∈ ds, d ∈ U)
    (hvecs : ∀ v ∈ vecs, v ∈ U) (h : addDeflationVecs debug ds vecs = .ok ds') : ∀ d ∈ ds', d ∈ U := by
  simp only [addDeflationVecs, Outcome.bind_eq_ok, Outcome.pure_eq, Outcome.ok.injEq] at h
  obtain ⟨v, hv, rfl⟩ := h
  have hall : ∀ e ∈ ds ++ vecs.map (deflate ds), e ∈ U := by
    intro e he
    rcases List.mem_append.1 he with he | he
    · exact hds e he
    · obtain ⟨w, hw, rfl⟩ := List.mem_map.1 he
      exact deflate_memU U hds (hvecs w hw)
  have := gramSchmidt_mem U (fun k => by
    by_cases hk : k < (ds ++ vecs.map (deflate ds)).length
    · rw [List.getD_eq_getElem _ _ hk]
      exact hall _ (List.getElem_mem hk)
    · rw [List.getD_eq_default _ _ (by omega)]
      exact U.zero_mem) hv
  intro d hd
  obtain ⟨k, -, rfl⟩ := List.mem_map.1 hd
  exact this k

theorem cycleLoop_mem {debug : Bool} {run : List E → E → Outcome (List ℝ × List E)}
    (hrun : ∀ ds g ep, (∀ d ∈ ds, d ∈ U) → g ∈ U → run ds g = .ok ep → ∀ y ∈ ep.2, y ∈ U)
    {perturb : ℕ → E → E} (hp : ∀ c, ∀ x ∈ U, perturb c x ∈ U) {per numCycles left cycle : ℕ} {ds : List E}
    {guess : E} {acc out : List ℝ × List E} (hds : ∀ d ∈ ds, d ∈ U) (hg : guess ∈ U) (hacc : ∀ y ∈ acc.2, y ∈ U)
    (h : cycleLoop debug run perturb per numCycles left cycle ds guess acc = .ok out) : ∀ y ∈ out.2, y ∈ U := by
  induction left generalizing cycle ds guess acc with
  | zero =>
    simp only [cycleLoop, Outcome.ok.injEq] at h
    exact h ▸ hacc
  | succ left ih =>
    simp only [cycleLoop, Outcome.bind_eq_ok] at h
    obtain ⟨ep, hep, sv, hsv, h⟩ := h
    have hg' : deflate ds (if cycle > 0 then perturb cycle guess else guess) ∈ U := by
      apply deflate_memU U hds
      split_ifs
      · exact hp _ _ hg
      · exact hg
    have hep' := hrun _ _ _ hds hg' hep
    have hsv' : ∀ y ∈ sv.2, y ∈ U := by
      unfold savePairs at hsv
      split_ifs at hsv
      simp only [Outcome.ok.injEq] at hsv
      subst hsv
      exact fun y hy => hep' y (List.mem_of_mem_take hy)
    have hacc' : ∀ y ∈ acc.2 ++ sv.2, y ∈ U := by
      intro y hy
      rcases List.mem_append.1 hy with hy | hy
      · exact hacc y hy
      · exact hsv' y hy
    by_cases hc : cycle ≠ numCycles - 1
    · rw [if_pos hc] at h
      obtain ⟨ds', hds', h⟩ := Outcome.bind_eq_ok.1 h
      exact ih (addDeflationVecs_mem U hds hep' hds') hg' hacc' h
    · rw [if_neg hc] at h
      exact ih hds hg' hacc' h

theorem lanczosSolve_mem {debug : Bool} {A : E → E} (hA : ∀ x ∈ U, A x ∈ U)
    {tridiag : List ℝ → List ℝ → ℕ → List ℝ × List ℝ} {sortPerm : List ℝ → List ℕ} {perturb : ℕ → E → E}
    (hp : ∀ c, ∀ x ∈ U, perturb c x ∈ U) {emptyVec : E} {n : ℕ} {deflated : Option (ℕ × ℕ)} {p : LanczosParams}
    {guess : E} (hg : guess ∈ U) {out : List ℝ × List E}
    (h : lanczosSolve debug A tridiag sortPerm perturb emptyVec n deflated p guess = .ok out) :
    ∀ y ∈ out.2, y = emptyVec ∨ y ∈ U := by
  unfold lanczosSolve at h
  simp only [Outcome.bind_eq_ok] at h
  obtain ⟨_, -, _, -, acc, hacc, h⟩ := h
  rw [Outcome.pure_eq, Outcome.ok.injEq] at h
  subst h
  have hall := cycleLoop_mem U (by
    intro ds g ep hds hg hrun
    simp only [Outcome.bind_eq_ok, Outcome.pure_eq, Outcome.ok.injEq] at hrun
    obtain ⟨r, hr, rfl⟩ := hrun
    exact solveLanczos_mem U (fun x hx => deflate_memU U hds (hA x hx)) hg hr) hp (by simp) hg (by simp) hacc
  have hcut : ∀ y ∈ acc.2.take n ++ List.replicate (n - acc.2.length) emptyVec, y = emptyVec ∨ y ∈ U := by
    intro y hy
    rcases List.mem_append.1 hy with hy | hy
    · exact Or.inr (hall y (List.mem_of_mem_take hy))
    · exact Or.inl (List.eq_of_mem_replicate hy)
  intro y hy
  unfold finishPairs at hy
  dsimp only at hy
  split_ifs at hy
  · obtain ⟨i, -, rfl⟩ := List.mem_map.1 hy
    by_cases hi : i < (acc.2.take n ++ List.replicate (n - acc.2.length) emptyVec).length
    · rw [List.getD_eq_getElem _ _ hi]
      exact hcut _ (List.getElem_mem hi)
    · rw [List.getD_eq_default _ _ (by omega)]
      exact Or.inl rfl
  · exact hcut y hy

end Mfmg
