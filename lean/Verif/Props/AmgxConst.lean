import Verif.Props.Amgx
import Verif.Props.DeviceGather

/-!
# C62: building and applying the AMGX solver, and its arguments
-/

set_option autoImplicit false

namespace Mfmg

section

variable {K : Type} [AddCommMonoid K] [Mul K]

omit [Mul K] in
/-- C62: with host vectors the right-hand side comes back unchanged, for every solver. -/
theorem C62_host (n : ℕ) (sent : List ℕ) (hsent : sent.Nodup) (hs : ∀ i ∈ sent, i < n)
    (rowMap : UMap) (hmap : rowMap.Perm (localMap n sent)) (solve : List K → List K → List K)
    (hsolve : ∀ b x, b.length = n → (solve b x).length = n) (b x : List K)
    (hb : b.length = n) (hx : x.length = n) :
    ∃ x', amgxSolveHost rowMap 0 solve b x = .ok (b, x') := by
  obtain ⟨b', hb1, hb2, -⟩ := (C45_vectors n sent hsent hs rowMap hmap b b x hb hb hx).1
  obtain ⟨x', hx1, -, -⟩ := (C45_vectors n sent hsent hs rowMap hmap b
    (solve b' (List.replicate b.length 0)) x hb (hsolve _ _ hb2) hx).2
  refine ⟨x', ?_⟩
  unfold amgxSolveHost
  rw [hb1, Outcome.ok_bind]
  simp only []
  rw [hx1]
  rfl

example : ∃ x', amgxSolveHost [(1, 2), (0, 0), (2, 1)] 0 (fun b _ => b) [10, 11, 12] [0, 0, 0]
    = .ok ([10, 11, 12], x') :=
  C62_host 3 [1] (by decide) (by decide) _ (by decide +kernel) _ (fun _ _ h => h) _ _ rfl rfl

omit [Mul K] in
/-- C62 is false for device vectors: the right-hand side, passed as `const`, comes back permuted.  For
every right-hand side in which the value of some renumbered row differs from the value at its new
position, `b` has changed after the call. -/
theorem C62_device_violated (n : ℕ) (sent : List ℕ) (hsent : sent.Nodup) (hs : ∀ i ∈ sent, i < n)
    (rowMap : UMap) (hmap : rowMap.Perm (localMap n sent)) (solve : List K → List K → List K)
    (hsolve : ∀ b x, b.length = n → (solve b x).length = n) (b x : List K)
    (hb : b.length = n) (i : ℕ) (hi : i < n)
    (hne : b[i]? ≠ b[(localMap n sent).at i]?) :
    ∃ b' x', amgxSolveDevice rowMap solve b x = .ok (b', x') ∧ b' ≠ b := by
  obtain ⟨b', hb1, hb2, hb3⟩ := (C45_vectors n sent hsent hs rowMap hmap b b b hb hb hb).1
  have hl := hsolve b' x hb2
  obtain ⟨x', hx1, -, -⟩ := (C45_vectors n sent hsent hs rowMap hmap b (solve b' x) (solve b' x) hb
    hl hl).2
  refine ⟨b', x', ?_, ?_⟩
  · unfold amgxSolveDevice
    rw [hb1, Outcome.ok_bind]
    simp only []
    rw [hx1]
    rfl
  · rintro rfl
    exact hne (hb3 i hi).symm

example : ∃ b' x', amgxSolveDevice [(1, 2), (0, 0), (2, 1)] (fun b _ => b) [10, 11, 12] [0, 0, 0]
    = .ok (b', x') ∧ b' ≠ [10, 11, 12] :=
  C62_device_violated 3 [1] (by decide) (by decide) _ (by decide +kernel) _ (fun _ _ h => h) _ _ rfl
    1 (by decide) (by decide +kernel)

/-- C62 on one process: the conversion leaves the matrix of the operator as it was, up to the order of
the entries inside the rows, so products are the same. -/
theorem C62_operator_serial_partial (debug : Bool) (sort : (ℕ → ℕ → Bool) → List ℕ → List ℕ)
    (hsort : SortContract sort) (n : ℕ) (a : Csr K) (rows : List (List (ℕ × K)))
    (ha : a.HasRows rows) (hrows : rows.length = n) (hcols : ∀ g ∈ a.col, g < n) :
    ∃ (halo loc : UMap) (a' : Csr K) (rows' : List (List (ℕ × K))),
      csrToAmgx debug sort n (List.range n) [] a = .ok (halo, loc, a') ∧ a'.HasRows rows' ∧
      rows'.length = n ∧
      ∀ i (h : i < rows.length) (h' : i < rows'.length), rows'[i].Perm rows[i] ∧
        ∀ x : ℕ → K, rowTimes rows'[i] x = rowTimes rows[i] x := by
  obtain ⟨halo, loc, a', rows', ν, h1, h2, h3, h4, h5, h6, h7⟩ := C45_matrix debug sort hsort n
    (List.range n) [] a rows ha (by simpa using hrows) List.nodup_range hcols List.nodup_nil
    (by simp)
  have hmaps : loc = localMap n [] := by
    unfold csrToAmgx at h1
    simp only [List.length_range] at h1
    obtain ⟨p, -, h1⟩ := Outcome.bind_eq_ok.1 h1
    obtain ⟨v, -, h1⟩ := Outcome.bind_eq_ok.1 h1
    obtain ⟨c, -, h1⟩ := Outcome.bind_eq_ok.1 h1
    obtain ⟨r, -, h1⟩ := Outcome.bind_eq_ok.1 h1
    injection h1 with e
    injection e with e1 e2
    injection e2 with e2 e3
    exact e2.symm
  have hν : ∀ g, g < n → ν g = g := by
    intro g hg
    have h8 := h4 g (by simpa using hg)
    rw [List.getElem_range, hmaps, localMap_at _ _ _ hg] at h8
    rw [← h8]
    simp [localNumber]
  refine ⟨halo, loc, a', rows', h1, h5, by simpa using h6, ?_⟩
  intro i h h'
  have hi : i < n := by omega
  obtain ⟨h9, hp, -⟩ := h7 i (by simpa using hi)
  have hidx : ν ((List.range n)[i]'(by simpa using hi)) = i := by
    rw [List.getElem_range, hν i hi]
  have hmem : ∀ e ∈ rows[i], e.1 < n := by
    intro e he
    have := ha.rows_eq i h
    rw [← this] at he
    have h8 := List.mem_of_mem_drop (List.mem_of_mem_take he)
    exact hcols _ (List.of_mem_zip (a := e.1) (b := e.2) h8).1
  have hmapid : (rows[i].map fun e => (ν e.1, e.2)) = rows[i] := by
    conv_rhs => rw [← List.map_id rows[i]]
    apply List.map_congr_left
    intro e he
    rw [hν e.1 (hmem e he)]
    rfl
  have hp' : rows'[i].Perm rows[i] := by
    rw [getElem_congr_idx hidx, hmapid] at hp
    exact hp
  exact ⟨hp', fun x => rowTimes_perm hp' x⟩

example : ∃ (halo loc : UMap) (a' : Csr ℕ) (rows' : List (List (ℕ × ℕ))),
      csrToAmgx true exIndexSort 2 (List.range 2) [] (csrOf [[(1, 5), (0, 3)], [(1, 2)]])
        = .ok (halo, loc, a') ∧ a'.HasRows rows' ∧ rows'.length = 2 ∧
      ∀ i (h : i < [[(1, 5), (0, 3)], [(1, 2)]].length) (h' : i < rows'.length),
        rows'[i].Perm [[(1, 5), (0, 3)], [(1, 2)]][i] ∧
        ∀ x : ℕ → ℕ, rowTimes rows'[i] x = rowTimes [[(1, 5), (0, 3)], [(1, 2)]][i] x :=
  C62_operator_serial_partial true exIndexSort exIndexSort_contract 2 _ _ (csrOf_hasRows _) rfl
    (by decide)

omit [AddCommMonoid K] [Mul K] in
/-- C62 is false for distributed operators: building the solver rewrites the operator's matrix with the
new numbers.  On every process, all columns are afterwards below the number of owned rows plus the
number of columns of other processes in use, so the operator has lost every larger column it had. -/
theorem C62_operator_violated (debug : Bool) (sort : (ℕ → ℕ → Bool) → List ℕ → List ℕ)
    (hsort : SortContract sort) (nGlobal : ℕ) (owned sent : List ℕ) (a : Csr K)
    (rows : List (List (ℕ × K))) (ha : a.HasRows rows) (hrows : rows.length = owned.length)
    (hnd : owned.Nodup) (hcols : ∀ g ∈ a.col, g < nGlobal) (hsent : sent.Nodup)
    (hs : ∀ i ∈ sent, i < owned.length) (halo : List ℕ) (hhalo : halo.Nodup)
    (hmem : ∀ g, g ∈ halo ↔ g ∈ a.col ∧ g ∉ owned) (g : ℕ) (hg : g ∈ a.col)
    (hbig : owned.length + halo.length ≤ g) :
    ∃ (halo' loc : UMap) (a' : Csr K), csrToAmgx debug sort nGlobal owned sent a
        = .ok (halo', loc, a') ∧ g ∉ a'.col ∧ ¬ a'.col.Perm a.col := by
  obtain ⟨halo', loc, a', rows', ν, h1, h2, h3, h4, h5, h6, h7⟩ := C45_matrix debug sort hsort
    nGlobal owned sent a rows ha hrows hnd hcols hsent hs
  obtain ⟨halo₁, hn1, hm1, honto⟩ := h2.onto
  have hlen : halo₁.length = halo.length := by
    apply List.Perm.length_eq
    rw [List.perm_ext_iff_of_nodup hn1 hhalo]
    intro k
    rw [hm1, hmem]
  -- every column of the new matrix is the number of an old one
  have hcol' : ∀ c ∈ a'.col, ∃ e ∈ a.col, ν e = c := by
    intro c hc
    have hzip' : ∀ r ∈ rows', ∀ e ∈ r, ∃ e' ∈ a.col, ν e' = e.1 := by
      intro r hr e he
      obtain ⟨k, hk, rfl⟩ := List.getElem_of_mem hr
      obtain ⟨g', hg', rfl⟩ := (honto k).1 (by omega)
      have hgo : g' ∈ owned := by
        by_contra hc
        have := h2.halo g' (hg'.resolve_left hc) hc
        omega
      obtain ⟨i, hi, rfl⟩ := List.getElem_of_mem hgo
      obtain ⟨hlt, hp, -⟩ := h7 i hi
      have := hp.subset he
      obtain ⟨e', he', rfl⟩ := List.mem_map.1 this
      refine ⟨e'.1, ?_, rfl⟩
      have := ha.rows_eq i (by omega)
      rw [← this] at he'
      have h8 := List.mem_of_mem_drop (List.mem_of_mem_take he')
      exact (List.of_mem_zip (a := e'.1) (b := e'.2) h8).1
    have hflat := csr_flatten a' rows' h5
    have hcEq : a'.col = rows'.flatten.map Prod.fst := by
      rw [← hflat, List.map_fst_zip (by rw [h5.cols, h5.vals])]
    rw [hcEq] at hc
    obtain ⟨e, he, rfl⟩ := List.mem_map.1 hc
    obtain ⟨r, hr, he⟩ := List.mem_flatten.1 he
    exact hzip' r hr e he
  have hnot : g ∉ a'.col := by
    intro hc
    obtain ⟨e, he, heq⟩ := hcol' g hc
    have := (honto (ν e)).2 ⟨e, Or.inr he, rfl⟩
    omega
  exact ⟨halo', loc, a', h1, hnot, fun hp => hnot (hp.mem_iff.2 hg)⟩

/-- The second of two processes, which owns the rows 2 and 3 of a diagonal matrix, after the solver has
been built. -/
example : ∃ (halo' loc : UMap) (a' : Csr ℕ),
      csrToAmgx true exIndexSort 4 [2, 3] [] (csrOf [[(2, 7)], [(3, 8)]]) = .ok (halo', loc, a') ∧
      3 ∉ a'.col ∧ ¬ a'.col.Perm [2, 3] :=
  C62_operator_violated true exIndexSort exIndexSort_contract 4 [2, 3] [] _ _ (csrOf_hasRows _) rfl
    (by decide) (by decide) (by decide) (by decide) [] (by decide)
    (by
      intro g
      have : (csrOf [[(2, 7)], [(3, 8)]]).col = [2, 3] := rfl
      rw [this]
      simp only [List.not_mem_nil, false_iff]
      exact fun h => h.2 h.1)
    3 (by decide) (by decide)

end

end Mfmg
