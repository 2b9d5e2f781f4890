import Verif.Model.DeviceGather
import Verif.Spec.DeviceGather
import Verif.Props.DeviceCsr

/-!
# C43, C61: gathering a distributed vector, the device matrix-vector product
-/

set_option autoImplicit false

namespace Mfmg

section

variable {α : Type}

theorem allgatherv_ok : ∀ (sends : List (List α)) (acc : ℕ) (pre tail : List α), pre.length = acc →
    sends.flatten.length ≤ tail.length →
    allgatherv (displacements acc (sends.map List.length)) sends (pre ++ tail)
      = .ok (pre ++ sends.flatten ++ tail.drop sends.flatten.length) := by
  intro sends
  induction sends with
  | nil => intro acc pre tail _ _; simp [allgatherv, displacements]
  | cons s ss ih =>
    intro acc pre tail hacc hlen
    rw [List.flatten_cons, List.length_append] at hlen
    have hw : writeBlock (pre ++ tail) acc s = .ok ((pre ++ s) ++ tail.drop s.length) := by
      unfold writeBlock
      rw [if_pos (by rw [List.length_append]; omega), ← hacc, List.take_left,
        List.drop_append, List.drop_of_length_le (by omega), Nat.add_sub_cancel_left,
        List.nil_append]
    have := ih (acc + s.length) (pre ++ s) (tail.drop s.length) (by simp [hacc])
      (by rw [List.length_drop]; omega)
    unfold allgatherv at this ⊢
    rw [List.map_cons, displacements, List.zip_cons_cons, List.foldlM_cons]
    show (writeBlock (pre ++ tail) acc s >>= _) = _
    rw [hw, Outcome.ok_bind, this]
    simp [List.drop_drop]

theorem allGather_ok (sends : List (List α)) (buf : List α)
    (h : sends.flatten.length = buf.length) : allGather sends buf = .ok sends.flatten := by
  have := allgatherv_ok sends 0 [] buf rfl (by omega)
  rw [List.nil_append, List.nil_append, h, List.drop_length, List.append_nil] at this
  exact this

theorem allGatherDev_ok (sends : List (List α)) (buf : List α)
    (h : sends.flatten.length = buf.length) : allGatherDev sends buf = .ok sends.flatten := by
  unfold allGatherDev
  split
  · rename_i send
    simp only [List.flatten_cons, List.flatten_nil, List.append_nil] at h ⊢
    simp [writeBlock, h]
  · exact allGather_ok sends buf h

theorem nBlocks_covers (size : ℕ) : size ≤ nBlocks size * 512 := by
  unfold nBlocks
  split_ifs <;> omega

theorem reorderVector_ok (x : ℕ → α) (size : ℕ) (indices : List ℕ) (hlen : indices.length = size)
    (hlt : ∀ g ∈ indices, g < size) :
    ∀ (schedule : List ℕ) (dst : List α), dst.length = size →
      ∃ out, reorderVector schedule size (indices.map x) indices dst = .ok out ∧
        out.length = size ∧
        (∀ g, dst[g]? = some (x g) → out[g]? = some (x g)) ∧
        ∀ i ∈ schedule, ∀ g : ℕ, indices[i]? = some g → out[g]? = some (x g) := by
  intro schedule
  induction schedule with
  | nil =>
    intro dst hd
    exact ⟨dst, rfl, hd, fun _ h => h, by simp⟩
  | cons i is ih =>
    intro dst hd
    by_cases hi : i < size
    · have hgi : indices[i]'(by omega) < size := hlt _ (List.getElem_mem _)
      have hstep : reorderThread size (indices.map x) indices dst i
          = .ok (dst.set (indices[i]'(by omega)) (x (indices[i]'(by omega)))) := by
        simp [reorderThread, hi, Outcome.get, List.getElem?_eq_getElem (show i < indices.length by omega),
          hd, hgi]
      obtain ⟨out, h1, h2, h3, h4⟩ := ih (dst.set (indices[i]'(by omega)) (x (indices[i]'(by omega))))
        (by simpa using hd)
      refine ⟨out, ?_, h2, ?_, ?_⟩
      · unfold reorderVector at h1 ⊢
        rw [List.foldlM_cons, hstep, Outcome.ok_bind, h1]
      · intro g hg
        apply h3
        rw [List.getElem?_set]
        split_ifs with e1 e2
        · rw [e1]
        · omega
        · exact hg
      · intro j hj g hg
        rcases List.mem_cons.1 hj with rfl | hj
        · rw [List.getElem?_eq_getElem (show j < indices.length by omega)] at hg
          obtain rfl := Option.some.inj hg
          apply h3
          rw [List.getElem?_set_self (by omega)]
        · exact h4 j hj g hg
    · have hstep : reorderThread size (indices.map x) indices dst i = .ok dst := by
        simp [reorderThread, hi]
      obtain ⟨out, h1, h2, h3, h4⟩ := ih dst hd
      refine ⟨out, ?_, h2, h3, ?_⟩
      · unfold reorderVector at h1 ⊢
        rw [List.foldlM_cons, hstep, Outcome.ok_bind, h1]
      · intro j hj g hg
        rcases List.mem_cons.1 hj with rfl | hj
        · rw [List.getElem?_eq_none (by omega)] at hg
          exact absurd hg (by simp)
        · exact h4 j hj g hg

/-- C43: for every number of processes, every distribution of the indices over them and every order
in which the threads of the kernel run, `gather_vector` gives the whole vector in global order,
whatever the destination and the uninitialised buffer contained. -/
theorem C43_gather (size : ℕ) (owned : List (List ℕ)) (hpart : IsPartition size owned) (x : ℕ → α)
    (values : List (List α)) (hval : Distributes owned x values) (schedule : List ℕ)
    (hs : IsSchedule (nBlocks size * 512) schedule) (junk : α) (dst : List α)
    (hdst : dst.length = size) :
    gatherVector schedule size owned values junk dst = .ok ((List.range size).map x) := by
  have hol : owned.flatten.length = size := by
    rw [List.Perm.length_eq hpart, List.length_range]
  have hvf : values.flatten = owned.flatten.map x := by
    rw [hval, List.map_flatten]
  have hvl : values.flatten.length = size := by rw [hvf, List.length_map, hol]
  unfold gatherVector
  rw [allGatherDev_ok values _ (by rw [hvl, List.length_replicate]), Outcome.ok_bind,
    allGather_ok owned _ (by rw [hol, List.length_replicate]), Outcome.ok_bind, hvf]
  obtain ⟨out, h1, h2, _, h4⟩ := reorderVector_ok x size owned.flatten hol
    (fun g hg => List.mem_range.1 (hpart.mem_iff.1 hg)) schedule dst hdst
  rw [h1]
  congr 1
  apply List.ext_getElem?
  intro g
  by_cases hg : g < size
  · have hmem : g ∈ owned.flatten := hpart.mem_iff.2 (List.mem_range.2 hg)
    obtain ⟨i, hi, hgi⟩ := List.getElem_of_mem hmem
    rw [h4 i (hs.mem_iff.2 (List.mem_range.2 (by have := nBlocks_covers size; omega))) g
      (by rw [List.getElem?_eq_getElem hi, hgi])]
    simp [hg]
  · rw [List.getElem?_eq_none (by omega), List.getElem?_eq_none (by simp; omega)]

/-- Three processes with interleaved indices. -/
def exOwned : List (List ℕ) := [[1, 4], [], [0, 2, 3]]

theorem exOwned_partition : IsPartition 5 exOwned := by
  unfold IsPartition; decide

example (schedule : List ℕ) (hs : IsSchedule (nBlocks 5 * 512) schedule) :
    gatherVector schedule 5 exOwned [[11, 14], [], [10, 12, 13]] 99 [7, 7, 7, 7, 7]
      = .ok [10, 11, 12, 13, 14] :=
  C43_gather 5 exOwned exOwned_partition (· + 10) _ rfl schedule hs 99 _ rfl

example : IsSchedule (nBlocks 5 * 512) (List.range 512).reverse :=
  List.reverse_perm _

end

section

variable {K : Type} [AddMonoid K] [Mul K]

theorem mapM_get (x : List K) (row : List (ℕ × K)) (h : ∀ e ∈ row, e.1 < x.length) :
    (row.mapM fun (c : ℕ × K) => do
      let v ← Outcome.get x c.1 "x[column]"
      pure (c.2 * v)) = Outcome.ok (row.map fun e => e.2 * x.getD e.1 0) := by
  induction row with
  | nil => rfl
  | cons e row ih =>
    have he := h e (by simp)
    rw [List.mapM_cons, ih (fun f hf => h f (by simp [hf]))]
    simp [Outcome.get, List.getElem?_eq_getElem he]

theorem mapM_ok {β γ : Type} (l : List β) (f : β → Outcome γ) (g : β → γ)
    (h : ∀ b ∈ l, f b = .ok (g b)) : l.mapM f = .ok (l.map g) := by
  induction l with
  | nil => rfl
  | cons b l ih =>
    rw [List.mapM_cons, h b (by simp), ih (fun c hc => h c (by simp [hc]))]
    simp

theorem csrmv_ok (a : Csr K) (rows : List (List (ℕ × K))) (ha : a.HasRows rows) (x : List K)
    (hcol : ∀ r ∈ rows, ∀ e ∈ r, e.1 < x.length) :
    csrmv rows.length a x = .ok (rows.map fun r => rowTimes r (fun j => x.getD j 0)) := by
  have h1 : (rows.map fun r => rowTimes r (fun j => x.getD j 0))
      = (List.range rows.length).map fun i => rowTimes (rows.getD i []) (fun j => x.getD j 0) := by
    apply List.ext_getElem
    · simp
    · intro i h1 h2
      have : i < rows.length := by simpa using h1
      simp [this]
  rw [h1]
  unfold csrmv
  apply mapM_ok
  intro i hi
  have hi : i < rows.length := by simpa using hi
  have g1 : Outcome.get a.rowPtr i "row_ptr" = .ok (rowStart rows i) := by
    rw [ha.ptrs]
    simp [Outcome.get, show i < rows.length + 1 by omega]
  have g2 : Outcome.get a.rowPtr (i + 1) "row_ptr" = .ok (rowStart rows (i + 1)) := by
    rw [ha.ptrs]
    simp [Outcome.get, hi]
  have hrow := ha.rows_eq i hi
  unfold Csr.row at hrow
  rw [ha.ptrs] at hrow
  simp only [List.getD_eq_getElem?_getD, List.getElem?_map,
    List.getElem?_range (show i < rows.length + 1 by omega),
    List.getElem?_range (show i + 1 < rows.length + 1 by omega), Option.map_some,
    Option.getD_some] at hrow
  rw [g1, g2]
  simp only [Outcome.ok_bind]
  rw [hrow, mapM_get x rows[i] (hcol _ (List.getElem_mem _))]
  simp [rowTimes, hi]

/-- C61: the device matrix-vector product gives on each process, for every distribution of the rows
and of the vector and every thread order, the rows of the global product: `local` are the owned rows
of the matrix with global column indices, `a` the CSR arrays made from them. -/
theorem C61_vmult (size : ℕ) (owned : List (List ℕ)) (hpart : IsPartition size owned) (x : ℕ → K)
    (values : List (List K)) (hval : Distributes owned x values) (schedule : List ℕ)
    (hs : IsSchedule (nBlocks size * 512) schedule) (junk : K)
    (rows : List (List (ℕ × K))) (hcol : ∀ r ∈ rows, ∀ e ∈ r, e.1 < size)
    (a : Csr K) (ha : a.HasRows rows) :
    deviceVmult schedule size owned values junk rows.length a
      = .ok (rows.map fun r => rowTimes r x) := by
  unfold deviceVmult
  rw [C43_gather size owned hpart x values hval schedule hs junk _ (by simp), Outcome.ok_bind,
    csrmv_ok a rows ha _ (by simpa using hcol)]
  congr 1
  apply List.map_congr_left
  intro r hr
  unfold rowTimes
  congr 1
  apply List.map_congr_left
  intro e he
  have := hcol r hr e he
  simp [this]

example (schedule : List ℕ) (hs : IsSchedule (nBlocks 5 * 512) schedule) :
    deviceVmult schedule 5 exOwned [[11, 14], [], [10, 12, 13]] 99 2
      (csrOf [[(0, 2), (3, 1)], [(4, 5)]]) = .ok [33, 70] :=
  C61_vmult 5 exOwned exOwned_partition (· + 10) _ rfl schedule hs 99 _ (by decide) _
    (csrOf_hasRows _)

/-- C61, from the host matrix to the product: convert the owned rows of a Trilinos matrix and
multiply. -/
theorem C61_convert_vmult (debug : Bool) (gid : ℕ → ℕ) (rows : List (List (ℕ × K)))
    (hnnz : 0 < (rows.map List.length).sum) (size : ℕ)
    (hcol : ∀ r ∈ rows, ∀ e ∈ r, gid e.1 < size)
    (owned : List (List ℕ)) (hpart : IsPartition size owned) (x : ℕ → K)
    (values : List (List K)) (hval : Distributes owned x values) (schedule : List ℕ)
    (hs : IsSchedule (nBlocks size * 512) schedule) (junk : K) :
    (convertTrilinos debug gid rows >>= fun a =>
      deviceVmult schedule size owned values junk rows.length a)
      = .ok (rows.map fun r => (r.map fun e => e.2 * x (gid e.1)).sum) := by
  obtain ⟨c, h1, h2⟩ := C44_trilinos debug gid rows hnnz
  rw [h1, Outcome.ok_bind]
  have hcol' : ∀ r ∈ rows.map (List.map fun e => (gid e.1, e.2)), ∀ e ∈ r, e.1 < size := by
    intro r hr e he
    obtain ⟨r', hr', rfl⟩ := List.mem_map.1 hr
    obtain ⟨e', he', rfl⟩ := List.mem_map.1 he
    exact hcol r' hr' e' he'
  have := C61_vmult size owned hpart x values hval schedule hs junk _ hcol' c h2
  rw [List.length_map] at this
  rw [this, List.map_map]
  congr 1
  apply List.map_congr_left
  intro r _
  simp [rowTimes, Function.comp_def]

example (schedule : List ℕ) (hs : IsSchedule (nBlocks 5 * 512) schedule) :
    (convertTrilinos true (fun i => i) [[(0, 2), (3, 1)], [(4, 5)]] >>= fun a =>
      deviceVmult schedule 5 exOwned [[11, 14], [], [10, 12, 13]] 99 2 a) = .ok [33, 70] :=
  C61_convert_vmult true _ _ (by decide) 5 (by decide) exOwned exOwned_partition (· + 10) _ rfl
    schedule hs 99

end

end Mfmg
