import Verif.Props.DeviceFaults
import Verif.Props.DeviceSmoother
import Verif.Props.DeviceEigen

/-!
# C95: errors of the device are reported (products, smoother, eigenvectors)
-/

set_option autoImplicit false

namespace Mfmg

section

variable {K : Type} {α β : Type}

/-- In debug builds: if the program returns, the device is not broken. -/
def EndsChecked (m : Machine K) (p : Dev α) : Prop :=
  m.debug = true → ∀ s a s', p s = .ok (a, s') → s'.broken = false

theorem endsChecked_bind {m : Machine K} {p : Dev α} {q : α → Dev β} (h : ∀ a, EndsChecked m (q a)) :
    EndsChecked m (p >>= q) := by
  intro hd s b s' e
  obtain ⟨a, s1, -, e2⟩ := Dev.bind_ok e
  exact h a hd s1 b s' e2

theorem endsChecked_call (m : Machine K) (arg : Option α) (good : α → Outcome β) (bad : ℕ → β) :
    EndsChecked m (m.call arg good bad) := fun hd _ _ _ e => (call_unbroken hd e).2.1

theorem endsChecked_free {γ : Type} (m : Machine K) (p : Ptr γ) : EndsChecked m (m.free p) :=
  endsChecked_bind fun _ => endsChecked_call m _ _ _

theorem endsChecked_then_pure {m : Machine K} {p : Dev α} (h : EndsChecked m p) (q : α → β) :
    EndsChecked m (p >>= fun a => pure (q a)) := by
  intro hd s b s' e
  obtain ⟨a, s1, e1, e2⟩ := Dev.bind_ok e
  cases e2
  exact h hd _ _ _ e1

theorem marked_descriptor (m : Machine K) (init : Ptr Unit) :
    Marked m (descriptorF m init) (descriptorF m.clean init) :=
  ((strict_malloc m _ _).bind fun _ => (strict_of m _).bind fun _ => (strict_call m _ _ _ _).bind fun _ =>
    (strict_call m _ _ _ _).bind fun _ => strict_pure m _).marked

theorem strict_descriptor (m : Machine K) (init : Ptr Unit) :
    Strict m (descriptorF m init) (descriptorF m.clean init) :=
  (strict_malloc m _ _).bind fun _ => (strict_of m _).bind fun _ => (strict_call m _ _ _ _).bind fun _ =>
    (strict_call m _ _ _ _).bind fun _ => strict_pure m _

/-- **C95**, matrices in debug builds: the copy constructor of a matrix returns only if no call failed, and
then the copy has the arrays of the original; without failures it returns.

Missing: release builds. -/
theorem C95_copy_partial (m : Machine K) (hd : m.debug = true) (rows : List (List (ℕ × K))) (a : Csr K)
    (ha : a.HasRows rows) (s : DevState) (hs : s.Healthy) :
    ReportsErrors m (copyMatrixF m a rows.length) s ∧
    (∀ r s', copyMatrixF m a rows.length s = .ok (r, s') → r = FaultyMatrix.ofCsr a) ∧
    ((∀ n, m.fault n = .none) → ∃ r s', copyMatrixF m a rows.length s = .ok (r, s')) := by
  obtain ⟨c, p, br⟩ := s
  obtain ⟨rfl, rfl⟩ : p = false ∧ br = false := hs
  have hst : Strict m (copyMatrixF m a rows.length) (copyMatrixF m.clean a rows.length) :=
    (strict_malloc m _ _).bind fun _ => (strict_copyTo m _ _ _).bind fun _ =>
    (strict_malloc m _ _).bind fun _ => (strict_copyTo m _ _ _).bind fun _ =>
    (strict_malloc m _ _).bind fun _ => (strict_copyTo m _ _ _).bind fun _ =>
    (strict_descriptor m _).bind fun _ => strict_pure m _
  have hf : ∀ c, m.clean.fault c = .none := fun _ => rfl
  have hc : copyMatrixF m.clean a rows.length ⟨c, false, false⟩ =
      .ok (FaultyMatrix.ofCsr a, ⟨c + 9, false, false⟩) := by
    unfold copyMatrixF
    simp only [Dev.bind_apply]
    rw [malloc_none (hf _), Outcome.ok_bind, copyTo_none (hf _) _ _ _ (by simp [Machine.values]),
      Outcome.ok_bind, malloc_none (hf _), Outcome.ok_bind,
      copyTo_none (hf _) _ _ _ (by simp [Machine.indices, ha.vals, ha.cols]), Outcome.ok_bind,
      malloc_none (hf _), Outcome.ok_bind,
      copyTo_none (hf _) _ _ _ (by simp [Machine.indices, ha.ptrs]), Outcome.ok_bind,
      descriptor_none (fun _ _ => hf _), Outcome.ok_bind]
    rfl
  refine ⟨fun r s' e => ?_, fun r s' e => ?_, fun hn => ?_⟩
  · obtain ⟨-, h2, h3, -⟩ := hst hd _ _ _ e
    exact ⟨h2, h3⟩
  · obtain ⟨h1, -⟩ := hst hd _ _ _ e
    rw [hc] at h1
    cases h1
    rfl
  · have hm : m.clean = m := by
      cases m
      simp only [Machine.clean, Machine.mk.injEq, true_and, and_true]
      exact (funext hn).symm
    rw [hm] at hc
    exact ⟨_, _, hc⟩

/-- **C95**, matrices in release builds: if the device has no memory for the values, the copy constructor of a matrix
uses an indeterminate pointer, whatever the matrix is. -/
theorem C95_copy_violated (m : Machine K) (hd : m.debug = false) (a : Csr K) (size : ℕ) (s : DevState)
    (hf : m.fault s.calls ≠ .none) : copyMatrixF m a size s = .ub "indeterminate pointer" := by
  have h1 : m.malloc .indeterminate (m.values a.val.length) s = .ok (.indeterminate, m.after s) := by
    simp [Machine.malloc, Machine.call, Machine.failing, hf, hd]
  change Dev.bind (m.malloc .indeterminate (m.values a.val.length)) _ s = _
  rw [Dev.bind, h1]
  rfl

end

/-! ## The product of a matrix and a vector -/

section

variable {K : Type} [CommRing K]

theorem gatherF_none (m : Machine K) (hf : ∀ k, m.fault k = .none) (rank : ℕ) (values : List (List K))
    (own buf : List K) (hown : values[rank]? = some own) (hl : values.flatten.length = buf.length)
    (c : ℕ) (p : Bool) :
    ∃ c', allGatherF m rank values own buf ⟨c, p, false⟩ = .ok (values.flatten, ⟨c', p, false⟩) := by
  have hset : values.set rank own = values := by
    obtain ⟨h, e⟩ := List.getElem?_eq_some_iff.1 hown
    rw [← e, List.set_getElem_self]
  unfold allGatherF
  split
  · rename_i v
    have hr : rank = 0 := by
      obtain ⟨h, -⟩ := List.getElem?_eq_some_iff.1 hown
      simpa using h
    subst hr
    simp only [List.getElem?_cons_zero, Option.some.injEq] at hown
    subst hown
    simp only [List.flatten_cons, List.flatten_nil, List.append_nil] at hl ⊢
    rw [copy_none (hf _) _ _ _ hl.symm]
    exact ⟨_, rfl⟩
  · simp only [Dev.bind_apply]
    rw [toHost_none (hf _), copyToHost_all _ _ rfl, Dev.of_ok, Outcome.ok_bind]
    simp only []
    rw [hset, allGather_ok values _ (by simpa using hl), Dev.of_ok, Outcome.ok_bind,
      copy_none (hf _) _ _ _ hl.symm]
    exact ⟨_, rfl⟩

theorem vmultF_none (m : Machine K) (hf : ∀ k, m.fault k = .none) (size : ℕ) (owned : List (List ℕ))
    (hpart : IsPartition size owned) (x : ℕ → K) (values : List (List K)) (hval : Distributes owned x values)
    (schedule : List ℕ) (hs : IsSchedule (nBlocks size * 512) schedule) (rank : ℕ) (own : List K)
    (hown : values[rank]? = some own) (rows : List (List (ℕ × K)))
    (hcol : ∀ r ∈ rows, ∀ e ∈ r, e.1 < size) (a : Csr K) (ha : a.HasRows rows) (dst : List K)
    (c : ℕ) (p : Bool) :
    ∃ c', vmultF m schedule size rank owned values own rows.length (FaultyMatrix.ofCsr a) dst ⟨c, p, false⟩ =
      .ok (rows.map fun r => rowTimes r x, ⟨c', p, false⟩) := by
  have hol : owned.flatten.length = size := by
    rw [List.Perm.length_eq hpart, List.length_range]
  have hvf : values.flatten = owned.flatten.map x := by rw [hval, List.map_flatten]
  have hvl : values.flatten.length = size := by rw [hvf, List.length_map, hol]
  have hg := C43_gather size owned hpart x values hval schedule hs 0 (m.values size c)
    (by simp [Machine.values])
  unfold gatherVector at hg
  rw [allGatherDev_ok values _ (by rw [hvl, List.length_replicate]), Outcome.ok_bind,
    allGather_ok owned _ (by rw [hol, List.length_replicate]), Outcome.ok_bind] at hg
  have hv := C61_vmult size owned hpart x values hval schedule hs 0 rows hcol a ha
  unfold deviceVmult at hv
  rw [C43_gather size owned hpart x values hval schedule hs 0 _ (by simp), Outcome.ok_bind] at hv
  obtain ⟨c1, e1⟩ := gatherF_none m hf rank values own (m.values size (c + 1)) hown
    (by simp [Machine.values, hvl]) (c + 1 + 1) p
  unfold vmultF
  simp only [Dev.bind_apply]
  rw [malloc_none (hf _), Outcome.ok_bind, malloc_none (hf _), Outcome.ok_bind]
  simp only [Ptr.arg, Dev.of_ok, Outcome.ok_bind, Option.getD_some]
  rw [e1, Outcome.ok_bind, allGather_ok owned _ (by simpa using hol), Dev.of_ok, Outcome.ok_bind,
    malloc_none (hf _), Outcome.ok_bind, copyTo_none (hf _) _ _ _ (by simp [Machine.indices, hol]),
    Outcome.ok_bind]
  simp only [Ptr.args, Ptr.arg, Outcome.ok_bind, Dev.of_ok]
  rw [launch_none (hf _)]
  simp only []
  rw [hg, Dev.of_ok, Outcome.ok_bind, free_none (hf _), Outcome.ok_bind]
  simp only [FaultyMatrix.ofCsr, FaultyMatrix.arrays, Ptr.arg, Outcome.ok_bind, Dev.of_ok]
  rw [call_none (hf _), hv, Dev.of_ok]
  exact ⟨_, rfl⟩

theorem marked_vmult (m : Machine K) (schedule : List ℕ) (size rank : ℕ) (owned : List (List ℕ))
    (values : List (List K)) (own : List K) (nRows : ℕ) (a : FaultyMatrix K) (dst : List K) :
    Marked m (vmultF m schedule size rank owned values own nRows a dst)
      (vmultF m.clean schedule size rank owned values own nRows a dst) := by
  have hg : ∀ buf, Strict m (allGatherF m rank values own buf) (allGatherF m.clean rank values own buf) := by
    intro buf
    unfold allGatherF
    split
    · exact strict_copy m _ _ _
    · exact (strict_toHost m _ _ _ _).bind fun _ => (strict_of m _).bind fun _ => strict_copy m _ _ _
  exact (strict_malloc m _ _).marked.bind fun _ => (strict_malloc m _ _).marked.bind fun _ =>
    (strict_of m _).marked.bind fun _ => (hg _).marked.bind fun _ => (strict_of m _).marked.bind fun _ =>
    (strict_malloc m _ _).marked.bind fun _ => (strict_copyTo m _ _ _).marked.bind fun _ =>
    (strict_of m _).marked.bind fun _ => (marked_launch m _ _ _ _).bind fun _ =>
    (strict_free m _).marked.bind fun _ => (strict_of m _).marked.bind fun _ =>
    (strict_call m _ _ _ _).marked

omit [CommRing K] in
theorem clean_eq {m : Machine K} (hn : ∀ n, m.fault n = .none) : m.clean = m := by
  cases m
  simp only [Machine.clean, Machine.mk.injEq, true_and, and_true]
  exact (funext hn).symm

/-- **C95**, products in debug builds, on every process.  If the product of a matrix and a vector returns, no
kernel has failed; and either no call failed and the result is the product, or an error is pending that nobody
has looked at.  Without failures it returns the product.

Missing: the kernel that orders the gathered vector is started without a check (`C95_vmult_violated`); release
builds. -/
theorem C95_vmult_partial (m : Machine K) (hd : m.debug = true) (size : ℕ) (owned : List (List ℕ))
    (hpart : IsPartition size owned) (x : ℕ → K) (values : List (List K)) (hval : Distributes owned x values)
    (schedule : List ℕ) (hs : IsSchedule (nBlocks size * 512) schedule) (rank : ℕ) (own : List K)
    (hown : values[rank]? = some own) (rows : List (List (ℕ × K)))
    (hcol : ∀ r ∈ rows, ∀ e ∈ r, e.1 < size) (a : Csr K) (ha : a.HasRows rows) (dst : List K)
    (s : DevState) (hh : s.Healthy) :
    (∀ y s', vmultF m schedule size rank owned values own rows.length (FaultyMatrix.ofCsr a) dst s = .ok (y, s') →
      s'.broken = false ∧ (s'.pending = true ∨
        m.NoFault s.calls s'.calls ∧ y = rows.map fun r => rowTimes r x)) ∧
    ((∀ n, m.fault n = .none) → ∃ s', vmultF m schedule size rank owned values own rows.length
      (FaultyMatrix.ofCsr a) dst s = .ok (rows.map fun r => rowTimes r x, s') ∧ s'.Healthy) := by
  obtain ⟨c, p, br⟩ := s
  obtain ⟨rfl, rfl⟩ : p = false ∧ br = false := hh
  obtain ⟨c', e⟩ := vmultF_none m.clean (fun _ => rfl) size owned hpart x values hval schedule hs rank own hown
    rows hcol a ha dst c false
  refine ⟨fun y s' e' => ?_, fun hn => ?_⟩
  · have hb : s'.broken = false :=
      (endsChecked_bind fun _ => endsChecked_bind fun _ => endsChecked_bind fun _ => endsChecked_bind fun _ =>
        endsChecked_bind fun _ => endsChecked_bind fun _ => endsChecked_bind fun _ => endsChecked_bind fun _ =>
        endsChecked_bind fun _ => endsChecked_bind fun _ => endsChecked_bind fun _ =>
        endsChecked_call m _ _ _ : EndsChecked m (vmultF m schedule size rank owned values own rows.length
          (FaultyMatrix.ofCsr a) dst)) hd _ _ _ e'
    refine ⟨hb, ?_⟩
    obtain ⟨-, -, h⟩ := marked_vmult m schedule size rank owned values own rows.length _ dst hd _ _ _ e'
    rcases h with h | h | ⟨h1, -, h3⟩
    · rw [hb] at h; cases h
    · exact .inl h
    · rw [e] at h1
      cases h1
      exact .inr ⟨h3, rfl⟩
  · rw [clean_eq hn] at e
    exact ⟨_, e, rfl, rfl⟩

/-- **C95**, products: a refused start of the kernel that orders the vector is not reported, in debug builds and
in release builds.  The result is the product with uninitialised memory, whatever the vector is. -/
theorem C95_vmult_violated (m : Machine K) (hl : ∀ n l, m.left n l = l) (size : ℕ) (x own : List K)
    (hx : own.length = size)
    (schedule : List ℕ) (rows : List (List (ℕ × K)))
    (hcol : ∀ r ∈ rows, ∀ e ∈ r, e.1 < size) (a : Csr K) (ha : a.HasRows rows) (dst : List K)
    (s : DevState) (hh : s.Healthy) (hf : m.OnlyFault (s.calls + 5)) :
    ∃ s', vmultF m schedule size 0 [List.range size] [x] own rows.length (FaultyMatrix.ofCsr a) dst s =
      .ok (rows.map fun r => rowTimes r (m.fresh s.calls), s') := by
  obtain ⟨c, p, br⟩ := s
  obtain ⟨rfl, rfl⟩ : p = false ∧ br = false := hh
  obtain ⟨hf, hnf⟩ := hf
  have hf' : m.fault (c + 1 + 1 + 1 + 1 + 1) = .fails := hf
  have hnf' : ∀ k, k ≠ 5 → m.fault (c + k) = .none :=
    fun k hk => hnf (c + k) (by change c + k ≠ c + _; omega)
  have f0 : m.fault c = .none := hnf' 0 (by omega)
  have f1 : m.fault (c + 1) = .none := hnf' 1 (by omega)
  have f2 : m.fault (c + 1 + 1) = .none := hnf' 2 (by omega)
  have f3 : m.fault (c + 1 + 1 + 1) = .none := hnf' 3 (by omega)
  have f4 : m.fault (c + 1 + 1 + 1 + 1) = .none := hnf' 4 (by omega)
  have f6 : m.fault (c + 1 + 1 + 1 + 1 + 1 + 1) = .none := hnf' 6 (by omega)
  have f7 : m.fault (c + 1 + 1 + 1 + 1 + 1 + 1 + 1) = .none := hnf' 7 (by omega)
  have hv : csrmv rows.length a (m.values size c) =
      .ok (rows.map fun r => rowTimes r (m.fresh c)) := by
    rw [csrmv_ok a rows ha _ (by simpa [Machine.values] using hcol)]
    congr 1
    apply List.map_congr_left
    intro r hr
    unfold rowTimes
    congr 1
    apply List.map_congr_left
    intro e he
    have := hcol r hr e he
    simp [Machine.values, this]
  unfold vmultF
  simp only [Dev.bind_apply]
  rw [malloc_none f0, Outcome.ok_bind, malloc_none f1, Outcome.ok_bind]
  simp only [Ptr.arg, Dev.of_ok, Outcome.ok_bind, Option.getD_some, allGatherF]
  rw [copy_none f2 _ _ _ (by simp [Machine.values, hx]), Outcome.ok_bind,
    allGather_ok [List.range size] _ (by simp), Dev.of_ok, Outcome.ok_bind,
    malloc_none f3, Outcome.ok_bind, copyTo_none f4 _ _ _ (by simp [Machine.indices]),
    Outcome.ok_bind]
  simp only [Ptr.args, Ptr.arg, Outcome.ok_bind, Dev.of_ok]
  rw [launch_fails hf', Outcome.ok_bind, free_none f6, Outcome.ok_bind]
  simp only [FaultyMatrix.ofCsr, FaultyMatrix.arrays, Ptr.arg, Outcome.ok_bind, Dev.of_ok, hl, Option.map_some,
    Option.getD_some]
  rw [call_none f7, hv, Dev.of_ok]
  exact ⟨_, rfl⟩

end

/-! ## The smoother -/

section

variable {K : Type} [Field K]

theorem iota_any (size value : ℕ) (sched : List ℕ) (h : IsSchedule (nBlocks size * 512) sched)
    (old : List ℕ) (ho : old.length = size) :
    sched.foldlM (iotaThread size value) old = .ok ((List.range size).map (· + value)) := by
  obtain ⟨out, h1, h2, h3, -⟩ := kernel_writes size
    (fun i => if i < size then some (i, i + value) else none) (iotaThread size value) (by
      intro out i ho
      unfold iotaThread
      split_ifs with h1 h2
      · rfl
      · omega
      · rfl) (by
      intro i p v hv
      split_ifs at hv with hi
      cases hv; exact hi) (by
      intro i j p v v' hv hv'
      split_ifs at hv with hi
      split_ifs at hv' with hj
      cases hv; cases hv'; rfl) sched old ho
  rw [h1]
  congr 1
  apply List.ext_getElem?
  intro i
  by_cases hi : i < size
  · rw [h3 i (h.mem_iff.2 (List.mem_range.2 (by have := nBlocks_covers size; omega))) i (i + value)
      (if_pos hi)]
    simp [hi]
  · rw [List.getElem?_eq_none (by omega), List.getElem?_eq_none (by simp; omega)]

theorem marked_jacobi (m : Machine K) (sched : SmootherSchedule) (owned : List ℕ) (a : Csr K) :
    Marked m (jacobiF m sched owned a) (jacobiF m.clean sched owned a) :=
  (strict_malloc m _ _).marked.bind fun _ => (strict_malloc m _ _).marked.bind fun _ =>
  (strict_malloc m _ _).marked.bind fun _ => (strict_malloc m _ _).marked.bind fun _ =>
  (strict_of m _).marked.bind fun _ => (strict_call m _ _ _ _).marked.bind fun _ =>
  (strict_of m _).marked.bind fun _ => (marked_launch m _ _ _ _).bind fun _ =>
  (strict_of m _).marked.bind fun _ => (strict_of m _).marked.bind fun _ =>
  (marked_launch m _ _ _ _).bind fun _ => (strict_of m _).marked.bind fun _ =>
  (marked_launch m _ _ _ _).bind fun _ => (marked_descriptor m _).bind fun _ =>
  (strict_free m _).marked.bind fun _ => (strict_pure m _).marked

theorem endsChecked_jacobi (m : Machine K) (sched : SmootherSchedule) (owned : List ℕ) (a : Csr K) :
    EndsChecked m (jacobiF m sched owned a) :=
  endsChecked_bind fun _ => endsChecked_bind fun _ => endsChecked_bind fun _ => endsChecked_bind fun _ =>
  endsChecked_bind fun _ => endsChecked_bind fun _ => endsChecked_bind fun _ => endsChecked_bind fun _ =>
  endsChecked_bind fun _ => endsChecked_bind fun _ => endsChecked_bind fun _ => endsChecked_bind fun _ =>
  endsChecked_bind fun _ => endsChecked_bind fun _ => endsChecked_then_pure (endsChecked_free m _) _

/-- The constructor when only the launch that extracts the diagonal may fail. -/
theorem jacobiF_run (m : Machine K) (sched : SmootherSchedule) (owned : List ℕ) (first : ℕ) (a : Csr K)
    (n : ℕ) (ho : owned.length = n)
    (hf : owned[0]? = some first) (hs : sched.Valid n a.col.length) (c : ℕ) (p q : Bool)
    (val : List K) (hnf : ∀ k, k ≠ 5 → m.fault (c + k) = .none)
    (hlaunch : m.launch (some (m.values n c))
      (fun v => (sched.extract.foldlM (extractThread a.col.length a.val a.col
        (csr2coo n a.rowPtr)) v).bind fun r => .ok (Ptr.at r))
      (fun k => ((some (m.values n c)).map fun v => Ptr.at (m.left k v)).getD .null)
      ⟨c + 5, p, false⟩ = .ok (.at val, ⟨c + 6, q, false⟩)) :
    jacobiF m sched owned a ⟨c, p, false⟩ = .ok (FaultyMatrix.ofCsr
      { val := val, col := (List.range n).map (· + first),
        rowPtr := (List.range (n + 1)).map (· + 0) }, ⟨c + 12, q, false⟩) := by
  have f0 : m.fault (c) = .none := hnf 0 (by omega)
  have f1 : m.fault (c + 1) = .none := hnf 1 (by omega)
  have f2 : m.fault (c + 1 + 1) = .none := hnf 2 (by omega)
  have f3 : m.fault (c + 1 + 1 + 1) = .none := hnf 3 (by omega)
  have f4 : m.fault (c + 1 + 1 + 1 + 1) = .none := hnf 4 (by omega)
  have f6 : m.fault (c + 1 + 1 + 1 + 1 + 1 + 1) = .none := hnf 6 (by omega)
  have f7 : m.fault (c + 1 + 1 + 1 + 1 + 1 + 1 + 1) = .none := hnf 7 (by omega)
  have f8 : m.fault (c + 1 + 1 + 1 + 1 + 1 + 1 + 1 + 1) = .none := hnf 8 (by omega)
  have f9 : m.fault (c + 1 + 1 + 1 + 1 + 1 + 1 + 1 + 1 + 1) = .none := hnf 9 (by omega)
  have f10 : m.fault (c + 1 + 1 + 1 + 1 + 1 + 1 + 1 + 1 + 1 + 1) = .none := hnf 10 (by omega)
  have f11 : m.fault (c + 1 + 1 + 1 + 1 + 1 + 1 + 1 + 1 + 1 + 1 + 1) = .none := hnf 11 (by omega)
  unfold jacobiF
  simp only [Dev.bind_apply, ho]
  rw [malloc_none f0, Outcome.ok_bind, malloc_none f1, Outcome.ok_bind,
    malloc_none f2, Outcome.ok_bind, malloc_none f3, Outcome.ok_bind]
  simp only [Ptr.arg, Dev.of_ok, Outcome.ok_bind]
  rw [call_none f4, Dev.of_ok, Outcome.ok_bind]
  rw [show (⟨c + 1 + 1 + 1 + 1 + 1, p, false⟩ : DevState) = ⟨c + 5, p, false⟩ from rfl, hlaunch,
    Outcome.ok_bind]
  simp only [Outcome.get, hf, Dev.of_ok, Outcome.ok_bind]
  rw [show (⟨c + 6, q, false⟩ : DevState) = ⟨c + 1 + 1 + 1 + 1 + 1 + 1, q, false⟩ from rfl,
    launch_none f6, iota_any _ _ _ hs.columns _ (by simp [Machine.indices])]
  simp only [Outcome.bind, Dev.of_ok, Outcome.ok_bind]
  rw [launch_none f7, iota_any _ _ _ hs.pointers _ (by simp [Machine.indices])]
  simp only [Dev.of_ok, Outcome.ok_bind]
  rw [descriptor_none (fun i hi => by
    obtain rfl | rfl | rfl : i = 0 ∨ i = 1 ∨ i = 2 := by omega
    exacts [f8, f9, f10]), Outcome.ok_bind, free_none f11, Outcome.ok_bind]
  rfl

/-- **C95**, the constructor of the smoother in debug builds.  If it returns, no kernel has failed; and either no
call failed and the smoother is the diagonal matrix of the reciprocals (as in C49), or an error is pending that
nobody has looked at.

Missing: kernels that are not started (`C95_smoother_violated`); release builds. -/
theorem C95_smoother_partial (m : Machine K) (hd : m.debug = true) (sched : SmootherSchedule) (owned : List ℕ)
    (first : ℕ) (a : Csr K) (rows : List (List (ℕ × K))) (ha : a.HasRows rows) (hu : UniqueColumns rows)
    (ho : owned.length = rows.length) (hf : owned[0]? = some first)
    (hs : sched.Valid rows.length a.col.length) (diag : ℕ → K)
    (hdiag : ∀ i, i < rows.length → (rows.getD i []).lookup i = some (diag i))
    (s : DevState) (hh : s.Healthy) :
    (∀ r s', jacobiF m sched owned a s = .ok (r, s') → s'.broken = false ∧ (s'.pending = true ∨
      m.NoFault s.calls s'.calls ∧ ∃ d, r = FaultyMatrix.ofCsr d ∧
        d.HasRows (diagonalRows first rows.length fun i => 1 / diag i))) ∧
    ((∀ n, m.fault n = .none) → ∃ r s', jacobiF m sched owned a s = .ok (r, s') ∧ s'.Healthy) := by
  obtain ⟨c, p, br⟩ := s
  obtain ⟨rfl, rfl⟩ : p = false ∧ br = false := hh
  obtain ⟨e, hr⟩ : ∃ d : Csr K, jacobiF m.clean sched owned a ⟨c, false, false⟩ =
      .ok (FaultyMatrix.ofCsr d, ⟨c + 12, false, false⟩) ∧
      d.HasRows (diagonalRows first rows.length fun i => 1 / diag i) := by
    refine ⟨_, jacobiF_run m.clean sched owned first a _ ho hf hs c false false
      ((List.range rows.length).map fun i => 1 / diag i) (fun _ _ => rfl) ?_, ?_⟩
    · rw [launch_none rfl, Machine.values, extract_ok _ a rows ha hu _ hs.extract]
      simp only [Outcome.bind, Dev.of_ok]
      rw [show (List.range rows.length).map (extractedDiag (m.clean.fresh c) rows) =
        (List.range rows.length).map fun i => 1 / diag i from List.map_congr_left fun i hi => by
          unfold extractedDiag
          rw [hdiag i (List.mem_range.1 hi)]]
    · exact diagonal_hasRows first rows.length _
  obtain ⟨hr, hr'⟩ := hr
  refine ⟨fun r s' e' => ?_, fun hn => ?_⟩
  · have hb : s'.broken = false := endsChecked_jacobi m sched owned a hd _ _ _ e'
    refine ⟨hb, ?_⟩
    obtain ⟨-, -, h⟩ := marked_jacobi m sched owned a hd _ _ _ e'
    rcases h with h | h | ⟨h1, -, h3⟩
    · rw [hb] at h; cases h
    · exact .inl h
    · rw [hr] at h1
      cases h1
      exact .inr ⟨h3, e, rfl, hr'⟩
  · rw [clean_eq hn] at hr
    exact ⟨_, _, hr, rfl, rfl⟩

/-- **C95**, the constructor of the smoother: if the kernel that extracts the diagonal is not started, this is not
reported, in debug builds and in release builds.  The smoother has uninitialised memory on its diagonal,
whatever the matrix is. -/
theorem C95_smoother_violated (m : Machine K) (hl : ∀ n l, m.left n l = l) (sched : SmootherSchedule)
    (owned : List ℕ) (first : ℕ) (a : Csr K) (hf : owned[0]? = some first)
    (hs : sched.Valid owned.length a.col.length) (s : DevState) (hh : s.Healthy)
    (hfault : m.OnlyFault (s.calls + 5)) :
    ∃ d s', jacobiF m sched owned a s = .ok (FaultyMatrix.ofCsr d, s') ∧
      d.HasRows (diagonalRows first owned.length (m.fresh s.calls)) := by
  obtain ⟨c, p, br⟩ := s
  obtain ⟨rfl, rfl⟩ : p = false ∧ br = false := hh
  obtain ⟨hfl, hnf⟩ := hfault
  have hfl' : m.fault (c + 5) = .fails := hfl
  have hnf' : ∀ k, k ≠ 5 → m.fault (c + k) = .none :=
    fun k hk => hnf (c + k) (by change c + k ≠ c + _; omega)
  refine ⟨_, _, jacobiF_run m sched owned first a _ rfl hf hs c false true
      ((List.range owned.length).map (m.fresh c)) hnf' ?_, ?_⟩
  · rw [launch_fails hfl']
    simp [hl, Machine.values]
  · exact diagonal_hasRows first owned.length _

end

/-! ## Eigenvectors -/

section

variable {K : Type}

theorem marked_sygvd (m : Machine K) (sygvd : ℕ → List K → List K → List K × List K × Bool) (n : ℕ)
    (dense mass : List K) (w : Ptr (List K)) :
    Marked m (sygvdF m sygvd n dense mass w) (sygvdF m.clean sygvd n dense mass w) :=
  (strict_of m _).marked.bind fun _ => (strict_call m _ _ _ _).marked.bind fun _ =>
  (marked_unchecked m _ _ _ _).bind fun _ => (strict_malloc m _ _).marked.bind fun _ =>
  (strict_malloc m _ _).marked.bind fun _ => (strict_of m _).marked.bind fun _ =>
  (strict_of m _).marked.bind fun _ => (strict_call m _ _ _ _).marked.bind fun _ =>
  (strict_checkInfo m _).marked.bind fun _ => (strict_free m _).marked.bind fun _ =>
  (strict_free m _).marked.bind fun _ => (strict_pure m _).marked

/-- After `cudaGetLastError` there is no mark. -/
theorem strict_after_lastError {α : Type} {m : Machine K} {q q0 : Unit → Dev α}
    (h : ∀ u, Strict m (q u) (q0 u)) :
    Marked m (m.lastError >>= q) (m.clean.lastError >>= q0) ∧
    (m.debug = true → ∀ s a s', (m.lastError >>= q) s = .ok (a, s') → s'.Healthy) := by
  refine ⟨(marked_lastError m).bind fun u => (h u).marked, fun hd s a s' e => ?_⟩
  obtain ⟨u, s1, e1, e2⟩ := Dev.bind_ok e
  obtain ⟨⟨h1, h2⟩, rfl⟩ := lastError_ok hd e1
  obtain ⟨-, -, -, h4, h5⟩ := h u hd _ _ _ e2
  exact ⟨by rw [h4, h1], by rw [h5, h2]⟩

/-- In debug builds: if the program returns, there is no mark. -/
def EndsHealthy {α : Type} (m : Machine K) (p : Dev α) : Prop :=
  m.debug = true → ∀ s a s', p s = .ok (a, s') → s'.Healthy

theorem endsHealthy_bind {α β : Type} {m : Machine K} {p : Dev α} {q : α → Dev β}
    (h : ∀ a, EndsHealthy m (q a)) : EndsHealthy m (p >>= q) := by
  intro hd s b s' e
  obtain ⟨a, s1, -, e2⟩ := Dev.bind_ok e
  exact h a hd s1 b s' e2

theorem endsHealthy_of_ub {α : Type} (m : Machine K) (w : String) :
    EndsHealthy m (Dev.of (.ub w) : Dev α) := by
  intro _ s a s' e
  cases e

variable [Field K]

theorem marked_eigen (m : Machine K) (sched : EigenSchedule)
    (sygvd : ℕ → List K → List K → List K × List K × Bool) (nEig nRows nCols : ℕ) (a : Csr K) :
    Marked m (eigenvectorsF m sched sygvd nEig nRows nCols a)
      (eigenvectorsF m.clean sched sygvd nEig nRows nCols a) ∧
    EndsHealthy m (eigenvectorsF m sched sygvd nEig nRows nCols a) := by
  constructor
  · unfold eigenvectorsF
    refine (marked_descriptor m _).bind fun _ => (strict_of m _).marked.bind fun _ =>
      (strict_malloc m _ _).marked.bind fun _ => (strict_of m _).marked.bind fun _ =>
      (strict_call m _ _ _ _).marked.bind fun _ => ?_
    split_ifs
    · exact (strict_of m _).marked
    · exact (strict_malloc m _ _).marked.bind fun _ => (strict_of m _).marked.bind fun _ =>
        (marked_launch m _ _ _ _).bind fun _ => (strict_malloc m _ _).marked.bind fun _ =>
        (strict_of m _).marked.bind fun _ => (marked_launch m _ _ _ _).bind fun _ =>
        (marked_mallocUnchecked m _ _).bind fun _ => (marked_sygvd m _ _ _ _ _).bind fun _ =>
        (strict_free m _).marked.bind fun _ => (strict_malloc m _ _).marked.bind fun _ =>
        (strict_of m _).marked.bind fun _ => (marked_launch m _ _ _ _).bind fun _ =>
        (marked_lastError m).bind fun _ => (strict_synchronize m).marked.bind fun _ =>
        (strict_free m _).marked.bind fun _ => (strict_malloc m _ _).marked.bind fun _ =>
        (strict_of m _).marked.bind fun _ => (marked_launch m _ _ _ _).bind fun _ =>
        (marked_lastError m).bind fun _ => (strict_synchronize m).marked.bind fun _ =>
        (strict_free m _).marked.bind fun _ => (strict_pure m _).marked
  · unfold eigenvectorsF
    refine endsHealthy_bind fun _ => endsHealthy_bind fun _ => endsHealthy_bind fun _ =>
      endsHealthy_bind fun _ => endsHealthy_bind fun _ => ?_
    split_ifs
    · exact endsHealthy_of_ub m _
    · exact endsHealthy_bind fun _ => endsHealthy_bind fun _ => endsHealthy_bind fun _ =>
        endsHealthy_bind fun _ => endsHealthy_bind fun _ => endsHealthy_bind fun _ =>
        endsHealthy_bind fun _ => endsHealthy_bind fun _ => endsHealthy_bind fun _ =>
        endsHealthy_bind fun _ => endsHealthy_bind fun _ => endsHealthy_bind fun _ =>
        endsHealthy_bind fun _ => endsHealthy_bind fun _ => endsHealthy_bind fun _ =>
        endsHealthy_bind fun _ => endsHealthy_bind fun _ => endsHealthy_bind fun _ =>
        (strict_after_lastError fun _ => (strict_synchronize m).bind fun _ =>
          (strict_free m _).bind fun _ => strict_pure m _).2

theorem eigenF_none (m : Machine K) [LinearOrder K] (hf : ∀ k, m.fault k = .none) (sched : EigenSchedule)
    (sygvd : ℕ → List K → List K → List K × List K × Bool) (nEig : ℕ) (rows : List (List (ℕ × K)))
    (hr : SquareRows rows) (a : Csr K) (ha : a.HasRows rows) (h0 : 0 < nEig) (hle : nEig ≤ rows.length)
    (hn : rows.length * rows.length < 2 ^ 31) (hc : SygvdContract sygvd rows.length (denseOf rows))
    (hs : sched.Valid nEig rows.length) (c : ℕ) :
    ∃ c' r, eigenvectorsF m sched sygvd nEig rows.length rows.length a ⟨c, false, false⟩ =
        .ok (r, ⟨c', false, false⟩) ∧
      SmallestEigenpairs nEig rows.length (denseOf rows) r.values r.vectors ∧
      r.diag = List.ofFn fun i => denseOf rows i i := by
  obtain ⟨w, v, hsy, hp⟩ := hc
  have hn0 : 0 < rows.length := by omega
  have hmul : nEig * rows.length ≤ rows.length * rows.length := Nat.mul_le_mul_right _ hle
  have hlen : rows.length ≤ rows.length * rows.length := Nat.le_mul_of_pos_left _ hn0
  have hmod : nEig * rows.length % 2 ^ 32 = nEig * rows.length := Nat.mod_eq_of_lt (by omega)
  have h1 := fun out ho => extractDiag_ok (denseOf rows) hn0 hn sched.diag hs.diag out ho
  have h2 := fun out ho => identity_ok (K := K) hn0 hn sched.identity hs.identity out ho
  have h3 := fun out ho => restrict_ok w nEig h0 (by omega) (by rw [hp.values_length]; exact hle) sched.values
    hs.values out ho
  have h4 := fun out ho => restrict_ok v (nEig * rows.length) (Nat.mul_pos h0 hn0) (by omega)
    (by rw [hp.vectors_length]; exact hmul) sched.vectors hs.vectors out ho
  have hval : ∀ size k, (m.values size k).length = size := fun size k => by simp [Machine.values]
  obtain ⟨k1, i1⟩ := checkInfo_none (m := m) (c := c + 15) (p := false) (hf _) true (Outcome.assert_true _)
  obtain ⟨k2, i2⟩ := synchronize_none (m := m) (c := c + 15 + k1 + 5) (p := false) (hf _)
  obtain ⟨k3, i3⟩ := synchronize_none (m := m) (c := c + 15 + k1 + 5 + k2 + 3) (p := false) (hf _)
  refine ⟨c + 15 + k1 + 5 + k2 + 3 + k3 + 1,
    ⟨w.take nEig, v.take (nEig * rows.length), List.ofFn fun i => denseOf rows i i⟩, ?_, hp.smallest hle, rfl⟩
  unfold eigenvectorsF
  simp only [Dev.bind_apply]
  rw [descriptor_none (fun _ _ => hf _), Outcome.ok_bind]
  simp only [decide_true, Outcome.assert_true, Dev.of_ok, Outcome.ok_bind]
  rw [malloc_none (hf _), Outcome.ok_bind]
  simp only [Ptr.arg, Dev.of_ok, Outcome.ok_bind]
  rw [call_none (hf _), csr2dense_ok rows hr a ha, Dev.of_ok, Outcome.ok_bind, if_neg (Nat.not_le.2 hn)]
  simp only [Dev.bind_apply]
  rw [malloc_none (hf _), Outcome.ok_bind]
  simp only [Dev.of_ok, Outcome.ok_bind]
  rw [launch_none (hf _), h1 _ (hval _ _), Dev.of_ok, Outcome.ok_bind, malloc_none (hf _), Outcome.ok_bind]
  simp only [Dev.of_ok, Outcome.ok_bind]
  rw [launch_none (hf _), h2 _ (hval _ _), Dev.of_ok, Outcome.ok_bind, mallocUnchecked_none (hf _),
    Outcome.ok_bind]
  simp only [sygvdF, Dev.bind_apply, Ptr.arg, Dev.of_ok, Outcome.ok_bind]
  rw [call_none (hf _), Dev.of_ok, Outcome.ok_bind, unchecked_none (hf _), Dev.of_ok, Outcome.ok_bind,
    malloc_none (hf _), Outcome.ok_bind, malloc_none (hf _), Outcome.ok_bind]
  simp only [Dev.of_ok, Outcome.ok_bind]
  rw [call_none (hf _), hsy, Dev.of_ok, Outcome.ok_bind]
  rw [show c + 3 + 1 + 1 + 1 + 1 + 1 + 1 + 1 + 1 + 1 + 1 + 1 + 1 = c + 15 from rfl, i1, Outcome.ok_bind,
    free_none (hf _), Outcome.ok_bind, free_none (hf _), Outcome.ok_bind]
  simp only [Dev.pure_apply, Outcome.ok_bind]
  rw [free_none (hf _), Outcome.ok_bind, malloc_none (hf _), Outcome.ok_bind]
  simp only [Ptr.args, Ptr.arg, Outcome.ok_bind, Dev.of_ok]
  rw [launch_none (hf _), h3 _ (hval _ _), Dev.of_ok, Outcome.ok_bind, lastError_none, Outcome.ok_bind]
  rw [show c + 15 + k1 + 1 + 1 + 1 + 1 + 1 = c + 15 + k1 + 5 from rfl, i2, Outcome.ok_bind, free_none (hf _),
    Outcome.ok_bind, hmod, malloc_none (hf _), Outcome.ok_bind]
  simp only [Outcome.ok_bind, Dev.of_ok]
  rw [launch_none (hf _), h4 _ (hval _ _), Dev.of_ok, Outcome.ok_bind, lastError_none, Outcome.ok_bind]
  rw [show c + 15 + k1 + 5 + k2 + 1 + 1 + 1 = c + 15 + k1 + 5 + k2 + 3 from rfl, i3, Outcome.ok_bind,
    free_none (hf _), Outcome.ok_bind]

/-- **C95**, the eigenvectors of an agglomerate in debug builds: although some calls are not checked, the function
returns only if no call failed, and then returns the eigenpairs with the smallest eigenvalues; without failures
it returns.

Missing: release builds (`C95_eigen_violated`). -/
theorem C95_eigen_partial [LinearOrder K] (m : Machine K) (hd : m.debug = true) (sched : EigenSchedule)
    (sygvd : ℕ → List K → List K → List K × List K × Bool) (nEig : ℕ) (rows : List (List (ℕ × K)))
    (hr : SquareRows rows) (a : Csr K) (ha : a.HasRows rows) (h0 : 0 < nEig) (hle : nEig ≤ rows.length)
    (hn : rows.length * rows.length < 2 ^ 31) (hc : SygvdContract sygvd rows.length (denseOf rows))
    (hs : sched.Valid nEig rows.length) (s : DevState) (hh : s.Healthy) :
    ReportsErrors m (eigenvectorsF m sched sygvd nEig rows.length rows.length a) s ∧
    (∀ r s', eigenvectorsF m sched sygvd nEig rows.length rows.length a s = .ok (r, s') → s'.Healthy ∧
      SmallestEigenpairs nEig rows.length (denseOf rows) r.values r.vectors ∧
      r.diag = List.ofFn fun i => denseOf rows i i) ∧
    ((∀ n, m.fault n = .none) →
      ∃ r s', eigenvectorsF m sched sygvd nEig rows.length rows.length a s = .ok (r, s')) := by
  obtain ⟨c, p, br⟩ := s
  obtain ⟨rfl, rfl⟩ : p = false ∧ br = false := hh
  obtain ⟨c', r0, e0, k1, k2⟩ := eigenF_none m.clean (fun _ => rfl) sched sygvd nEig rows hr a ha h0 hle hn hc
    hs c
  obtain ⟨hm, hh⟩ := marked_eigen m sched sygvd nEig rows.length rows.length a
  have key : ∀ r s', eigenvectorsF m sched sygvd nEig rows.length rows.length a ⟨c, false, false⟩ =
      .ok (r, s') → s'.Healthy ∧ r = r0 ∧ c ≤ s'.calls ∧ m.NoFault c s'.calls := by
    intro r s' e
    have h := hh hd _ _ _ e
    obtain ⟨-, -, h3⟩ := hm hd _ _ _ e
    rcases h3 with h3 | h3 | ⟨h3, h4, h5⟩
    · rw [h.2] at h3; cases h3
    · rw [h.1] at h3; cases h3
    · rw [e0] at h3
      cases h3
      exact ⟨h, rfl, h4, h5⟩
  refine ⟨fun r s' e => ?_, fun r s' e => ?_, fun hnf => ?_⟩
  · obtain ⟨-, -, h1, h2⟩ := key r s' e
    exact ⟨h1, h2⟩
  · obtain ⟨h1, rfl, -⟩ := key r s' e
    exact ⟨h1, k1, k2⟩
  · rw [clean_eq hnf] at e0
    exact ⟨_, _, e0⟩

/-- **C95**, the eigenvectors of an agglomerate in release builds: if the eigensolver fails, the function returns
uninitialised memory as the eigenvalues and the first columns of the matrix as the eigenvectors, whatever the
matrix is. -/
theorem C95_eigen_violated [LinearOrder K] (m : Machine K) (hd : m.debug = false)
    (hl : ∀ n l, m.left n l = l) (sched : EigenSchedule)
    (sygvd : ℕ → List K → List K → List K × List K × Bool) (nEig : ℕ) (rows : List (List (ℕ × K)))
    (hr : SquareRows rows) (a : Csr K) (ha : a.HasRows rows) (h0 : 0 < nEig) (hle : nEig ≤ rows.length)
    (hn : rows.length * rows.length < 2 ^ 31) (hs : sched.Valid nEig rows.length) (s : DevState)
    (hh : s.Healthy) (hfault : m.OnlyFault (s.calls + 14)) :
    ∃ r s', eigenvectorsF m sched sygvd nEig rows.length rows.length a s = .ok (r, s') ∧
      r.values = (List.range nEig).map (m.fresh (s.calls + 9)) ∧
      r.vectors = (columnMajor (denseOf rows)).take (nEig * rows.length) := by
  obtain ⟨c, p, br⟩ := s
  obtain ⟨rfl, rfl⟩ : p = false ∧ br = false := hh
  obtain ⟨hf, hnf⟩ := hfault
  have hf14 : m.fault (c + 1 + 1 + 1 + 1 + 1 + 1 + 1 + 1 + 1 + 1 + 1 + 1 + 1 + 1) = .fails := hf
  have hnf' : ∀ k, k ≠ 14 → m.fault (c + k) = .none :=
    fun k hk => hnf (c + k) (by change c + k ≠ c + _; omega)
  have f0 : m.fault (c) = .none := hnf' 0 (by omega)
  have f1 : m.fault (c + 1) = .none := hnf' 1 (by omega)
  have f2 : m.fault (c + 1 + 1) = .none := hnf' 2 (by omega)
  have f3 : m.fault (c + 1 + 1 + 1) = .none := hnf' 3 (by omega)
  have f4 : m.fault (c + 1 + 1 + 1 + 1) = .none := hnf' 4 (by omega)
  have f5 : m.fault (c + 1 + 1 + 1 + 1 + 1) = .none := hnf' 5 (by omega)
  have f6 : m.fault (c + 1 + 1 + 1 + 1 + 1 + 1) = .none := hnf' 6 (by omega)
  have f7 : m.fault (c + 1 + 1 + 1 + 1 + 1 + 1 + 1) = .none := hnf' 7 (by omega)
  have f8 : m.fault (c + 1 + 1 + 1 + 1 + 1 + 1 + 1 + 1) = .none := hnf' 8 (by omega)
  have f9 : m.fault (c + 1 + 1 + 1 + 1 + 1 + 1 + 1 + 1 + 1) = .none := hnf' 9 (by omega)
  have f10 : m.fault (c + 1 + 1 + 1 + 1 + 1 + 1 + 1 + 1 + 1 + 1) = .none := hnf' 10 (by omega)
  have f11 : m.fault (c + 1 + 1 + 1 + 1 + 1 + 1 + 1 + 1 + 1 + 1 + 1) = .none := hnf' 11 (by omega)
  have f12 : m.fault (c + 1 + 1 + 1 + 1 + 1 + 1 + 1 + 1 + 1 + 1 + 1 + 1) = .none := hnf' 12 (by omega)
  have f13 : m.fault (c + 1 + 1 + 1 + 1 + 1 + 1 + 1 + 1 + 1 + 1 + 1 + 1 + 1) = .none := hnf' 13 (by omega)
  have f15 : m.fault (c + 1 + 1 + 1 + 1 + 1 + 1 + 1 + 1 + 1 + 1 + 1 + 1 + 1 + 1 + 1) = .none := hnf' 15 (by omega)
  have f16 : m.fault (c + 1 + 1 + 1 + 1 + 1 + 1 + 1 + 1 + 1 + 1 + 1 + 1 + 1 + 1 + 1 + 1) = .none := hnf' 16 (by omega)
  have f17 : m.fault (c + 1 + 1 + 1 + 1 + 1 + 1 + 1 + 1 + 1 + 1 + 1 + 1 + 1 + 1 + 1 + 1 + 1) = .none := hnf' 17 (by omega)
  have f18 : m.fault (c + 1 + 1 + 1 + 1 + 1 + 1 + 1 + 1 + 1 + 1 + 1 + 1 + 1 + 1 + 1 + 1 + 1 + 1) = .none := hnf' 18 (by omega)
  have f19 : m.fault (c + 1 + 1 + 1 + 1 + 1 + 1 + 1 + 1 + 1 + 1 + 1 + 1 + 1 + 1 + 1 + 1 + 1 + 1 + 1) = .none := hnf' 19 (by omega)
  have f20 : m.fault (c + 1 + 1 + 1 + 1 + 1 + 1 + 1 + 1 + 1 + 1 + 1 + 1 + 1 + 1 + 1 + 1 + 1 + 1 + 1 + 1) = .none := hnf' 20 (by omega)
  have f21 : m.fault (c + 1 + 1 + 1 + 1 + 1 + 1 + 1 + 1 + 1 + 1 + 1 + 1 + 1 + 1 + 1 + 1 + 1 + 1 + 1 + 1 + 1) = .none := hnf' 21 (by omega)
  have f22 : m.fault (c + 1 + 1 + 1 + 1 + 1 + 1 + 1 + 1 + 1 + 1 + 1 + 1 + 1 + 1 + 1 + 1 + 1 + 1 + 1 + 1 + 1 + 1) = .none := hnf' 22 (by omega)
  have hn0 : 0 < rows.length := by omega
  have hmul : nEig * rows.length ≤ rows.length * rows.length := Nat.mul_le_mul_right _ hle
  have hlen : rows.length ≤ rows.length * rows.length := Nat.le_mul_of_pos_left _ hn0
  have hmod : nEig * rows.length % 2 ^ 32 = nEig * rows.length := Nat.mod_eq_of_lt (by omega)
  have hval : ∀ size k, (m.values size k).length = size := fun size k => by simp [Machine.values]
  have h1 := fun out ho => extractDiag_ok (denseOf rows) hn0 hn sched.diag hs.diag out ho
  have h2 := fun out ho => identity_ok (K := K) hn0 hn sched.identity hs.identity out ho
  have h3 := fun out ho => restrict_ok (m.values rows.length (c + 9)) nEig h0 (by omega)
    (by rw [hval]; exact hle) sched.values hs.values out ho
  have h4 := fun out ho => restrict_ok (columnMajor (denseOf rows)) (nEig * rows.length) (Nat.mul_pos h0 hn0)
    (by omega) (by rw [columnMajor_length]; exact hmul) sched.vectors hs.vectors out ho
  have hsync : ∀ s, m.synchronize s = .ok ((), s) := fun s => by
    simp [Machine.synchronize, hd, Dev.pure_apply]
  have hlast : ∀ c, m.lastError ⟨c, true, false⟩ = .ok ((), ⟨c, false, false⟩) := fun c => by
    simp [Machine.lastError, hd]
  refine ⟨⟨(m.values rows.length (c + 9)).take nEig, (columnMajor (denseOf rows)).take (nEig * rows.length),
    List.ofFn fun i => denseOf rows i i⟩, ⟨c + 24, false, false⟩, ?_, ?_, rfl⟩
  · unfold eigenvectorsF
    simp only [Dev.bind_apply]
    rw [descriptor_none (fun i hi => by
      obtain rfl | rfl | rfl : i = 0 ∨ i = 1 ∨ i = 2 := by omega
      exacts [f0, f1, f2]), Outcome.ok_bind]
    simp only [decide_true, Outcome.assert_true, Dev.of_ok, Outcome.ok_bind]
    rw [show (⟨c + 3, false, false⟩ : DevState) = ⟨c + 1 + 1 + 1, false, false⟩ from rfl, malloc_none f3,
      Outcome.ok_bind]
    simp only [Ptr.arg, Dev.of_ok, Outcome.ok_bind]
    rw [call_none f4, csr2dense_ok rows hr a ha, Dev.of_ok, Outcome.ok_bind, if_neg (Nat.not_le.2 hn)]
    simp only [Dev.bind_apply]
    rw [malloc_none f5, Outcome.ok_bind]
    simp only [Dev.of_ok, Outcome.ok_bind]
    rw [launch_none f6, h1 _ (hval _ _), Dev.of_ok, Outcome.ok_bind, malloc_none f7, Outcome.ok_bind]
    simp only [Dev.of_ok, Outcome.ok_bind]
    rw [launch_none f8, h2 _ (hval _ _), Dev.of_ok, Outcome.ok_bind, mallocUnchecked_none f9,
      Outcome.ok_bind]
    simp only [sygvdF, Dev.bind_apply, Ptr.arg, Dev.of_ok, Outcome.ok_bind]
    rw [call_none f10, Dev.of_ok, Outcome.ok_bind, unchecked_none f11, Dev.of_ok, Outcome.ok_bind,
      malloc_none f12, Outcome.ok_bind, malloc_none f13, Outcome.ok_bind]
    simp only [Dev.of_ok, Outcome.ok_bind]
    rw [call_fails hd hf14, Outcome.ok_bind, checkInfo_release hd, Outcome.ok_bind,
      free_none f15, Outcome.ok_bind, free_none f16, Outcome.ok_bind]
    simp only [Dev.pure_apply, Outcome.ok_bind, hl, Option.map_some, Option.getD_some]
    rw [free_none f17, Outcome.ok_bind, malloc_none f18, Outcome.ok_bind]
    simp only [Ptr.args, Ptr.arg, Outcome.ok_bind, Dev.of_ok]
    rw [launch_none f19, show c + 1 + 1 + 1 + 1 + 1 + 1 + 1 + 1 + 1 = c + 9 from rfl, h3 _ (hval _ _), Dev.of_ok,
      Outcome.ok_bind, hlast, Outcome.ok_bind, hsync, Outcome.ok_bind, free_none f20, Outcome.ok_bind,
      hmod, malloc_none f21, Outcome.ok_bind]
    simp only [Outcome.ok_bind, Dev.of_ok]
    rw [launch_none f22, h4 _ (hval _ _), Dev.of_ok, Outcome.ok_bind, lastError_none, Outcome.ok_bind, hsync,
      Outcome.ok_bind, free_none (hnf' 23 (by omega)), Outcome.ok_bind]
  · simp only [Machine.values]
    rw [← List.map_take, List.take_range, Nat.min_eq_left hle]

end

/-! ## Examples -/

example (n : ℕ) : ReportsErrors (exMachine true n) (copyMatrixF (exMachine true n) (csrOf exSpd) 2)
    ⟨0, false, false⟩ :=
  (C95_copy_partial (exMachine true n) rfl exSpd _ (csrOf_hasRows _) _ ⟨rfl, rfl⟩).1

/-- The first allocation fails. -/
example : copyMatrixF (exMachine false 0) (csrOf exSpd) 2 ⟨0, false, false⟩ = .ub "indeterminate pointer" :=
  C95_copy_violated (exMachine false 0) rfl _ 2 _ (by simp [exMachine])

/-- Three processes, of which the last one multiplies. -/
example (schedule : List ℕ) (hs : IsSchedule (nBlocks 5 * 512) schedule) (n : ℕ) (y : List ℚ) (s' : DevState)
    (h : vmultF (exMachine true n) schedule 5 2 exOwned [[11, 14], [], [10, 12, 13]] [10, 12, 13] 2
      (FaultyMatrix.ofCsr (csrOf [[(0, 2), (3, 1)], [(4, 5)]])) [0, 0] ⟨0, false, false⟩ = .ok (y, s')) :
    s'.broken = false ∧ (s'.pending = true ∨ (exMachine true n).NoFault 0 s'.calls ∧ y = [33, 70]) := by
  have := (C95_vmult_partial (exMachine true n) rfl 5 exOwned exOwned_partition (fun i => (i : ℚ) + 10)
    [[11, 14], [], [10, 12, 13]] (by simp [Distributes, exOwned]; norm_num) schedule hs 2 _ rfl
    [[(0, 2), (3, 1)], [(4, 5)]] (by decide +kernel) _ (csrOf_hasRows _) _ _ ⟨rfl, rfl⟩).1 y s' h
  refine ⟨this.1, this.2.imp_right fun h => ⟨h.1, ?_⟩⟩
  rw [h.2]
  simp [rowTimes]
  norm_num

/-- Debug build: the product of `2 I` with (1, 2) is (14, 14), because the new memory has the value 7. -/
example : ∃ s', vmultF (exMachine true 5) (List.range 512) 2 0 [List.range 2] [[1, 2]] [1, 2] 2
    (FaultyMatrix.ofCsr (csrOf [[(0, 2)], [(1, 2)]])) [0, 0] ⟨0, false, false⟩ = .ok ([14, 14], s') := by
  obtain ⟨s', e⟩ := C95_vmult_violated (exMachine true 5) (fun _ _ => rfl) 2 [1, 2] [1, 2] rfl (List.range 512)
    [[(0, 2)], [(1, 2)]] (by decide +kernel) _ (csrOf_hasRows _) [0, 0] ⟨0, false, false⟩ ⟨rfl, rfl⟩
    (exMachine_only true 5)
  refine ⟨s', e.trans ?_⟩
  simp [rowTimes, exMachine]
  norm_num

example (n : ℕ) (r : FaultyMatrix ℚ) (s' : DevState)
    (h : jacobiF (exMachine true n) (exSmootherSchedule 2 4) [0, 1] (csrOf exSpd) ⟨0, false, false⟩ =
      .ok (r, s')) :
    s'.broken = false ∧ (s'.pending = true ∨ (exMachine true n).NoFault 0 s'.calls ∧
      ∃ d, r = FaultyMatrix.ofCsr d ∧ d.HasRows (diagonalRows 0 2 fun _ => 1 / 2)) :=
  (C95_smoother_partial (exMachine true n) rfl _ [0, 1] 0 _ exSpd (csrOf_hasRows _)
    (by unfold UniqueColumns; decide +kernel) rfl rfl (exSmootherSchedule_valid 2 4) (fun _ => 2) (by
      intro i hi
      have hi' : i < 2 := hi
      interval_cases i <;> simp [exSpd, List.lookup]) _ ⟨rfl, rfl⟩).1 r s' h

example : ∃ d s', jacobiF (exMachine true 5) (exSmootherSchedule 2 4) [0, 1] (csrOf exSpd) ⟨0, false, false⟩ =
    .ok (FaultyMatrix.ofCsr d, s') ∧ d.HasRows (diagonalRows 0 2 fun _ => 7) :=
  C95_smoother_violated (exMachine true 5) (fun _ _ => rfl) _ [0, 1] 0 _ rfl (exSmootherSchedule_valid 2 4) _
    ⟨rfl, rfl⟩ (exMachine_only true 5)

/-- The rows of `exSym`. -/
def exSymRows : List (List (ℕ × ℚ)) := [[(0, 57 / 25), (1, 24 / 25)], [(0, 24 / 25), (1, 43 / 25)]]

theorem exSymRows_dense : (denseOf exSymRows : Matrix (Fin 2) (Fin 2) ℚ) = exSym := by
  funext i j
  fin_cases i <;> fin_cases j <;> simp [denseOf, exSymRows, exSym, List.lookup]

theorem exSymRows_contract : SygvdContract exSygvd exSymRows.length (denseOf exSymRows) := by
  change SygvdContract exSygvd 2 (denseOf exSymRows : Matrix (Fin 2) (Fin 2) ℚ)
  rw [exSymRows_dense]
  exact exSygvd_contract

theorem exSymRows_square : SquareRows exSymRows := by
  intro r hr
  simp only [exSymRows, List.mem_cons, List.not_mem_nil, or_false] at hr
  rcases hr with rfl | rfl <;> simp [exSymRows]

example (n : ℕ) : ReportsErrors (exMachine true n)
    (eigenvectorsF (exMachine true n) (exEigenSchedule 1 2) exSygvd 1 2 2 (csrOf exSymRows))
    ⟨0, false, false⟩ :=
  (C95_eigen_partial (exMachine true n) rfl (exEigenSchedule 1 2) exSygvd 1 exSymRows exSymRows_square _
    (csrOf_hasRows _) (by norm_num) (by simp [exSymRows]) (by simp [exSymRows]) exSymRows_contract
    (exEigenSchedule_valid 1 2) _ ⟨rfl, rfl⟩).1

/-- The smallest eigenvalue is 1; the release build returns 7. -/
example : ∃ r s', eigenvectorsF (exMachine false 14) (exEigenSchedule 1 2) exSygvd 1 2 2 (csrOf exSymRows)
    ⟨0, false, false⟩ = .ok (r, s') ∧ r.values = [7] := by
  obtain ⟨r, s', e, h, -⟩ := C95_eigen_violated (exMachine false 14) rfl (fun _ _ => rfl) (exEigenSchedule 1 2)
    exSygvd 1 exSymRows exSymRows_square _ (csrOf_hasRows _) (by norm_num) (by simp [exSymRows])
    (by simp [exSymRows]) (exEigenSchedule_valid 1 2) ⟨0, false, false⟩ ⟨rfl, rfl⟩ (exMachine_only false 14)
  exact ⟨r, s', e, by rw [h]; rfl⟩

end Mfmg
