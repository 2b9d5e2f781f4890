import Verif.Spec.DeviceFree
import Verif.Props.MatMult
import Verif.Props.DeviceCsr
import Verif.Props.DeviceGather
import Verif.Props.Amgx
import Mathlib.Tactic.IntervalCases
import Mathlib.Tactic.Choose

/-!
# The matrix-free operator on the device (C73)
-/

set_option autoImplicit false

namespace Mfmg

section

variable {K : Type}

theorem ownerIn_eq {n : ℕ} {owned : List (List ℕ)} (hp : IsPartition n owned) (p i : ℕ)
    (h : p < owned.length) (hi : i ∈ owned[p]) : ownerIn owned i = p := by
  have hnd : owned.flatten.Nodup := hp.nodup_iff.2 List.nodup_range
  rw [List.nodup_flatten] at hnd
  have hd := List.pairwise_iff_getElem.1 hnd.2
  unfold ownerIn
  rw [List.findIdx_eq h]
  refine ⟨by simpa using hi, ?_⟩
  intro q hq
  have := hd q p (by omega) h hq
  simp only [List.contains_eq_mem, decide_eq_false_iff_not]
  exact fun hc => this hc hi

theorem exists_owner {n : ℕ} {owned : List (List ℕ)} (hp : IsPartition n owned) (i : ℕ)
    (hi : i < n) : ∃ p, ∃ h : p < owned.length, i ∈ owned[p] := by
  have : i ∈ owned.flatten := hp.mem_iff.2 (List.mem_range.2 hi)
  obtain ⟨l, hl, hil⟩ := List.mem_flatten.1 this
  obtain ⟨p, h, rfl⟩ := List.getElem_of_mem hl
  exact ⟨p, h, hil⟩

theorem lookup_zip_map {β : Type} (b : ℕ → β) : ∀ (l : List ℕ) (j : ℕ), j ∈ l →
    (l.map fun i => (i, b i)).lookup j = some (b j) := by
  intro l
  induction l with
  | nil => intro j h; simp at h
  | cons a l ih =>
    intro j h
    rw [List.map_cons, List.lookup_cons]
    by_cases hj : j = a
    · simp [hj]
    · have hb : (j == a) = false := by simp [hj]
      rw [hb]
      exact ih j (by simpa [hj] using h)

theorem zip_map_right_self {β : Type} (b : ℕ → β) (l : List ℕ) :
    l.zip (l.map b) = l.map fun i => (i, b i) := by
  induction l with
  | nil => rfl
  | cons a l ih => simp [ih]

/-- The host matrix made from the device parts has the rows of the matrix. -/
theorem calls_eq (owned : List (List ℕ)) (b : ℕ → List (ℕ × K)) (parts : List (DevPart K))
    (hb : HoldsMatrix owned b parts) :
    (parts.zip owned).mapM (fun q => convertToTrilinos q.1.csr q.2)
      = .ok (owned.map (List.map fun i => (i, b i))) := by
  have : owned.map (List.map fun i => (i, b i))
      = (parts.zip owned).map (fun q => q.2.map fun i => (i, b i)) := by
    apply List.ext_getElem
    · simp [hb.1]
    · intro p h1 h2; simp
  rw [this]
  apply mapM_ok
  intro q hq
  obtain ⟨p, hp, rfl⟩ := List.getElem_of_mem hq
  rw [List.length_zip] at hp
  simp only [List.getElem_zip]
  rw [C44_to_trilinos _ _ (hb.2 p (by omega) (by omega)).1 _ (by simp), zip_map_right_self]

theorem mapM_congr_mem {β γ : Type} (l : List β) (f g : β → Outcome γ)
    (h : ∀ b ∈ l, f b = g b) : l.mapM f = l.mapM g := by
  induction l with
  | nil => rfl
  | cons b l ih =>
    rw [List.mapM_cons, List.mapM_cons, h b (by simp), ih (fun c hc => h c (by simp [hc]))]

/-- If every step succeeds or fails in one way and some step fails, so does the whole. -/
theorem mapM_fails {β γ : Type} (bad : ∀ δ : Type, Outcome δ)
    (hbad : ∀ (δ ε : Type) (k : δ → Outcome ε), (bad δ >>= k) = bad ε) (f : β → Outcome γ) :
    ∀ l : List β, (∀ b ∈ l, (∃ c, f b = .ok c) ∨ f b = bad γ) → (∃ b ∈ l, f b = bad γ) →
      l.mapM f = bad (List γ) := by
  intro l
  induction l with
  | nil => rintro _ ⟨b, hb, _⟩; simp at hb
  | cons b l ih =>
    rintro h ⟨b', hb', he⟩
    rw [List.mapM_cons]
    rcases h b (by simp) with ⟨c, hc⟩ | hc
    · rw [hc, Outcome.ok_bind]
      rcases List.mem_cons.1 hb' with rfl | hm
      · rw [he] at hc
        exfalso
        have h3 := hbad γ (List γ) (fun _ => .ok [])
        have h4 := hbad γ (List γ) (fun _ => .aborted)
        rw [hc, Outcome.ok_bind] at h3 h4
        rw [← h3] at h4
        cases h4
      · rw [ih (fun c hc => h c (by simp [hc])) ⟨b', hm, he⟩, hbad]
    · rw [hc, hbad]

variable [Field K] [LinearOrder K]

omit [Field K] [LinearOrder K] in
theorem trilinosOf_entries {m : ℕ} {owned : List (List ℕ)} (hp : IsPartition m owned)
    (b : ℕ → List (ℕ × K)) (j : ℕ) (hj : j < m) :
    (trilinosOf m owned (owned.map (List.map fun i => (i, b i)))).entries j = b j := by
  have : (owned.map (List.map fun i => (i, b i))).flatten = owned.flatten.map fun i => (i, b i) := by
    rw [List.map_flatten]
  simp only [trilinosOf, this]
  rw [lookup_zip_map b _ j (hp.mem_iff.2 (List.mem_range.2 hj))]
  rfl

omit [Field K] [LinearOrder K] in
theorem trilinosOf_wellFormed {m : ℕ} {owned : List (List ℕ)} (hp : IsPartition m owned)
    (b : ℕ → List (ℕ × K)) (hb : ∀ j, j < m → ((b j).map Prod.fst).Nodup) :
    (trilinosOf m owned (owned.map (List.map fun i => (i, b i)))).WellFormed owned.length := by
  intro j hj
  have hj' : j < m := hj
  refine ⟨?_, by rw [trilinosOf_entries hp b j hj']; exact hb j hj'⟩
  obtain ⟨p, h, hi⟩ := exists_owner hp j hj'
  show ownerIn owned j < _
  rw [ownerIn_eq hp p j h hi]
  exact h

omit [LinearOrder K] in
theorem trilinosOf_product {m : ℕ} {owned : List (List ℕ)} (hp : IsPartition m owned)
    (b : ℕ → List (ℕ × K)) (n : ℕ) (a : ℕ → ℕ → K) (i j : ℕ) (hj : j < m) :
    productTransposed n a (trilinosOf m owned (owned.map (List.map fun i => (i, b i)))) i j
      = freeProduct n a b i j := by
  unfold productTransposed freeProduct DistMatrix.value entryOf
  rw [trilinosOf_entries hp b j hj]

/-- The calls of `set` for one row. -/
theorem columnSets_row (eps : K) (owner : ℕ → ℕ) (rank j : ℕ) (dst : ℕ → K) (i : ℕ)
    (ho : owner i = rank) : ∀ nRows, i < nRows →
    (columnSets eps owner nRows rank j dst).filter (fun s => s.1 == i)
      = if eps < |dst i| then [(i, j, dst i)] else [] := by
  have hnone : ∀ n, n ≤ i →
      (columnSets eps owner n rank j dst).filter (fun s => s.1 == i) = [] := by
    intro n hn
    rw [List.filter_eq_nil_iff]
    rintro ⟨i', j', x⟩ hs
    have := ((mem_columnSets ..).1 hs).2.1
    simp only [beq_iff_eq]
    omega
  intro nRows hi
  induction nRows with
  | zero => omega
  | succ n ih =>
    have hsucc : columnSets eps owner (n + 1) rank j dst = columnSets eps owner n rank j dst ++
        [n].filterMap (fun i => if owner i = rank then
          if eps < |dst i| then some (i, j, dst i) else none else none) := by
      unfold columnSets
      rw [List.range_succ, List.filterMap_append]
    rw [hsucc, List.filter_append]
    by_cases hin : i = n
    · subst hin
      rw [hnone i (le_refl _)]
      simp only [List.filterMap_cons, List.filterMap_nil, ho, if_true]
      split_ifs <;> simp
    · rw [ih (by omega)]
      have : ([n].filterMap (fun i => if owner i = rank then
          if eps < |dst i| then some (i, j, dst i) else none else none)).filter
            (fun s => s.1 == i) = [] := by
        rw [List.filter_eq_nil_iff]
        intro s hs
        obtain ⟨k, hk, h⟩ := List.mem_filterMap.1 hs
        simp only [List.mem_singleton] at hk
        split_ifs at h
        cases h
        simp only [beq_iff_eq]
        omega
      rw [this, List.append_nil]

/-- The stored row `i` of the product. -/
theorem storedRow_eq (procs n : ℕ) (eps : K) (B : DistMatrix K) (hB : B.WellFormed procs)
    (nRows : ℕ) (owner : ℕ → ℕ) (apply : (ℕ → K) → (ℕ → K)) (a : ℕ → ℕ → K)
    (hA : IsMatrix n a apply) (rank i : ℕ) (hi : i < nRows) (ho : owner i = rank) :
    ((transposeMultiply procs eps B nRows owner apply rank).filter fun s => s.1 == i).map Prod.snd
      = (List.range B.rows).flatMap fun j =>
          if eps < |productTransposed n a B i j| then [(j, productTransposed n a B i j)] else [] := by
  unfold transposeMultiply
  rw [List.filter_flatMap, List.map_flatMap]
  apply List.flatMap_congr
  intro j hj
  have key : apply (extractRow procs B j) i = productTransposed n a B i j := by
    rw [hA]
    unfold productTransposed
    congr 1
    apply List.map_congr_left
    intro k _
    rw [C38_extract_row procs B hB j k (List.mem_range.1 hj)]
  rw [columnSets_row eps owner rank j _ i ho nRows hi, key]
  split_ifs <;> rfl

theorem rowTimes_flatMap (eps : K) (f x : ℕ → K) (l : List ℕ) :
    rowTimes (l.flatMap fun j => if eps < |f j| then [(j, f j)] else []) x
      = (l.map fun j => (if eps < |f j| then f j else 0) * x j).sum := by
  unfold rowTimes
  induction l with
  | nil => rfl
  | cons a l ih =>
    rw [List.flatMap_cons, List.map_append, List.sum_append, ih, List.map_cons, List.sum_cons]
    split_ifs <;> simp

/-- The local part of the product on every process. -/
theorem freeMultiplyTranspose_eq (debug : Bool) (eps : K) (order : List (ℕ × K) → List (ℕ × K))
    (nA : ℕ) (ownedA : List (List ℕ)) (hpA : IsPartition nA ownedA)
    (apply : (ℕ → K) → (ℕ → K)) (a : ℕ → ℕ → K) (hA : IsMatrix nA a apply)
    (rowsB : ℕ) (ownedB : List (List ℕ)) (hpB : IsPartition rowsB ownedB)
    (hprocs : ownedB.length = ownedA.length) (b : ℕ → List (ℕ × K))
    (hcols : ∀ j, j < rowsB → ((b j).map Prod.fst).Nodup)
    (bs : List (DevPart K)) (hb : HoldsMatrix ownedB b bs) :
    freeMultiplyTranspose debug eps order nA ownedA apply rowsB ownedB (some bs)
      = (bs.zip (ownedA.zip (List.range ownedA.length))).mapM fun p =>
          convertTrilinos debug id (p.2.1.map fun i =>
            order ((List.range rowsB).flatMap fun j =>
              if eps < |freeProduct nA a b i j| then [(j, freeProduct nA a b i j)] else [])) >>=
          fun c => .ok { csr := c, handle := p.1.handle, descr := true } := by
  unfold freeMultiplyTranspose
  simp only
  rw [calls_eq ownedB b bs hb, Outcome.ok_bind]
  apply mapM_congr_mem
  intro p hp
  obtain ⟨q, hq, rfl⟩ := List.getElem_of_mem hp
  simp only [List.length_zip, List.length_range] at hq
  simp only [List.getElem_zip, List.getElem_range]
  have hrows : (storedRows ownedA[q] (transposeMultiply ownedA.length eps
      (trilinosOf rowsB ownedB (ownedB.map (List.map fun i => (i, b i)))) nA (ownerIn ownedA)
      apply q)).map order = ownedA[q].map fun i =>
        order ((List.range rowsB).flatMap fun j =>
          if eps < |freeProduct nA a b i j| then [(j, freeProduct nA a b i j)] else []) := by
    unfold storedRows
    rw [List.map_map]
    apply List.map_congr_left
    intro i hi
    have hin : i < nA := List.mem_range.1 (hpA.mem_iff.1
      (List.mem_flatten.2 ⟨_, List.getElem_mem (by omega), hi⟩))
    simp only [Function.comp_apply]
    rw [storedRow_eq ownedA.length nA eps _
      (hprocs ▸ trilinosOf_wellFormed hpB b hcols) nA (ownerIn ownedA) apply a hA q i hin
      (ownerIn_eq hpA q i (by omega) hi)]
    congr 1
    apply List.flatMap_congr
    intro j hj
    rw [trilinosOf_product hpB b nA a i j (List.mem_range.1 hj)]
  rw [hrows]
  rfl

/-- **C73**, the part that holds: if on every process the product has an entry larger than the
tolerance, `multiply_transpose` returns an operator whose application to any distributed vector `x`,
under every thread schedule and in every build mode, gives on every process the owned rows of
`(A Bᵀ) x`, where entries of `A Bᵀ` of modulus at most the tolerance are dropped.  Missing: processes
without such an entry, see `C73_empty_violated`. -/
theorem C73_product_partial (debug : Bool) (eps : K) (order : List (ℕ × K) → List (ℕ × K))
    (horder : ∀ l, (order l).Perm l)
    (nA : ℕ) (ownedA : List (List ℕ)) (hpA : IsPartition nA ownedA)
    (apply : (ℕ → K) → (ℕ → K)) (a : ℕ → ℕ → K) (hA : IsMatrix nA a apply)
    (rowsB : ℕ) (ownedB : List (List ℕ)) (hpB : IsPartition rowsB ownedB)
    (hprocs : ownedB.length = ownedA.length) (b : ℕ → List (ℕ × K))
    (hcols : ∀ j, j < rowsB → ((b j).map Prod.fst).Nodup)
    (bs : List (DevPart K)) (hb : HoldsMatrix ownedB b bs)
    (hsome : ∀ owned ∈ ownedA, ∃ i ∈ owned, ∃ j, j < rowsB ∧ eps < |freeProduct nA a b i j|) :
    ∃ cs, freeMultiplyTranspose debug eps order nA ownedA apply rowsB ownedB (some bs) = .ok cs ∧
      cs.length = ownedA.length ∧
      ∀ (p : ℕ) (h : p < cs.length) (h' : p < ownedA.length) (x : ℕ → K) (values : List (List K)),
        Distributes ownedB x values → ∀ (debug' : Bool) (schedule : List ℕ),
        IsSchedule (nBlocks rowsB * 512) schedule → ∀ (junk : K) (y : List K),
        y.length = ownedA[p].length →
        applyPart debug' schedule rowsB ownedB values junk y cs[p] = .ok (ownedA[p].map fun i =>
          ((List.range rowsB).map fun j => droppedProduct eps nA a b i j * x j).sum) := by
  rw [freeMultiplyTranspose_eq debug eps order nA ownedA hpA apply a hA rowsB ownedB hpB hprocs b
    hcols bs hb]
  set row : ℕ → List (ℕ × K) := fun i => order ((List.range rowsB).flatMap fun j =>
    if eps < |freeProduct nA a b i j| then [(j, freeProduct nA a b i j)] else []) with hrow
  have hmem : ∀ i e, e ∈ row i ↔ e.1 < rowsB ∧ eps < |freeProduct nA a b i e.1| ∧
      e.2 = freeProduct nA a b i e.1 := by
    intro i e
    rw [hrow]
    simp only
    rw [(horder _).mem_iff, List.mem_flatMap]
    constructor
    · rintro ⟨j, hj, he⟩
      split_ifs at he with hlt
      · rw [List.mem_singleton] at he
        subst he
        exact ⟨List.mem_range.1 hj, hlt, rfl⟩
      · simp at he
    · rintro ⟨hj, hlt, he⟩
      refine ⟨e.1, List.mem_range.2 hj, ?_⟩
      rw [if_pos hlt, List.mem_singleton, ← he]
  have hnnz : ∀ owned ∈ ownedA, 0 < ((owned.map row).map List.length).sum := by
    intro owned ho
    obtain ⟨i, hi, j, hj, hlt⟩ := hsome owned ho
    have he : (j, freeProduct nA a b i j) ∈ row i := (hmem i _).2 ⟨hj, hlt, rfl⟩
    have h1 : 0 < (row i).length := List.length_pos_of_mem he
    have h2 : (row i).length ≤ ((owned.map row).map List.length).sum :=
      List.le_sum_of_mem (List.mem_map_of_mem (List.mem_map_of_mem hi))
    omega
  have hconv : ∀ owned : List ℕ, ∃ c, owned ∈ ownedA →
      convertTrilinos debug id (owned.map row) = .ok c ∧ c.HasRows (owned.map row) := by
    intro owned
    by_cases ho : owned ∈ ownedA
    · obtain ⟨c, h1, h2⟩ := C44_trilinos debug id (owned.map row) (hnnz owned ho)
      exact ⟨c, fun _ => ⟨h1, by simpa using h2⟩⟩
    · exact ⟨⟨[], [], []⟩, fun h => absurd h ho⟩
  choose c hc using hconv
  refine ⟨(bs.zip (ownedA.zip (List.range ownedA.length))).map fun p =>
    ⟨c p.2.1, p.1.handle, true⟩, ?_, ?_, ?_⟩
  · apply mapM_ok
    intro p hp
    have ho : p.2.1 ∈ ownedA := (List.of_mem_zip (List.of_mem_zip hp).2).1
    rw [(hc p.2.1 ho).1, Outcome.ok_bind]
  · simp [hb.1, hprocs]
  · intro p h h' x values hval debug' schedule hs junk y hy
    have hbp : p < bs.length := by rw [hb.1, hprocs]; exact h'
    simp only [List.getElem_map, List.getElem_zip]
    unfold applyPart
    simp only [(hb.2 p hbp (by omega)).2.1, Bool.and_self, if_true]
    have := C61_vmult rowsB ownedB hpB x values hval schedule hs junk (ownedA[p].map row)
      (by
        intro r hr e he
        obtain ⟨i, _, rfl⟩ := List.mem_map.1 hr
        exact ((hmem i e).1 he).1)
      (c ownedA[p]) (hc _ (List.getElem_mem h')).2
    rw [List.length_map] at this
    rw [hy, this, List.map_map]
    congr 1
    apply List.map_congr_left
    intro i _
    simp only [Function.comp_apply, hrow]
    rw [rowTimes_perm (horder _), rowTimes_flatMap]
    rfl

/-- **C73**, where the property fails: a process on which the product has no entry larger than the
tolerance, for instance one that owns no unknowns.  The call aborts in debug builds and reads from an
empty vector in release builds. -/
theorem C73_empty_violated (eps : K) (order : List (ℕ × K) → List (ℕ × K))
    (horder : ∀ l, (order l).Perm l)
    (nA : ℕ) (ownedA : List (List ℕ)) (hpA : IsPartition nA ownedA)
    (apply : (ℕ → K) → (ℕ → K)) (a : ℕ → ℕ → K) (hA : IsMatrix nA a apply)
    (rowsB : ℕ) (ownedB : List (List ℕ)) (hpB : IsPartition rowsB ownedB)
    (hprocs : ownedB.length = ownedA.length) (b : ℕ → List (ℕ × K))
    (hcols : ∀ j, j < rowsB → ((b j).map Prod.fst).Nodup)
    (bs : List (DevPart K)) (hb : HoldsMatrix ownedB b bs)
    (hnone : ∃ owned ∈ ownedA, ∀ i ∈ owned, ∀ j, j < rowsB → ¬ eps < |freeProduct nA a b i j|) :
    freeMultiplyTranspose true eps order nA ownedA apply rowsB ownedB (some bs) = .aborted ∧
    freeMultiplyTranspose false eps order nA ownedA apply rowsB ownedB (some bs)
      = .ub "val[0] of an empty vector" := by
  obtain ⟨owned, hown, hno⟩ := hnone
  obtain ⟨p, hp, rfl⟩ := List.getElem_of_mem hown
  set row : ℕ → List (ℕ × K) := fun i => order ((List.range rowsB).flatMap fun j =>
    if eps < |freeProduct nA a b i j| then [(j, freeProduct nA a b i j)] else []) with hrow
  have hzero : ((ownedA[p].map row).map List.length).sum = 0 := by
    rw [List.sum_eq_zero]
    intro n hn
    rw [List.map_map] at hn
    obtain ⟨i, hi, rfl⟩ := List.mem_map.1 hn
    simp only [Function.comp_apply, hrow]
    rw [(horder _).length_eq, List.length_eq_zero_iff, List.flatMap_eq_nil_iff]
    intro j hj
    rw [if_neg (hno i hi j (List.mem_range.1 hj))]
  have hbp : p < bs.length := by rw [hb.1, hprocs]; exact hp
  have hz : p < (bs.zip (ownedA.zip (List.range ownedA.length))).length := by
    simp only [List.length_zip, List.length_range]; omega
  have hdich : ∀ (debug : Bool) (l : List ℕ),
      (∃ d, convertTrilinos debug id (l.map row) = .ok d) ∨
        (((l.map row).map List.length).sum = 0) := by
    intro debug l
    rcases Nat.eq_zero_or_pos (((l.map row).map List.length).sum) with h | h
    · exact .inr h
    · obtain ⟨d, hd, _⟩ := C44_trilinos debug id (l.map row) h
      exact .inl ⟨d, hd⟩
  constructor
  · rw [freeMultiplyTranspose_eq true eps order nA ownedA hpA apply a hA rowsB ownedB hpB hprocs b
      hcols bs hb]
    apply mapM_fails (fun _ => .aborted) (fun _ _ _ => rfl)
    · intro q _
      rcases hdich true q.2.1 with ⟨d, hd⟩ | h0
      · left
        exact ⟨_, by rw [hd, Outcome.ok_bind]⟩
      · right
        rw [(C44_empty_violated id _ h0).1]
        rfl
    · refine ⟨_, List.getElem_mem hz, ?_⟩
      simp only [List.getElem_zip]
      rw [(C44_empty_violated id _ hzero).1]
      rfl
  · rw [freeMultiplyTranspose_eq false eps order nA ownedA hpA apply a hA rowsB ownedB hpB hprocs b
      hcols bs hb]
    apply mapM_fails (fun _ => .ub "val[0] of an empty vector") (fun _ _ _ => rfl)
    · intro q _
      rcases hdich false q.2.1 with ⟨d, hd⟩ | h0
      · left
        exact ⟨_, by rw [hd, Outcome.ok_bind]⟩
      · right
        rw [(C44_empty_violated id _ h0).2]
        rfl
    · refine ⟨_, List.getElem_mem hz, ?_⟩
      simp only [List.getElem_zip]
      rw [(C44_empty_violated id _ hzero).2]
      rfl

/-- **C73**, the error: dropping the small entries changes each element of the product with a vector
by at most the tolerance times the sum of the moduli of the vector. -/
theorem C73_error [IsStrictOrderedRing K] (eps : K) (heps : 0 ≤ eps) (n : ℕ) (a : ℕ → ℕ → K)
    (b : ℕ → List (ℕ × K)) (i m : ℕ) (x : ℕ → K) :
    |((List.range m).map fun j => droppedProduct eps n a b i j * x j).sum
      - ((List.range m).map fun j => freeProduct n a b i j * x j).sum|
      ≤ eps * ((List.range m).map fun j => |x j|).sum := by
  induction m with
  | zero => simp
  | succ m ih =>
    simp only [List.range_succ, List.map_append, List.sum_append, List.map_cons, List.map_nil,
      List.sum_cons, List.sum_nil, add_zero]
    have h1 : |droppedProduct eps n a b i m * x m - freeProduct n a b i m * x m| ≤ eps * |x m| := by
      rw [← sub_mul, abs_mul]
      apply mul_le_mul_of_nonneg_right _ (abs_nonneg _)
      unfold droppedProduct
      split_ifs with h
      · rw [sub_self, abs_zero]; exact heps
      · rw [zero_sub, abs_neg]; exact not_lt.1 h
    generalize ((List.range m).map fun j => droppedProduct eps n a b i j * x j).sum = s at *
    generalize ((List.range m).map fun j => freeProduct n a b i j * x j).sum = t at *
    generalize droppedProduct eps n a b i m * x m = u at *
    generalize freeProduct n a b i m * x m = v at *
    have h2 : s + u - (t + v) = (s - t) + (u - v) := by ring
    rw [h2, mul_add]
    exact le_trans (abs_add_le _ _) (add_le_add ih h1)

theorem mapM_getElem {β γ : Type} (f : β → Outcome γ) : ∀ (l : List β) (cs : List γ), l.mapM f = .ok cs →
    cs.length = l.length ∧ ∀ (p : ℕ) (h : p < l.length) (h' : p < cs.length), f l[p] = .ok cs[p] := by
  intro l
  induction l with
  | nil =>
    intro cs h
    rw [List.mapM_nil, Outcome.pure_eq] at h
    cases h
    simp
  | cons a l ih =>
    intro cs h
    rw [List.mapM_cons] at h
    obtain ⟨c, h1, h⟩ := Outcome.bind_eq_ok.1 h
    obtain ⟨cs', h2, h⟩ := Outcome.bind_eq_ok.1 h
    rw [Outcome.pure_eq] at h
    cases h
    obtain ⟨h3, h4⟩ := ih cs' h2
    refine ⟨by simp [h3], ?_⟩
    intro p h5 h6
    cases p with
    | zero => exact h1
    | succ p => exact h4 p (by simpa using h5) (by simpa using h6)

/-- **C73**, an operand whose matrix has no cuSPARSE handle on a process (`convert_matrix` does not set one): whatever
the matrices are, the product there is not applied.  In debug builds applying it aborts; in release builds the
destination keeps its previous content. -/
theorem C73_handle_violated (debug : Bool) (eps : K) (order : List (ℕ × K) → List (ℕ × K))
    (nA : ℕ) (ownedA : List (List ℕ)) (apply : (ℕ → K) → (ℕ → K)) (rowsB : ℕ) (ownedB : List (List ℕ))
    (bs cs : List (DevPart K))
    (h : freeMultiplyTranspose debug eps order nA ownedA apply rowsB ownedB (some bs) = .ok cs)
    (p : ℕ) (hp : p < bs.length) (hp' : p < cs.length) (hnone : bs[p].handle = false)
    (schedule : List ℕ) (values : List (List K)) (junk : K) (y : List K) :
    applyPart true schedule rowsB ownedB values junk y cs[p] = .aborted ∧
      applyPart false schedule rowsB ownedB values junk y cs[p] = .ok y := by
  obtain ⟨calls, _, h⟩ := Outcome.bind_eq_ok.1 h
  obtain ⟨h1, h2⟩ := mapM_getElem _ _ _ h
  have h3 := h2 p (by omega) hp'
  obtain ⟨c, _, h3⟩ := Outcome.bind_eq_ok.1 h3
  rw [Outcome.pure_eq] at h3
  have h4 : cs[p].handle = false := by
    injection h3 with h3
    rw [← h3]
    simpa using hnone
  simp [applyPart, h4]

/-- **C73**, an operand that is not an assembled device operator: a null pointer is dereferenced. -/
theorem C73_operand_violated (debug : Bool) (eps : K) (order : List (ℕ × K) → List (ℕ × K))
    (nA : ℕ) (ownedA : List (List ℕ)) (apply : (ℕ → K) → (ℕ → K)) (rowsB : ℕ)
    (ownedB : List (List ℕ)) :
    freeMultiplyTranspose debug eps order nA ownedA apply rowsB ownedB none
      = .ub "downcast_b is null" := rfl

end

/-! ### A concrete case: two processes, a 3×3 operator and a 2×3 matrix -/

/-- The operator `diag(2, 3, 4)` with an off-diagonal entry. -/
def exFreeA (i k : ℕ) : ℚ :=
  if i = k then (i : ℚ) + 2 else if i = 0 ∧ k = 2 then 5 else 0

def exFreeApply (v : ℕ → ℚ) (i : ℕ) : ℚ := ((List.range 3).map fun k => exFreeA i k * v k).sum

def exFreeB (j : ℕ) : List (ℕ × ℚ) := if j = 0 then [(0, 1), (2, 1)] else [(1, 2)]

def exFreeParts : List (DevPart ℚ) :=
  [⟨csrOf [exFreeB 1], true, true⟩, ⟨csrOf [exFreeB 0], true, true⟩]

theorem exFreeParts_holds : HoldsMatrix [[1], [0]] exFreeB exFreeParts := by
  refine ⟨rfl, ?_⟩
  intro p h h'
  have : p < 2 := h
  interval_cases p
  · exact ⟨csrOf_hasRows _, rfl, rfl⟩
  · exact ⟨csrOf_hasRows _, rfl, rfl⟩

theorem exFreeB_nodup : ∀ j, j < 2 → ((exFreeB j).map Prod.fst).Nodup := by
  intro j hj
  interval_cases j <;> decide

/-- `A Bᵀ` has rows `(7, 0)`, `(0, 6)`, `(4, 0)`; the processes own `{1}` and `{0, 2}`. -/
example : ∃ cs, freeMultiplyTranspose true (1 / 100000 : ℚ) id 3 [[1], [0, 2]] exFreeApply 2
      [[1], [0]] (some exFreeParts) = .ok cs ∧ cs.length = 2 ∧
    ∀ (p : ℕ) (h : p < cs.length) (h' : p < 2) (x : ℕ → ℚ) (values : List (List ℚ)),
      Distributes [[1], [0]] x values → ∀ (debug' : Bool) (schedule : List ℕ),
      IsSchedule (nBlocks 2 * 512) schedule → ∀ (junk : ℚ) (y : List ℚ),
      y.length = ([[1], [0, 2]] : List (List ℕ))[p].length →
      applyPart debug' schedule 2 [[1], [0]] values junk y cs[p]
        = .ok (([[1], [0, 2]] : List (List ℕ))[p].map fun i => ((List.range 2).map fun j =>
            droppedProduct (1 / 100000 : ℚ) 3 exFreeA exFreeB i j * x j).sum) :=
  C73_product_partial true _ id (fun _ => List.Perm.refl _) 3 [[1], [0, 2]]
    (by unfold IsPartition; decide) exFreeApply exFreeA (fun _ _ => rfl) 2 [[1], [0]]
    (by unfold IsPartition; decide) rfl exFreeB exFreeB_nodup exFreeParts exFreeParts_holds
    (by
      intro owned ho
      simp only [List.mem_cons, List.not_mem_nil, or_false] at ho
      rcases ho with rfl | rfl
      · exact ⟨1, by simp, 1, by decide, by decide +kernel⟩
      · exact ⟨0, by simp, 0, by decide, by decide +kernel⟩)

/-- The second process owns no unknowns. -/
example : freeMultiplyTranspose true (1 / 100000 : ℚ) id 3 [[0, 1, 2], []] exFreeApply 2
      [[1], [0]] (some exFreeParts) = .aborted ∧
    freeMultiplyTranspose false (1 / 100000 : ℚ) id 3 [[0, 1, 2], []] exFreeApply 2
      [[1], [0]] (some exFreeParts) = .ub "val[0] of an empty vector" :=
  C73_empty_violated _ id (fun _ => List.Perm.refl _) 3 [[0, 1, 2], []]
    (by unfold IsPartition; decide) exFreeApply exFreeA (fun _ _ => rfl) 2 [[1], [0]]
    (by unfold IsPartition; decide) rfl exFreeB exFreeB_nodup exFreeParts exFreeParts_holds
    ⟨[], by simp, by simp⟩

example : |((List.range 2).map fun j => droppedProduct (5 : ℚ) 3 exFreeA exFreeB 2 j * (j + 1)).sum
      - ((List.range 2).map fun j => freeProduct 3 exFreeA exFreeB 2 j * ((j : ℚ) + 1)).sum|
      ≤ 5 * ((List.range 2).map fun j : ℕ => |(j : ℚ) + 1|).sum :=
  C73_error 5 (by norm_num) 3 exFreeA exFreeB 2 2 fun j => (j : ℚ) + 1

/-- The first process has no handle. -/
example : ∃ cs : List (DevPart ℚ), freeMultiplyTranspose false (1 / 100000 : ℚ) id 3 [[1], [0, 2]] exFreeApply 2 [[1], [0]]
      (some [⟨csrOf [exFreeB 1], false, true⟩, ⟨csrOf [exFreeB 0], true, true⟩]) = .ok cs ∧
    ∀ h : 0 < cs.length, applyPart false [] 2 [[1], [0]] [[5], [6]] (0 : ℚ) [7] cs[0] = .ok [7] := by
  obtain ⟨cs, h⟩ : ∃ cs, freeMultiplyTranspose false (1 / 100000 : ℚ) id 3 [[1], [0, 2]] exFreeApply 2 [[1], [0]]
      (some [⟨csrOf [exFreeB 1], false, true⟩, ⟨csrOf [exFreeB 0], true, true⟩]) = .ok cs := by
    have : (match freeMultiplyTranspose false (1 / 100000 : ℚ) id 3 [[1], [0, 2]] exFreeApply 2 [[1], [0]]
      (some [⟨csrOf [exFreeB 1], false, true⟩, ⟨csrOf [exFreeB 0], true, true⟩]) with
      | .ok _ => true
      | _ => false) = true := by decide +kernel
    split at this
    · exact ⟨_, by assumption⟩
    · cases this
  exact ⟨cs, h, fun h' => (C73_handle_violated _ _ _ _ _ _ _ _ _ _ h 0 (by decide) h' rfl _ _ _ _).2⟩

end Mfmg
