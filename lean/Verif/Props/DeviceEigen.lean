import Verif.Spec.DeviceEigen
import Verif.Props.DeviceSmoother
import Verif.Lemmas.Restriction
import Mathlib.LinearAlgebra.Matrix.Notation
import Mathlib.LinearAlgebra.Matrix.NonsingularInverse
import Mathlib.Algebra.Order.Field.Rat
import Mathlib.Tactic.NormNum
import Mathlib.Tactic.FinCases
import Mathlib.Tactic.IntervalCases

/-!
# C67: eigenvectors of an agglomerate on the device
-/

set_option autoImplicit false

namespace Mfmg

/-- Threads with small numbers. -/
theorem asInt32_small {t : ℕ} (h : t < 2 ^ 31) : asInt32 t = t := by
  have e : t % 2 ^ 32 = t := Nat.mod_eq_of_lt (by omega)
  unfold asInt32
  rw [e, if_pos h]

/-- A launch over `size` elements has enough threads, and their indices do not overflow. -/
theorem launchThreads_bounds {size : ℕ} (h0 : 0 < size) (h1 : size < 2 ^ 31) :
    size ≤ launchThreads size ∧ launchThreads size ≤ 2 ^ 31 := by
  have e : size % 2 ^ 32 = size := Nat.mod_eq_of_lt (by omega)
  unfold launchThreads nBlocks
  rw [e, if_neg (by omega)]
  omega

/-- A launch over no elements has `2 ^ 32` threads. -/
theorem launchThreads_zero : launchThreads 0 = 2 ^ 32 := by
  unfold launchThreads nBlocks
  norm_num

/-- `kernel_writes` for the threads that exist. -/
theorem launch_writes {α : Type} (threads n : ℕ) (w : ℕ → Option (ℕ × α))
    (step : List α → ℕ → Outcome (List α))
    (hstep : ∀ out i, i < threads → out.length = n →
      step out i = .ok (match w i with | none => out | some (p, v) => out.set p v))
    (hlt : ∀ i p v, w i = some (p, v) → p < n)
    (huniq : ∀ i j p v v', w i = some (p, v) → w j = some (p, v') → v = v')
    (hbound : ∀ i p v, w i = some (p, v) → i < threads)
    (goal : List α) (hgoal : ∀ p, p < n → ∃ i v, w i = some (p, v) ∧ goal[p]? = some v)
    (hlen : goal.length = n)
    (sched : List ℕ) (hs : IsSchedule threads sched) (out : List α) (hout : out.length = n) :
    sched.foldlM step out = .ok goal := by
  have hcongr : ∀ (sched : List ℕ), (∀ i ∈ sched, i < threads) → ∀ out : List α,
      sched.foldlM step out = sched.foldlM
        (fun out i => if i < threads then step out i else .ok out) out := by
    intro sched
    induction sched with
    | nil => intro _ _; rfl
    | cons i sched ih =>
      intro h out
      simp only [List.foldlM_cons, if_pos (h i (by simp))]
      congr 1
      funext o
      exact ih (fun j hj => h j (by simp [hj])) o
  have hmem : ∀ i, i ∈ sched ↔ i < threads := fun i => by rw [hs.mem_iff]; simp
  rw [hcongr sched (fun i hi => (hmem i).1 hi)]
  have hk : ∀ out i, out.length = n → (if i < threads then step out i else .ok out) =
      .ok (match w i with | none => out | some (p, v) => out.set p v) := by
    intro out i hl
    by_cases hi : i < threads
    · simp only [if_pos hi, hstep out i hi hl]
    · simp only [if_neg hi]
      cases hw : w i with
      | none => rfl
      | some e => exact absurd (hbound i e.1 e.2 (by rw [hw])) hi
  obtain ⟨out', h1, h2, h3, -⟩ := kernel_writes n w
    (fun out i => if i < threads then step out i else .ok out) hk hlt huniq sched out hout
  rw [h1]
  congr 1
  apply List.ext_getElem?
  intro p
  by_cases hp : p < n
  · obtain ⟨i, v, hw, hg⟩ := hgoal p hp
    rw [h3 i ((hmem i).2 (hbound i p v hw)) p v hw, hg]
  · rw [List.getElem?_eq_none (by omega), List.getElem?_eq_none (by omega)]

section

variable {K : Type}

theorem readAt_nat (l : List K) (i : ℕ) (h : i < l.length) (why : String) :
    readAt l (i : ℤ) why = .ok l[i] := by
  simp [readAt, Outcome.get, h]

theorem writeAt_nat (l : List K) (i : ℕ) (h : i < l.length) (v : K) (why : String) :
    writeAt l (i : ℤ) v why = .ok (l.set i v) := by
  simp [writeAt, h]

/-- `restrict_array` keeps the first elements. -/
theorem restrict_ok (full : List K) (size : ℕ) (h0 : 0 < size) (h1 : size < 2 ^ 31)
    (hf : size ≤ full.length) (sched : List ℕ) (hs : IsSchedule (launchThreads size) sched)
    (out : List K) (hout : out.length = size) :
    sched.foldlM (restrictThread full (asInt32 size)) out = .ok (full.take size) := by
  obtain ⟨hb, hb'⟩ := launchThreads_bounds h0 h1
  refine launch_writes (launchThreads size) size
    (fun i => if h : i < size then some (i, full[i]) else none) _ ?_ ?_ ?_ ?_ (full.take size) ?_
    (by simp [hf]) sched hs out hout
  · intro out i hi ho
    unfold restrictThread
    simp only [asInt32_small h1, asInt32_small (show i < 2 ^ 31 by omega), Nat.cast_lt]
    by_cases h : i < size
    · simp only [if_pos h, dif_pos h, readAt_nat full i (by omega), Outcome.ok_bind,
        writeAt_nat out i (by omega)]
    · simp only [if_neg h, dif_neg h]
      rfl
  · intro i p v h
    split at h
    · simp only [Option.some.injEq, Prod.mk.injEq] at h
      omega
    · cases h
  · intro i j p v v' h h'
    split at h <;> split at h' <;> simp_all
    grind
  · intro i p v h
    split at h
    · omega
    · cases h
  · intro p hp
    exact ⟨p, full[p], by rw [dif_pos hp], by simp [hp]⟩

/-- Positions in column-major order. -/
theorem columnMajor_getElem [Field K] {n : ℕ} (a : Matrix (Fin n) (Fin n) K) (t : ℕ)
    (ht : t < n * n) :
    (columnMajor a)[t]? = some (a ⟨t % n, Nat.mod_lt _ (Nat.pos_of_ne_zero (by rintro rfl; omega))⟩
      ⟨t / n, Nat.div_lt_of_lt_mul ht⟩) := by
  have hn : 0 < n := Nat.pos_of_ne_zero (by rintro rfl; omega)
  have e : columnMajor a = List.ofFn fun t : Fin (n * n) =>
      a ⟨t.val % n, Nat.mod_lt _ hn⟩ ⟨t.val / n, Nat.div_lt_of_lt_mul t.isLt⟩ := by
    rw [List.ofFn_mul]
    unfold columnMajor
    congr 2
    funext j
    congr 1
    funext i
    congr 1
    · ext
      simp only
      rw [Nat.add_comm, Nat.add_mul_mod_self_right, Nat.mod_eq_of_lt i.isLt]
    · ext
      simp only
      rw [Nat.add_comm, Nat.add_mul_div_right _ _ hn, Nat.div_eq_of_lt i.isLt, Nat.zero_add]
  rw [e, List.getElem?_ofFn, dif_pos ht]

theorem columnMajor_length [Field K] {n : ℕ} (a : Matrix (Fin n) (Fin n) K) :
    (columnMajor a).length = n * n := by
  simp [columnMajor, List.length_flatten, List.map_ofFn, Function.comp_def, List.ofFn_const,
    List.sum_replicate]

/-- `extract_diag` extracts the diagonal. -/
theorem extractDiag_ok [Field K] {n : ℕ} (a : Matrix (Fin n) (Fin n) K) (h0 : 0 < n)
    (h1 : n * n < 2 ^ 31) (sched : List ℕ) (hs : IsSchedule (launchThreads (n * n)) sched)
    (out : List K) (hout : out.length = n) :
    sched.foldlM (extractDiagThread (columnMajor a) n n) out = .ok (List.ofFn fun i => a i i) := by
  obtain ⟨hb, hb'⟩ := launchThreads_bounds (Nat.mul_pos h0 h0) h1
  refine launch_writes (launchThreads (n * n)) n
    (fun t => if h : t < n * n ∧ t / n = t % n then
      some (t % n, (columnMajor a)[t]'(by rw [columnMajor_length]; exact h.1)) else none)
    _ ?_ ?_ ?_ ?_ _ ?_ (by simp) sched hs out hout
  · intro out t ht ho
    have hc : ((t : ℤ) < (n : ℤ) * n) ↔ t < n * n := by norm_cast
    have hd : ((t : ℤ).tdiv n = (t : ℤ).tmod n) ↔ t / n = t % n := by
      rw [← Int.ofNat_tdiv, ← Int.ofNat_tmod]; norm_cast
    unfold extractDiagThread
    simp only [asInt32_small (show t < 2 ^ 31 by omega), hc, hd]
    by_cases h : t < n * n
    · by_cases h' : t / n = t % n
      · have hm : t % n < n := Nat.mod_lt _ h0
        simp only [if_pos h, if_pos h', dif_pos (And.intro h h'),
          readAt_nat (columnMajor a) t (by rw [columnMajor_length]; exact h), Outcome.ok_bind]
        rw [← Int.ofNat_tmod, writeAt_nat out _ (by omega)]
      · simp only [if_pos h, if_neg h', dif_neg (fun e : t < n * n ∧ t / n = t % n => h' e.2)]
        rfl
    · simp only [if_neg h, dif_neg (fun e : t < n * n ∧ t / n = t % n => h e.1)]
      rfl
  · intro i p v h
    split at h
    · simp only [Option.some.injEq, Prod.mk.injEq] at h
      rw [← h.1]
      exact Nat.mod_lt _ h0
    · cases h
  · intro i j p v v' h h'
    split at h
    · split at h'
      · rename_i hi hj
        simp only [Option.some.injEq, Prod.mk.injEq] at h h'
        have : i = j := by
          rw [← Nat.div_add_mod i n, ← Nat.div_add_mod j n, hi.2, hj.2, h.1, h'.1]
        subst this
        rw [← h.2, ← h'.2]
      · cases h'
    · cases h
  · intro i p v h
    split at h
    · omega
    · cases h
  · intro p hp
    have e1 : (p * n + p) % n = p := by
      rw [Nat.add_comm, Nat.add_mul_mod_self_right, Nat.mod_eq_of_lt hp]
    have e2 : (p * n + p) / n = p := by
      rw [Nat.add_comm, Nat.add_mul_div_right _ _ h0, Nat.div_eq_of_lt hp, Nat.zero_add]
    have e3 : p * n + p < n * n := by nlinarith
    have := columnMajor_getElem a (p * n + p) e3
    simp only [e1, e2] at this
    refine ⟨p * n + p, a ⟨p, hp⟩ ⟨p, hp⟩, ?_, by simp [hp]⟩
    rw [dif_pos ⟨e3, by rw [e1, e2]⟩]
    rw [List.getElem?_eq_some_iff] at this
    exact congrArg some (Prod.ext e1 this.2)

/-- `fill_identity_matrix` makes the identity. -/
theorem identity_ok [Field K] {n : ℕ} (h0 : 0 < n)
    (h1 : n * n < 2 ^ 31) (sched : List ℕ) (hs : IsSchedule (launchThreads (n * n)) sched)
    (out : List K) (hout : out.length = n * n) :
    sched.foldlM (identityThread n n) out = .ok (columnMajor (1 : Matrix (Fin n) (Fin n) K)) := by
  obtain ⟨hb, hb'⟩ := launchThreads_bounds (Nat.mul_pos h0 h0) h1
  refine launch_writes (launchThreads (n * n)) (n * n)
    (fun t => if t < n * n then some (t, if t / n = t % n then 1 else 0) else none)
    _ ?_ ?_ ?_ ?_ _ ?_ (by rw [columnMajor_length]) sched hs out hout
  · intro out t ht ho
    have hc : ((t : ℤ) < (n : ℤ) * n) ↔ t < n * n := by norm_cast
    have hd : ((t : ℤ).tdiv n = (t : ℤ).tmod n) ↔ t / n = t % n := by
      rw [← Int.ofNat_tdiv, ← Int.ofNat_tmod]; norm_cast
    unfold identityThread
    simp only [asInt32_small (show t < 2 ^ 31 by omega), hc, hd]
    by_cases h : t < n * n
    · simp only [if_pos h, writeAt_nat out t (by omega)]
    · simp only [if_neg h]
      rfl
  · intro i p v h
    split at h
    · simp only [Option.some.injEq, Prod.mk.injEq] at h
      omega
    · cases h
  · intro i j p v v' h h'
    split at h
    · split at h'
      · simp only [Option.some.injEq, Prod.mk.injEq] at h h'
        rw [← h.2, ← h'.2, h.1, h'.1]
      · cases h'
    · cases h
  · intro i p v h
    split at h
    · omega
    · cases h
  · intro p hp
    refine ⟨p, _, by rw [if_pos hp], ?_⟩
    rw [columnMajor_getElem _ p hp, Matrix.one_apply]
    simp [eq_comm]

/-- The first pairs of a complete set of ordered eigenpairs are the smallest. -/
theorem OrderedPairs.smallest [Field K] [LinearOrder K] {n m : ℕ} {a : Matrix (Fin n) (Fin n) K}
    {w v : List K} (h : OrderedPairs n n a w v) (hm : m ≤ n) :
    SmallestEigenpairs m n a (w.take m) (v.take (m * n)) := by
  have hw : ∀ k < m, (w.take m).getD k 0 = w.getD k 0 := by
    intro k hk
    simp [List.getD, hk]
  have hv : ∀ k < m, nthVector n (v.take (m * n)) k = nthVector n v k := by
    intro k hk
    funext i
    have : k * n + i < m * n := by
      have := i.isLt
      calc k * n + i < k * n + n := by omega
        _ = (k + 1) * n := by ring
        _ ≤ m * n := Nat.mul_le_mul_right _ hk
    simp [nthVector, List.getD, this]
  -- the matrix whose columns are the eigenvectors
  set V : Matrix (Fin n) (Fin n) K := fun i k => nthVector n v k i with hV
  have hVV : V.transpose * V = 1 := by
    ext k l
    rw [Matrix.mul_apply, Matrix.one_apply]
    have := h.orthonormal k k.isLt l l.isLt
    simp only [dotProduct, Fin.val_inj] at this
    exact this
  have hVV' : V * V.transpose = 1 := mul_eq_one_comm.1 hVV
  have hA : a * V = V * Matrix.diagonal fun k : Fin n => w.getD k 0 := by
    ext i k
    have := congrFun (h.pairs k k.isLt) i
    rw [Matrix.mul_diagonal, Matrix.mul_apply]
    simp only [Matrix.mulVec, dotProduct, Pi.smul_apply, smul_eq_mul] at this
    rw [mul_comm]
    exact this
  have hAt : V.transpose * a = (Matrix.diagonal fun k : Fin n => w.getD k 0) * V.transpose := by
    calc V.transpose * a = V.transpose * (a * V) * V.transpose := by
          rw [Matrix.mul_assoc V.transpose, Matrix.mul_assoc a, hVV', Matrix.mul_one]
      _ = _ := by rw [hA, ← Matrix.mul_assoc, hVV, Matrix.one_mul]
  refine ⟨⟨by simp [h.values_length, hm], ?_, ?_, ?_, ?_⟩, ?_⟩
  · simp only [List.length_take, h.vectors_length]
    exact min_eq_left (Nat.mul_le_mul_right _ hm)
  · intro k hk
    rw [hv k hk, hw k hk]
    exact h.pairs k (by omega)
  · intro k hk l hl
    rw [hv k hk, hv l hl]
    exact h.orthonormal k (by omega) l (by omega)
  · intro k l hkl hl
    rw [hw k (by omega), hw l hl]
    exact h.ascending k l hkl (by omega)
  · intro l u hu hl horth k hk
    rw [hw k hk]
    -- the coefficients of `u`
    set c := V.transpose.mulVec u with hc
    have huc : V.mulVec c = u := by rw [hc, Matrix.mulVec_mulVec, hVV', Matrix.one_mulVec]
    have hne : ∃ q, c q ≠ 0 := by
      by_contra hall
      push Not at hall
      apply hu
      rw [← huc, show c = 0 from funext hall, Matrix.mulVec_zero]
    obtain ⟨q, hq⟩ := hne
    have hqm : m ≤ q.val := by
      by_contra hlt
      apply hq
      have := horth q (by omega)
      rw [hv q (by omega)] at this
      exact this
    have hlc : l • c = (Matrix.diagonal fun k : Fin n => w.getD k 0).mulVec c := by
      rw [hc, ← Matrix.mulVec_smul, ← hl, Matrix.mulVec_mulVec, Matrix.mulVec_mulVec, hAt]
    have hlq := congrFun hlc q
    rw [Matrix.mulVec_diagonal, Pi.smul_apply, smul_eq_mul] at hlq
    have : l = w.getD q 0 := mul_right_cancel₀ hq hlq
    rw [this]
    exact h.ascending k q (by omega) q.isLt

/-- **C67.**  If at least one and at most as many eigenvectors are requested as the agglomerate has dofs
(and the square of that number fits into an `int`), then, whatever the order in which the threads run
and whatever new device arrays contain, the arrays returned are the requested number of smallest
eigenpairs and the diagonal of the matrix.  Missing: no eigenvectors, or more than dofs, for which the
claim is false (`C67_none_violated`, `C67_many_violated`). -/
theorem C67_smallest_partial [Field K] [LinearOrder K] (debug : Bool) (n m : ℕ) (hm0 : 0 < m)
    (hmn : m ≤ n) (hn : n * n < 2 ^ 31) (a : Matrix (Fin n) (Fin n) K)
    (sygvd : ℕ → List K → List K → List K × List K × Bool) (hc : SygvdContract sygvd n a)
    (sched : EigenSchedule) (hs : sched.Valid m n) (junk : K) :
    ∃ r, deviceEigenvectors debug sched junk sygvd m n n (columnMajor a) = .ok r ∧
      SmallestEigenpairs m n a r.values r.vectors ∧ r.diag = List.ofFn fun i => a i i := by
  obtain ⟨w, v, hsy, hp⟩ := hc
  have hn0 : 0 < n := by omega
  have hle : m * n ≤ n * n := Nat.mul_le_mul_right _ hmn
  have hlen : n ≤ n * n := Nat.le_mul_of_pos_left n hn0
  have h1 := extractDiag_ok a hn0 hn sched.diag hs.diag (List.replicate n junk) (by simp)
  have h2 := identity_ok (K := K) hn0 hn sched.identity hs.identity
    (List.replicate (n * n) junk) (by simp)
  have h3 := restrict_ok w m hm0 (by omega) (by rw [hp.values_length]; exact hmn) sched.values
    hs.values (List.replicate m junk) (by simp)
  have h4 := restrict_ok v (m * n) (Nat.mul_pos hm0 hn0) (by omega)
    (by rw [hp.vectors_length]; exact hle) sched.vectors hs.vectors
    (List.replicate (m * n) junk) (by simp)
  have hmod : m * n % 2 ^ 32 = m * n := Nat.mod_eq_of_lt (by omega)
  refine ⟨⟨w.take m, v.take (m * n), List.ofFn fun i => a i i⟩, ?_, hp.smallest hmn, rfl⟩
  unfold deviceEigenvectors
  simp only [decide_true, Outcome.assert_true, Outcome.ok_bind, if_neg (Nat.not_le.2 hn), h1, h2, hsy,
    h3, hmod, h4]
  rfl

/-- The threads of `restrict_array` either leave the array or read outside. -/
theorem restrict_ub (full : List K) (size : ℤ) (sched : List ℕ) (out : List K)
    (hgood : ∀ t ∈ sched, ∀ out' : List K, out'.length = out.length →
      (∃ o, restrictThread full size out' t = .ok o ∧ o.length = out.length) ∨
      restrictThread full size out' t = .ub "full_array[i]")
    (hbad : ∃ t ∈ sched, ∀ out' : List K, out'.length = out.length →
      restrictThread full size out' t = .ub "full_array[i]") :
    sched.foldlM (restrictThread full size) out = .ub "full_array[i]" := by
  induction sched generalizing out with
  | nil => obtain ⟨t, ht, -⟩ := hbad; simp at ht
  | cons t sched ih =>
    rw [List.foldlM_cons]
    rcases hgood t (by simp) out rfl with ⟨o, ho, hl⟩ | ho
    · rw [ho, Outcome.ok_bind]
      refine ih o (fun s hs o' ho' => ?_) ?_
      · rw [hl]; exact hgood s (by simp [hs]) o' (by rw [ho', hl])
      · obtain ⟨s, hs, hb⟩ := hbad
        rcases List.mem_cons.1 hs with rfl | hs
        · rw [hb out rfl] at ho; cases ho
        · exact ⟨s, hs, fun o' ho' => hb o' (by rw [ho', hl])⟩
    · rw [ho, Outcome.ub_bind]

/-- **C67**, no eigenvectors.  If no eigenvectors are requested, `2 ^ 32` threads are started; half of them
have a negative index, pass the test `i < 0`, and read and write outside the arrays. -/
theorem C67_none_violated [Field K] [LinearOrder K] (debug : Bool) (n : ℕ) (hn0 : 0 < n)
    (hn : n * n < 2 ^ 31) (a : Matrix (Fin n) (Fin n) K)
    (sygvd : ℕ → List K → List K → List K × List K × Bool) (hc : SygvdContract sygvd n a)
    (sched : EigenSchedule) (hs : sched.Valid 0 n) (junk : K) :
    deviceEigenvectors debug sched junk sygvd 0 n n (columnMajor a) = .ub "full_array[i]" := by
  obtain ⟨w, v, hsy, hp⟩ := hc
  have h1 := extractDiag_ok a hn0 hn sched.diag hs.diag (List.replicate n junk) (by simp)
  have h2 := identity_ok (K := K) hn0 hn sched.identity hs.identity
    (List.replicate (n * n) junk) (by simp)
  have h0 : asInt32 0 = 0 := by unfold asInt32; norm_num
  have h3 : sched.values.foldlM (restrictThread w 0) ([] : List K) = .ub "full_array[i]" := by
    have hmem : ∀ t, t ∈ sched.values ↔ t < 2 ^ 32 := fun t => by
      rw [hs.values.mem_iff, launchThreads_zero]; simp
    have hneg : ∀ t, asInt32 t < 0 → ∀ o : List K, restrictThread w 0 o t = .ub "full_array[i]" := by
      intro t ht o
      unfold restrictThread
      simp only [if_pos ht, readAt, if_neg (by omega : ¬ 0 ≤ asInt32 t), Outcome.ub_bind]
    refine restrict_ub w 0 sched.values [] (fun t _ o ho => ?_) ⟨2 ^ 31, (hmem _).2 (by norm_num), ?_⟩
    · by_cases hlt : asInt32 t < 0
      · exact Or.inr (hneg t hlt o)
      · refine Or.inl ⟨o, ?_, ho⟩
        unfold restrictThread
        simp only [if_neg hlt]
        rfl
    · intro o _
      exact hneg _ (by unfold asInt32; norm_num) o
  unfold deviceEigenvectors
  simp only [decide_true, Outcome.assert_true, Outcome.ok_bind, if_neg (Nat.not_le.2 hn), h1, h2, hsy,
    h0, List.replicate_zero, h3, Outcome.ub_bind]

/-- **C67**, more eigenvectors than dofs.  The kernel reads past the end of the list of eigenvalues. -/
theorem C67_many_violated [Field K] [LinearOrder K] (debug : Bool) (n m : ℕ) (hn0 : 0 < n)
    (hnm : n < m) (hm : m < 2 ^ 31) (hn : n * n < 2 ^ 31) (a : Matrix (Fin n) (Fin n) K)
    (sygvd : ℕ → List K → List K → List K × List K × Bool) (hc : SygvdContract sygvd n a)
    (sched : EigenSchedule) (hs : sched.Valid m n) (junk : K) :
    deviceEigenvectors debug sched junk sygvd m n n (columnMajor a) = .ub "full_array[i]" := by
  obtain ⟨w, v, hsy, hp⟩ := hc
  have h1 := extractDiag_ok a hn0 hn sched.diag hs.diag (List.replicate n junk) (by simp)
  have h2 := identity_ok (K := K) hn0 hn sched.identity hs.identity
    (List.replicate (n * n) junk) (by simp)
  obtain ⟨hb, hb'⟩ := launchThreads_bounds (size := m) (by omega) hm
  have hmem : ∀ t, t ∈ sched.values ↔ t < launchThreads m := fun t => by
    rw [hs.values.mem_iff]; simp
  have h3 : sched.values.foldlM (restrictThread w (asInt32 m)) (List.replicate m junk) =
      .ub "full_array[i]" := by
    have hbad : ∀ t : ℕ, n ≤ t → t < m → ∀ o : List K,
        restrictThread w (asInt32 m) o t = .ub "full_array[i]" := by
      intro t h h' o
      unfold restrictThread
      have hnone : w[t]? = none := by rw [List.getElem?_eq_none]; rw [hp.values_length]; exact h
      simp only [asInt32_small hm, asInt32_small (show t < 2 ^ 31 by omega), Nat.cast_lt, if_pos h',
        readAt, Int.natCast_nonneg, if_true, Int.toNat_natCast, Outcome.get, hnone, Outcome.ub_bind]
    refine restrict_ub w _ sched.values _ (fun t ht o ho => ?_) ⟨n, (hmem n).2 (by omega), ?_⟩
    · have ht' := (hmem t).1 ht
      by_cases h : t < n
      · refine Or.inl ⟨o.set t (w[t]'(by rw [hp.values_length]; exact h)), ?_, by simpa using ho⟩
        rw [List.length_replicate] at ho
        unfold restrictThread
        simp only [asInt32_small hm, asInt32_small (show t < 2 ^ 31 by omega), Nat.cast_lt,
          if_pos (show t < m by omega), readAt_nat w t (by rw [hp.values_length]; exact h),
          Outcome.ok_bind, writeAt_nat o t (by omega)]
      · by_cases h' : t < m
        · exact Or.inr (hbad t (by omega) h' o)
        · refine Or.inl ⟨o, ?_, ho⟩
          unfold restrictThread
          simp only [asInt32_small hm, asInt32_small (show t < 2 ^ 31 by omega), Nat.cast_lt,
            if_neg h']
          rfl
    · intro o _
      exact hbad n le_rfl hnm o
  unfold deviceEigenvectors
  simp only [decide_true, Outcome.assert_true, Outcome.ok_bind, if_neg (Nat.not_le.2 hn), h1, h2, hsy,
    h3, Outcome.ub_bind]

/-- A symmetric matrix with the eigenvalues 1 and 3. -/
def exSym : Matrix (Fin 2) (Fin 2) ℚ := !![57 / 25, 24 / 25; 24 / 25, 43 / 25]

/-- Its eigenpairs, as an eigensolver that knows only this matrix. -/
def exSygvd : ℕ → List ℚ → List ℚ → List ℚ × List ℚ × Bool :=
  fun _ _ _ => ([1, 3], [3 / 5, -4 / 5, 4 / 5, 3 / 5], true)

theorem exSygvd_contract : SygvdContract exSygvd 2 exSym := by
  refine ⟨_, _, rfl, rfl, rfl, ?_, ?_, ?_⟩
  · intro k hk
    funext i
    interval_cases k <;> fin_cases i <;>
      norm_num [exSym, nthVector, Matrix.mulVec, dotProduct, Fin.sum_univ_two]
  · intro k hk l hl
    interval_cases k <;> interval_cases l <;>
      norm_num [nthVector, dotProduct, Fin.sum_univ_two]
  · intro k l hkl hl
    interval_cases l <;> interval_cases k <;> norm_num

/-- The threads run in the order of their numbers. -/
def exEigenSchedule (m n : ℕ) : EigenSchedule :=
  ⟨List.range (launchThreads (n * n)), List.range (launchThreads (n * n)),
    List.range (launchThreads m), List.range (launchThreads (m * n))⟩

theorem exEigenSchedule_valid (m n : ℕ) : (exEigenSchedule m n).Valid m n :=
  ⟨List.Perm.refl _, List.Perm.refl _, List.Perm.refl _, List.Perm.refl _⟩

example : ∃ r, deviceEigenvectors true (exEigenSchedule 1 2) 7 exSygvd 1 2 2 (columnMajor exSym) = .ok r ∧
    SmallestEigenpairs 1 2 exSym r.values r.vectors ∧ r.diag = List.ofFn fun i => exSym i i :=
  C67_smallest_partial true 2 1 (by norm_num) (by norm_num) (by norm_num) exSym exSygvd
    exSygvd_contract _ (exEigenSchedule_valid 1 2) 7

example : deviceEigenvectors true (exEigenSchedule 0 2) 7 exSygvd 0 2 2 (columnMajor exSym) =
    .ub "full_array[i]" :=
  C67_none_violated true 2 (by norm_num) (by norm_num) exSym exSygvd
    exSygvd_contract _ (exEigenSchedule_valid 0 2) 7

example : deviceEigenvectors true (exEigenSchedule 3 2) 7 exSygvd 3 2 2 (columnMajor exSym) =
    .ub "full_array[i]" :=
  C67_many_violated true 2 3 (by norm_num) (by norm_num) (by norm_num) (by norm_num) exSym exSygvd
    exSygvd_contract _ (exEigenSchedule_valid 3 2) 7

end

end Mfmg
