import Verif.Spec.DeviceHierarchy
import Verif.Props.DirectSolver
import Verif.Props.DeviceCsr
import Verif.Props.CoarseSpd

/-!
# Lemmas on the hierarchy on the device
-/

set_option autoImplicit false

namespace Mfmg

/-! ### Device memory -/

/-- From `h` to `h'` nothing was freed that was there before, and `k` allocations more exist. -/
structure GrowsBy (k : ℕ) (h h' : DevHeap) : Prop where
  sane : h'.Sane
  next : h.next ≤ h'.next
  keeps : ∀ p ∈ h.live, p ∈ h'.live
  length : h'.live.length = h.live.length + k

theorem GrowsBy.refl {h : DevHeap} (hs : h.Sane) : GrowsBy 0 h h := ⟨hs, le_refl _, fun _ hp => hp, rfl⟩

theorem GrowsBy.trans {k l : ℕ} {h₁ h₂ h₃ : DevHeap} (a : GrowsBy k h₁ h₂) (b : GrowsBy l h₂ h₃) :
    GrowsBy (k + l) h₁ h₃ :=
  ⟨b.sane, le_trans a.next b.next, fun p hp => b.keeps p (a.keeps p hp), by
    rw [b.length, a.length, Nat.add_assoc]⟩

theorem GrowsBy.cast {k l : ℕ} {h h' : DevHeap} (a : GrowsBy k h h') (e : k = l) : GrowsBy l h h' :=
  e ▸ a

theorem vmultHeap_ok {h : DevHeap} (hs : h.Sane) : ∃ h', vmultHeap h = .ok h' ∧ GrowsBy 2 h h' := by
  have e : ((h.next + 1 + 1) :: (h.next + 1) :: h.next :: h.live).erase (h.next + 1)
      = (h.next + 1 + 1) :: h.next :: h.live := by
    rw [List.erase_cons_tail (by simp), List.erase_cons_head]
  refine ⟨⟨h.next + 1 + 1 + 1, (h.next + 1 + 1) :: h.next :: h.live,
    (h.next + 1 + 1) :: (h.next + 1) :: h.next :: h.written⟩, ?_, ?_, ?_, ?_, ?_⟩
  · change DevHeap.free ⟨h.next + 1 + 1 + 1, (h.next + 1 + 1) :: (h.next + 1) :: h.next :: h.live,
      (h.next + 1 + 1) :: (h.next + 1) :: h.next :: h.written⟩ (some (h.next + 1)) = _
    simp only [DevHeap.free]
    rw [if_pos (by simp), e]
  · intro p hp
    simp only [List.mem_cons] at hp
    rcases hp with rfl | rfl | hp
    · simp
    · simp only; omega
    · have := hs p hp; simp only; omega
  · simp only; omega
  · intro p hp; simp [hp]
  · simp

/-- The two vectors copied to the device for a call with host vectors, and the end of that call. -/
theorem hostCopies_ok {h h₂ : DevHeap} (hs : h.Sane) {k : ℕ}
    (hg : GrowsBy k (h.allocWritten.2.allocWritten.2) h₂) :
    ∃ h₃ h₄, h₂.free (some (h.next + 1)) = .ok h₃ ∧ h₃.free (some h.next) = .ok h₄ ∧ GrowsBy k h h₄ := by
  have m1 : h.next + 1 ∈ h₂.live := hg.keeps _ (by simp [DevHeap.allocWritten, DevHeap.alloc, DevHeap.write])
  have m0 : h.next ∈ h₂.live := hg.keeps _ (by simp [DevHeap.allocWritten, DevHeap.alloc, DevHeap.write])
  have m0' : h.next ∈ h₂.live.erase (h.next + 1) := (List.mem_erase_of_ne (by omega)).2 m0
  refine ⟨{ h₂ with live := h₂.live.erase (h.next + 1) },
    { h₂ with live := (h₂.live.erase (h.next + 1)).erase h.next }, ?_, ?_, ?_, ?_, ?_, ?_⟩
  · simp only [DevHeap.free, if_pos m1]
  · simp only [DevHeap.free, if_pos m0']
  · intro p hp
    exact hg.sane p (List.mem_of_mem_erase (List.mem_of_mem_erase hp))
  · have := hg.next
    simp only [DevHeap.allocWritten, DevHeap.alloc, DevHeap.write] at this
    simp only
    omega
  · intro p hp
    have hlt := hs p hp
    have : p ∈ h₂.live := hg.keeps p (by simp [DevHeap.allocWritten, DevHeap.alloc, DevHeap.write, hp])
    exact (List.mem_erase_of_ne (by omega)).2 ((List.mem_erase_of_ne (by omega)).2 this)
  · have hl := hg.length
    simp only [DevHeap.allocWritten, DevHeap.alloc, DevHeap.write, List.length_cons] at hl
    simp only [List.length_erase_of_mem m0', List.length_erase_of_mem m1, hl]
    omega

theorem twoAllocs_sane {h : DevHeap} (hs : h.Sane) : h.allocWritten.2.allocWritten.2.Sane := by
  intro p hp
  simp only [DevHeap.allocWritten, DevHeap.alloc, DevHeap.write, List.mem_cons] at hp ⊢
  rcases hp with rfl | rfl | hp
  · omega
  · omega
  · have := hs p hp; omega

theorem newArrays_grows {h : DevHeap} (hs : h.Sane) : GrowsBy 4 h (newArrays true h).2 := by
  refine ⟨?_, ?_, ?_, ?_⟩
  · intro p hp
    simp only [newArrays, DevHeap.allocWritten, DevHeap.alloc, DevHeap.write, if_true,
      List.mem_cons] at hp ⊢
    rcases hp with rfl | rfl | rfl | rfl | hp
    · omega
    · omega
    · omega
    · omega
    · have := hs p hp; omega
  · simp only [newArrays, DevHeap.allocWritten, DevHeap.alloc, DevHeap.write, if_true]; omega
  · intro p hp
    simp [newArrays, DevHeap.allocWritten, DevHeap.alloc, DevHeap.write, hp]
  · simp [newArrays, DevHeap.allocWritten, DevHeap.alloc, DevHeap.write]

theorem free_next {h h' : DevHeap} {p : Option ℕ} (e : h.free p = .ok h') : h'.next = h.next := by
  cases p with
  | none => simp only [DevHeap.free, Outcome.ok.injEq] at e; rw [e]
  | some p =>
    simp only [DevHeap.free] at e
    split at e
    · injection e with e; rw [← e]
    · exact absurd e (by simp)

/-! ### Matrices -/

section

variable {K : Type} [Field K]

theorem RowsOf.rowTimes_eq {m n : ℕ} {rows : List (List (ℕ × K))} {A : Matrix (Fin m) (Fin n) K}
    (h : RowsOf rows A) (u : Fin n → K) (f : ℕ → K) (hf : ∀ j : Fin n, f j = u j) (i : Fin m) :
    rowTimes (rows.getD i []) f = A.mulVec u i := by
  have hi : (i : ℕ) < rows.length := by rw [h.1]; exact i.2
  have hmem : rows.getD i [] ∈ rows := by
    rw [List.getD_eq_getElem?_getD, List.getElem?_eq_getElem hi, Option.getD_some]
    exact List.getElem_mem hi
  rw [← sum_lookup n f _ (h.2.1 _ hmem).1 (h.2.1 _ hmem).2]
  simp only [Matrix.mulVec, dotProduct, h.2.2 i, hf]

theorem ofFn_map_range (n : ℕ) (u : Fin n → K) :
    (List.range n).map (fun i => (List.ofFn u).getD i 0) = List.ofFn u := by
  apply List.ext_getElem (by simp)
  intro i h1 h2
  have : i < n := by simpa using h1
  simp [this]

theorem map_rowTimes {m n : ℕ} {rows : List (List (ℕ × K))} {A : Matrix (Fin m) (Fin n) K}
    (h : RowsOf rows A) (u : Fin n → K) :
    (rows.map fun r => rowTimes r fun i => (List.ofFn u).getD i 0) = List.ofFn (A.mulVec u) := by
  apply List.ext_getElem (by simp [h.1])
  intro i h1 h2
  have hi : i < m := by simpa using h2
  have hr : i < rows.length := by simpa using h1
  have := h.rowTimes_eq u (fun i => (List.ofFn u).getD i 0) (fun j => getD_ofFn_fin u j) ⟨i, hi⟩
  rw [List.getElem_map, List.getElem_ofFn, ← this]
  simp [hr]

theorem deviceVmult_holds {m n : ℕ} {c : Csr K} {A : Matrix (Fin m) (Fin n) K} (h : c.Holds A)
    (schedule : List ℕ) (hs : IsSchedule (nBlocks n * 512) schedule) (junk : K) (u : Fin n → K) :
    deviceVmult schedule n [List.range n] [List.ofFn u] junk m c = .ok (List.ofFn (A.mulVec u)) := by
  obtain ⟨rows, h1, h2⟩ := h
  have := C61_vmult n [List.range n] (by simp [IsPartition]) (fun i => (List.ofFn u).getD i 0)
    [List.ofFn u] (by simp only [Distributes, List.map_cons, List.map_nil]; rw [ofFn_map_range])
    schedule hs junk rows (fun r hr e he => (h2.2.1 r hr).2 e he) c h1
  rw [h2.1] at this
  rw [this, map_rowTimes h2 u]

/-- The matrix-vector product. -/
theorem devProduct_ok (debug : Bool) {dev : Device K} (hd : dev.Valid) {m n : ℕ} {a : DevMat K}
    {A : Matrix (Fin m) (Fin n) K} (ha : a.Stores A) (u : Fin n → K) (y : List K) (hy : y.length = m)
    {h : DevHeap} (hs : h.Sane) :
    ∃ h', devProduct debug dev a (List.ofFn u) y h = .ok (List.ofFn (A.mulVec u), h') ∧
      GrowsBy 2 h h' := by
  obtain ⟨h', e, hg⟩ := vmultHeap_ok hs
  refine ⟨h', ?_, hg⟩
  unfold devProduct
  rw [if_neg (by rw [hy, ha.rows]; omega), e, Outcome.ok_bind, ha.handle, ha.descr]
  simp only [Bool.and_self, if_true, List.length_ofFn, ha.rows]
  rw [deviceVmult_holds ha.holds _ (hd.schedule _ _), Outcome.ok_bind, Outcome.pure_eq,
    List.drop_eq_nil_of_le (by omega), List.append_nil]

theorem devProductFor_ok (debug host : Bool) {dev : Device K} (hd : dev.Valid) {m n : ℕ} {a : DevMat K}
    {A : Matrix (Fin m) (Fin n) K} (ha : a.Stores A) (u : Fin n → K) (y : List K) (hy : y.length = m)
    {h : DevHeap} (hs : h.Sane) :
    ∃ h', devProductFor debug host dev a (List.ofFn u) y h = .ok (List.ofFn (A.mulVec u), h') ∧
      GrowsBy 2 h h' := by
  cases host with
  | false => simpa [devProductFor] using devProduct_ok debug hd ha u y hy hs
  | true =>
    obtain ⟨h₂, e, hg⟩ := devProduct_ok debug hd ha u y hy (twoAllocs_sane hs)
    obtain ⟨h₃, h₄, e3, e4, hg4⟩ := hostCopies_ok hs hg
    refine ⟨h₄, ?_, hg4⟩
    simp only [devProductFor, if_true]
    rw [show h.allocWritten.2.allocWritten = (h.next + 1, h.allocWritten.2.allocWritten.2) from rfl]
    simp only [e, Outcome.ok_bind]
    rw [copyToHost_all _ _ (by simp [hy])]
    simp only [Outcome.ok_bind, e3]
    rw [show h.allocWritten.1 = h.next from rfl, e4]
    rfl

theorem vecSub_ofFn {n : ℕ} (u v : Fin n → K) :
    vecSub (List.ofFn u) (List.ofFn v) = .ok (List.ofFn (u - v)) := by
  unfold vecSub
  rw [if_pos (by simp)]
  congr 1
  apply List.ext_getElem (by simp)
  intro i h1 h2
  simp

theorem RowsOf.nnz_pos {m n : ℕ} {rows : List (List (ℕ × K))} {A : Matrix (Fin m) (Fin n) K}
    (h : RowsOf rows A) (hA : A ≠ 0) : 0 < (rows.map List.length).sum := by
  by_contra hz
  apply hA
  have hz : (rows.map List.length).sum = 0 := by omega
  ext i j
  have hi : (i : ℕ) < rows.length := by rw [h.1]; exact i.2
  have : rows[(i : ℕ)].length = 0 := by
    have := List.sum_eq_zero_iff.1 hz rows[(i : ℕ)].length (List.mem_map.2 ⟨_, List.getElem_mem hi, rfl⟩)
    exact this
  rw [← h.2.2 i j, List.getD_eq_getElem?_getD, List.getElem?_eq_getElem hi, Option.getD_some,
    List.eq_nil_of_length_eq_zero this]
  rfl

/-- The stored entry on the diagonal. -/
theorem RowsOf.diagonal {n : ℕ} {rows : List (List (ℕ × K))} {A : Matrix (Fin n) (Fin n) K}
    (h : RowsOf rows A) (i : Fin n) (hz : A i i ≠ 0) (hi : (i : ℕ) < rows.length) :
    ((i : ℕ), A i i) ∈ rows[(i : ℕ)] := by
  have e := h.2.2 i i
  rw [List.getD_eq_getElem?_getD, List.getElem?_eq_getElem hi, Option.getD_some] at e
  cases hl : rows[(i : ℕ)].lookup (i : ℕ) with
  | none => rw [hl] at e; exact absurd e.symm hz
  | some v =>
    rw [hl, Option.getD_some] at e
    by_contra hno
    have hmem : ∃ w, ((i : ℕ), w) ∈ rows[(i : ℕ)] := by
      by_contra h'
      push Not at h'
      rw [lookup_none _ _ h'] at hl
      exact absurd hl (by simp)
    obtain ⟨w, hw⟩ := hmem
    have := lookup_unique _ (h.2.1 _ (List.getElem_mem hi)).1 _ _ hw
    rw [hl, Option.some.injEq] at this
    rw [← e, this] at hno
    exact hno hw

theorem diagonalRows_rowsOf (n : ℕ) (d : ℕ → K) :
    RowsOf (diagonalRows 0 n d) (Matrix.diagonal fun i : Fin n => d i) := by
  refine ⟨by simp [diagonalRows], ?_, ?_⟩
  · intro r hr
    simp only [diagonalRows, Nat.zero_add, List.mem_map, List.mem_range] at hr
    obtain ⟨i, hi, rfl⟩ := hr
    refine ⟨by simp, ?_⟩
    intro e he
    simp only [List.mem_singleton] at he
    rw [he]
    exact hi
  · intro i j
    have e : (diagonalRows 0 n d).getD i [] = [((i : ℕ), d i)] := by
      simp [diagonalRows]
    rw [e]
    by_cases hij : i = j
    · subst hij
      simp [List.lookup]
    · have : ((j : ℕ) == (i : ℕ)) = false := by
        rw [beq_eq_false_iff_ne]
        exact fun he => hij (Fin.ext he.symm)
      simp [List.lookup, this, Matrix.diagonal_apply_ne _ hij]

theorem devTranspose_ok [LinearOrder K] (debug : Bool) {lib : DeviceLib K} (hl : lib.Correct) {m n : ℕ}
    {a : DevMat K} {A : Matrix (Fin m) (Fin n) K} (ha : a.Stores A) (hA : A ≠ 0) :
    ∃ t, devTranspose debug lib a true = .ok t ∧ t.Stores A.transpose := by
  obtain ⟨rows, h1, h2⟩ := ha.holds
  obtain ⟨trows, t1, t2, t3⟩ := hl.transposer A rows h2
  obtain ⟨c, c1, c2⟩ := C44_epetra debug (lib.transposer m n ((List.range m).zip rows)).2 _ trows t1
    (by rw [t3]; exact h2.nnz_pos hA)
  refine ⟨⟨c, n, m, true, true⟩, ?_, ⟨_, c2, t2⟩, rfl, rfl, rfl, rfl⟩
  unfold devTranspose
  rw [ha.rows, ha.cols, C44_to_trilinos _ rows h1 _ (by simp [h2.1]), Outcome.ok_bind]
  simp only [c1, Outcome.ok_bind, Outcome.pure_eq]

theorem devMatMult_ok [LinearOrder K] (debug : Bool) {lib : DeviceLib K} (hl : lib.Correct) {m k n : ℕ}
    {a b : DevMat K} {A : Matrix (Fin m) (Fin k) K} {B : Matrix (Fin k) (Fin n) K} (ha : a.Stores A)
    (hb : b.Stores B) : ∃ c, devMatMult debug lib a b = .ok c ∧ c.Stores (A * B) := by
  refine ⟨⟨lib.gemm m n k a.csr b.csr, m, n, true, true⟩, ?_, hl.gemm A B _ _ ha.holds hb.holds, rfl, rfl,
    rfl, rfl⟩
  unfold devMatMult
  simp [ha.rows, ha.cols, ha.handle, ha.descr, hb.rows, hb.cols, hb.descr, Outcome.assert]

/-- Both products of the Galerkin operator. -/
theorem devGalerkin_ok [LinearOrder K] (debug : Bool) {lib : DeviceLib K} (hl : lib.Correct) {m n : ℕ}
    {a r : DevOp K} {A : Matrix (Fin n) (Fin n) K} {R : Matrix (Fin m) (Fin n) K}
    (ha : a.matrix.Stores A) (hr : r.matrix.Stores R) (hR : R ≠ 0) :
    ∃ ap ac, devMultiplyTranspose debug lib a r = .ok ap ∧ devMultiply debug lib r ap = .ok ac ∧
      ac.matrix.Stores (galerkin R A) ∧ ac.transposed = none := by
  obtain ⟨t, e1, ht⟩ := devTranspose_ok debug hl hr hR
  obtain ⟨c, e2, hc⟩ := devMatMult_ok debug hl ha ht
  obtain ⟨d, e3, hd⟩ := devMatMult_ok debug hl hr hc
  refine ⟨⟨c, none⟩, ⟨d, none⟩, ?_, ?_, ?_, rfl⟩
  · unfold devMultiplyTranspose
    rw [ha.handle, e1, Outcome.ok_bind, e2]
    rfl
  · unfold devMultiply
    simp only [e3, Outcome.ok_bind, Outcome.pure_eq]
  · unfold galerkin
    rw [Matrix.mul_assoc]
    exact hd

/-! ### The smoother -/

theorem cudaSmoother_jacobi (debug : Bool) {type : Option (List Char)} (ht : JacobiType type) :
    cudaSmoother debug true true type = .ok .jacobi := by
  have : lowerCase (type.getD (chars! "Jacobi")) = chars! "jacobi" := by
    cases type with
    | none => decide
    | some t => exact ht t rfl
  simp [cudaSmoother, this, Outcome.assertThrow, Outcome.assert]

theorem devSmoother_ok (debug : Bool) {dev : Device K} (hd : dev.Valid) (level : ℕ)
    {type : Option (List Char)} (ht : JacobiType type) {n : ℕ} (hn : 0 < n) {a : DevOp K}
    {A : Matrix (Fin n) (Fin n) K} (ha : a.matrix.Stores A) (hz : ∀ i, A i i ≠ 0) :
    ∃ s, devSmoother debug dev level type a = .ok s ∧
      s.Stores (Matrix.diagonal fun i => (A i i)⁻¹) := by
  obtain ⟨rows, h1, h2⟩ := ha.holds
  obtain ⟨s, d, e1, e2, e3⟩ := C49_inverse_partial (dev.smootherSchedule level n a.matrix.csr.col.length)
    (dev.smootherJunk level) a.matrix.csr rows h1 (fun r hr => (h2.2.1 r hr).1)
    (by intro h; rw [h] at h2; have := h2.1; simp at this; omega)
    (fun i => if h : i < n then A ⟨i, h⟩ ⟨i, h⟩ else 1)
    (by
      intro i hi
      have hin : i < n := by rw [← h2.1]; exact hi
      rw [dif_pos hin]
      exact h2.diagonal ⟨i, hin⟩ (hz _) hi)
    (by
      intro i hi
      rw [dif_pos (by rw [← h2.1]; exact hi)]
      exact hz _)
    (by rw [h2.1]; exact hd.smoother _ _ _)
  rw [h2.1] at e1 e2 e3
  refine ⟨⟨s, n, n, true, true⟩, ?_, ⟨_, e2, ?_⟩, rfl, rfl, rfl, rfl⟩
  · unfold devSmoother
    rw [ha.rows, ha.cols, beq_self_eq_true, cudaSmoother_jacobi debug ht, Outcome.ok_bind, ha.handle]
    simp only [if_true]
    rw [e1]
    rfl
  · have e : (fun i : Fin n => (A i i)⁻¹) = fun i : Fin n => d i := by
      funext i
      have := e3 i i.2
      rw [dif_pos i.2] at this
      exact (eq_inv_of_mul_eq_one_left this).symm
    rw [e]
    exact diagonalRows_rowsOf n d

theorem jacobiSweep_eq {n : ℕ} (A : Matrix (Fin n) (Fin n) K) (b x : Fin n → K) :
    x - (Matrix.diagonal fun i => (A i i)⁻¹).mulVec (A.mulVec x - b) = jacobiSweep A b x := by
  funext i
  simp only [jacobiSweep, Pi.sub_apply, Matrix.mulVec_diagonal]
  rw [div_eq_inv_mul]
  ring

theorem devSmooth_ok (debug : Bool) {dev : Device K} (hd : dev.Valid) {n : ℕ} {a s : DevMat K}
    {A : Matrix (Fin n) (Fin n) K} (ha : a.Stores A) (hsm : s.Stores (Matrix.diagonal fun i => (A i i)⁻¹))
    (b x : Fin n → K) {h : DevHeap} (hs : h.Sane) :
    ∃ h', devSmooth debug dev a s (List.ofFn b) (List.ofFn x) h
        = .ok (List.ofFn (jacobiSweep A b x), h') ∧ GrowsBy 4 h h' := by
  obtain ⟨h₁, e1, g1⟩ := devProduct_ok debug hd ha x (List.ofFn b) (by simp) hs
  obtain ⟨h₂, e2, g2⟩ := devProduct_ok debug hd hsm (A.mulVec x - b) (List.ofFn x) (by simp) g1.sane
  refine ⟨h₂, ?_, g1.trans g2⟩
  unfold devSmooth
  simp only [e1, Outcome.ok_bind, vecSub_ofFn, e2, jacobiSweep_eq, Outcome.pure_eq]

theorem devSmoothFor_ok (debug host : Bool) {dev : Device K} (hd : dev.Valid) {n : ℕ} {a s : DevMat K}
    {A : Matrix (Fin n) (Fin n) K} (ha : a.Stores A) (hsm : s.Stores (Matrix.diagonal fun i => (A i i)⁻¹))
    (b x : Fin n → K) {h : DevHeap} (hs : h.Sane) :
    ∃ h', devSmoothFor debug host dev a s (List.ofFn b) (List.ofFn x) h
        = .ok (List.ofFn (jacobiSweep A b x), h') ∧ GrowsBy 4 h h' := by
  cases host with
  | false => simpa [devSmoothFor] using devSmooth_ok debug hd ha hsm b x hs
  | true =>
    obtain ⟨h₂, e, hg⟩ := devSmooth_ok debug hd ha hsm b x (twoAllocs_sane hs)
    obtain ⟨h₃, h₄, e3, e4, hg4⟩ := hostCopies_ok hs hg
    refine ⟨h₄, ?_, hg4⟩
    simp only [devSmoothFor, if_true]
    rw [show h.allocWritten.2.allocWritten = (h.next + 1, h.allocWritten.2.allocWritten.2) from rfl]
    simp only [e, Outcome.ok_bind]
    rw [copyToHost_all _ _ (by simp)]
    simp only [Outcome.ok_bind, e3]
    rw [show h.allocWritten.1 = h.next from rfl, e4]
    rfl

theorem devSmoothLoop_ok (debug host : Bool) {dev : Device K} (hd : dev.Valid) {n : ℕ} {a s : DevMat K}
    {A : Matrix (Fin n) (Fin n) K} (ha : a.Stores A) (hsm : s.Stores (Matrix.diagonal fun i => (A i i)⁻¹))
    (b : Fin n → K) (steps : ℕ) (x : Fin n → K) {h : DevHeap} (hs : h.Sane) :
    ∃ h', devSmoothLoop debug host dev a s (List.ofFn b) steps (List.ofFn x) h
        = .ok (List.ofFn ((jacobiSweep A b)^[steps] x), h') ∧ GrowsBy (4 * steps) h h' := by
  induction steps generalizing x h with
  | zero => exact ⟨h, rfl, GrowsBy.refl hs⟩
  | succ k ih =>
    obtain ⟨h₁, e1, g1⟩ := devSmoothFor_ok debug host hd ha hsm b x hs
    obtain ⟨h₂, e2, g2⟩ := ih (jacobiSweep A b x) g1.sane
    refine ⟨h₂, ?_, (g1.trans g2).cast (by omega)⟩
    rw [devSmoothLoop, e1]
    simp only [Outcome.ok_bind, e2, Function.iterate_succ, Function.comp]

end

/-! ### The coarse solver -/

section

variable {K : Type} [Field K]

theorem directSolver_next (debug host : Bool) (lib : CuSolver K) (name : List Char) (a : SolverMatrix K)
    (b x y : List K) (h h' : DevHeap) (e : directSolverApply debug host lib name (some a) b x h = .ok (y, h')) :
    h.next ≤ h'.next := by
  have key : ∀ (h h' : DevHeap) (y : List K), directApply debug lib name a b x h = .ok (y, h') →
      h.next ≤ h'.next := by
    intro h h' y e
    unfold directApply at e
    split at e
    · obtain ⟨_, _, e⟩ := Outcome.bind_eq_ok.1 e
      simp only [Outcome.pure_eq, Outcome.ok.injEq, Prod.mk.injEq] at e
      rw [e.2]
    · split at e
      · unfold luDenseSolve at e
        obtain ⟨_, _, e⟩ := Outcome.bind_eq_ok.1 e
        obtain ⟨_, _, e⟩ := Outcome.bind_eq_ok.1 e
        obtain ⟨_, _, e⟩ := Outcome.bind_eq_ok.1 e
        obtain ⟨_, _, e⟩ := Outcome.bind_eq_ok.1 e
        split at e
        · exact absurd e (by simp)
        · obtain ⟨_, _, e⟩ := Outcome.bind_eq_ok.1 e
          obtain ⟨h1, e1, e⟩ := Outcome.bind_eq_ok.1 e
          obtain ⟨h2, e2, e⟩ := Outcome.bind_eq_ok.1 e
          obtain ⟨h3, e3, e⟩ := Outcome.bind_eq_ok.1 e
          obtain ⟨h4, e4, e⟩ := Outcome.bind_eq_ok.1 e
          simp only [Outcome.pure_eq, Outcome.ok.injEq, Prod.mk.injEq] at e
          rw [← e.2, free_next e4, free_next e3, free_next e2, free_next e1]
          simp only [DevHeap.alloc, DevHeap.write]
          omega
      · split at e
        · obtain ⟨_, _, e⟩ := Outcome.bind_eq_ok.1 e
          simp only [Outcome.pure_eq, Outcome.ok.injEq, Prod.mk.injEq] at e
          rw [e.2]
        · exact absurd e (by simp)
  cases host with
  | false => exact key h h' y (by simpa [directSolverApply] using e)
  | true =>
    simp only [directSolverApply, if_true, directApplyHost] at e
    obtain ⟨⟨y1, h1⟩, e1, e⟩ := Outcome.bind_eq_ok.1 e
    obtain ⟨_, _, e⟩ := Outcome.bind_eq_ok.1 e
    obtain ⟨h2, e2, e⟩ := Outcome.bind_eq_ok.1 e
    obtain ⟨h3, e3, e⟩ := Outcome.bind_eq_ok.1 e
    simp only [Outcome.pure_eq, Outcome.ok.injEq, Prod.mk.injEq] at e
    have := key _ _ _ e1
    rw [← e.2, free_next e3, free_next e2]
    simp only [DevHeap.allocWritten, DevHeap.alloc, DevHeap.write] at this
    change h.next ≤ h1.next
    omega

end

section

variable {K : Type} [Field K] [LinearOrder K]

omit [LinearOrder K] in
theorem RowsOf.square {n : ℕ} {rows : List (List (ℕ × K))} {A : Matrix (Fin n) (Fin n) K}
    (h : RowsOf rows A) : SquareRows rows := by
  intro r hr
  rw [h.1]
  exact h.2.1 r hr

omit [LinearOrder K] in
theorem RowsOf.solves {n : ℕ} {rows : List (List (ℕ × K))} {A : Matrix (Fin n) (Fin n) K}
    (h : RowsOf rows A) (b : Fin n → K) (x : List K) (hx : Solves rows x (List.ofFn b)) :
    x = List.ofFn (vecOf n x) ∧ A.mulVec (vecOf n x) = b := by
  obtain ⟨h1, h2⟩ := hx
  rw [h.1] at h1
  constructor
  · apply List.ext_getElem (by simp [h1])
    intro i hi1 hi2
    simp [vecOf, hi1]
  · funext i
    have hi : (i : ℕ) < rows.length := by rw [h.1]; exact i.2
    have := h2 i hi
    rw [getD_ofFn_fin] at this
    rw [← this, ← h.rowTimes_eq (vecOf n x) (fun j => x.getD j 0) (fun j => rfl) i,
      List.getD_eq_getElem?_getD, List.getElem?_eq_getElem hi, Option.getD_some]

omit [LinearOrder K] in
theorem RowsOf.nonsingular {n : ℕ} {rows : List (List (ℕ × K))} {A : Matrix (Fin n) (Fin n) K}
    (h : RowsOf rows A) (hA : A.det ≠ 0) : Nonsingular rows := by
  intro x hx
  have hz : (List.replicate rows.length (0 : K)) = List.ofFn (0 : Fin n → K) := by
    apply List.ext_getElem (by simp [h.1])
    intro i h1 h2
    simp
  rw [hz] at hx
  obtain ⟨e1, e2⟩ := h.solves 0 x hx
  rw [hz, e1, Matrix.eq_zero_of_mulVec_eq_zero hA e2]

theorem RowsOf.positiveDefinite {n : ℕ} {rows : List (List (ℕ × K))} {A : Matrix (Fin n) (Fin n) K}
    (h : RowsOf rows A) (hA : IsSpd A) : PositiveDefinite rows := by
  have hrow : ∀ i (hi : i < rows.length), rows[i] = rows.getD i [] := by
    intro i hi
    rw [List.getD_eq_getElem?_getD, List.getElem?_eq_getElem hi, Option.getD_some]
  refine ⟨?_, ?_⟩
  · intro i j hi hj
    have hi' : i < n := by rw [← h.1]; exact hi
    have hj' : j < n := by rw [← h.1]; exact hj
    rw [hrow i hi, hrow j hj]
    have e1 := h.2.2 ⟨i, hi'⟩ ⟨j, hj'⟩
    have e2 := h.2.2 ⟨j, hj'⟩ ⟨i, hi'⟩
    simp only at e1 e2
    rw [e1, e2]
    exact (congrFun (congrFun hA.1 ⟨j, hj'⟩) ⟨i, hi'⟩)
  · intro x hx hx0
    have hne : vecOf n x ≠ 0 := by
      intro h0
      apply hx0
      apply List.ext_getElem (by simp [hx])
      intro i h1 h2
      have hi : i < n := by rw [← h.1, ← hx]; exact h1
      have := congrFun h0 ⟨i, hi⟩
      simpa [vecOf, h1] using this
    have := hA.2 _ hne
    rw [h.1, show ((List.range n).map fun i => x.getD i 0 * rowTimes (rows.getD i []) fun j => x.getD j 0).sum
      = ∑ i ∈ Finset.range n, x.getD i 0 * rowTimes (rows.getD i []) (fun j => x.getD j 0) from rfl,
      Finset.sum_range]
    simp only [dotProduct] at this
    refine lt_of_lt_of_eq this (Finset.sum_congr rfl fun i _ => ?_)
    rw [h.rowTimes_eq (vecOf n x) (fun j => x.getD j 0) (fun j => rfl) i]
    rfl

theorem coarseSolve_ok (debug host : Bool) {lib : DeviceLib K} (hl : lib.Correct) {n : ℕ} {a : DevMat K}
    {A : Matrix (Fin n) (Fin n) K} (ha : a.Stores A) {type : Option (List Char)} (ht : SolverFits type A)
    (hdet : A.det ≠ 0) (b : Fin n → K) (x : List K) (hx : x.length = n) {h : DevHeap} (hs : h.Sane) :
    ∃ y h', directSolverApply debug host lib.solver (lowerCase (type.getD (chars! "lu_dense")))
        (some a.forSolver) (List.ofFn b) x h = .ok (List.ofFn y, h') ∧ A.mulVec y = b ∧ GrowsBy 0 h h' := by
  obtain ⟨rows, h1, h2⟩ := ha.holds
  obtain ⟨y, h', e1, e2, e3⟩ := C69_solves_partial debug host lib.solver hl.solver
    (lowerCase (type.getD (chars! "lu_dense"))) rows h2.square a.forSolver
    ⟨h1, by rw [h2.1]; exact ha.rows, by rw [h2.1]; exact ha.cols, h1.cols⟩
    (by
      rcases ht with ⟨t1, t2⟩ | ⟨t1, -⟩
      · exact Or.inl ⟨t1, h2.positiveDefinite t2⟩
      · exact Or.inr ⟨t1, h2.nonsingular hdet⟩)
    (List.ofFn b) x (by simp [h2.1]) (by rw [hx, h2.1]) h
  obtain ⟨r1, r2⟩ := h2.solves b y e2
  have hn := directSolver_next _ _ _ _ _ _ _ _ _ _ e1
  refine ⟨vecOf n y, h', by rw [← r1]; exact e1, r2, ?_, hn, ?_, by rw [e3]; rfl⟩
  · intro p hp
    rw [e3] at hp
    have := hs p hp
    omega
  · intro p hp
    rw [e3]
    exact hp

end

end Mfmg
