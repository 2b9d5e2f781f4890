import Verif.Lemmas.CrashPoints

/-!
# C99: what a failed set-up leaves behind
-/

set_option autoImplicit false

namespace Mfmg

theorem runs_acquireMat (h : DevHeap) :
    (acquireMat true).Runs h [] ⟨some h.next, some (h.next + 1), some (h.next + 2), some (h.next + 3), true⟩
      ⟨h.next + 4, (h.next + 3) :: (h.next + 2) :: (h.next + 1) :: h.next :: h.live, h.written⟩ ∧
    (acquireMat false).Runs h [] ⟨some h.next, some (h.next + 1), some (h.next + 2), none, true⟩
      ⟨h.next + 3, (h.next + 2) :: (h.next + 1) :: h.next :: h.live, h.written⟩ :=
  ⟨(runs_acquire _).bind0 ((runs_acquire _).bind0 ((runs_acquire _).bind0 ((runs_acquire _).bind0
    (runs_pure _ _)))), (runs_acquire _).bind0 ((runs_acquire _).bind0 ((runs_acquire _).bind0
    (runs_pure _ _)))⟩

/-- `simp` for lists of addresses. -/
macro "addr" : tactic => `(tactic| simp [List.erase_cons])

theorem runs_sygvdCrash (n : ℕ) (l w : List ℕ) :
    sygvdCrash.Runs ⟨n, l, w⟩ [⟨n, l, w⟩] () ⟨n + 2, l, w⟩ := by
  unfold sygvdCrash
  refine (runs_point _).bind1 ((runs_acquire _).bind0 ((runs_acquire _).bind0 ?_))
  exact (runs_free (by simp) (l' := (n + 1) :: l) (by addr)).bind0 (runs_free (by simp) (by addr))

/-- What follows the evaluator in `eigCrash`. -/
theorem eigCrash_tail (mat : SpObj) (l0 : List ℕ) (b : ℕ) (l w : List ℕ)
    (hd : destroyObj ⟨b + 2, (b + 1) :: b :: l0, w⟩ mat = .ok ⟨b + 2, (b + 1) :: b :: l, w⟩) :
    Crashy.Runs (do
        let _ ← acquire
        let dense ← acquire
        destroyMat mat
        let diag ← acquire
        let mass ← acquire
        let values ← acquire
        sygvdCrash
        release mass
        let smallest ← acquire
        release values
        let vectors ← acquire
        release dense
        crashPoint
        crashPoint
        pure ({ values := smallest, vectors := vectors, diag := diag } : EigPtrs))
      ⟨b, l0, w⟩
      [⟨b + 5, (b + 4) :: (b + 3) :: (b + 2) :: (b + 1) :: b :: l, w⟩,
        ⟨b + 9, (b + 8) :: (b + 7) :: (b + 2) :: b :: l, w⟩, ⟨b + 9, (b + 8) :: (b + 7) :: (b + 2) :: b :: l, w⟩]
      ⟨b + 7, b + 8, b + 2⟩ ⟨b + 9, (b + 8) :: (b + 7) :: (b + 2) :: b :: l, w⟩ := by
  refine (runs_acquire _).bind0 ((runs_acquire _).bind0 ((runs_destroy hd).bind0 ?_))
  refine (runs_acquire _).bind0 ((runs_acquire _).bind0 ((runs_acquire _).bind0 ?_))
  refine (runs_sygvdCrash _ _ _).bind1 ?_
  refine (runs_free (by simp) (l' := (b + 4) :: (b + 2) :: (b + 1) :: b :: l) (by addr)).bind0 ?_
  refine (runs_acquire _).bind0 ?_
  refine (runs_free (by simp) (l' := (b + 7) :: (b + 2) :: (b + 1) :: b :: l) (by addr)).bind0 ?_
  refine (runs_acquire _).bind0 ?_
  refine (runs_free (by simp) (l' := (b + 8) :: (b + 7) :: (b + 2) :: b :: l) (by addr)).bind0 ?_
  exact (runs_point _).bind1 ((runs_point _).bind1 (runs_pure _ _))

theorem eigCrash_runs (descr : Bool) (h : DevHeap) : ∃ b, b = h.next + (if descr then 4 else 3) ∧
    (eigCrash descr).RunsLeaving h [0, 0, 5, 4, 4] ⟨b + 7, b + 8, b + 2⟩
      ⟨b + 9, (b + 8) :: (b + 7) :: (b + 2) :: b :: h.live, h.written⟩ := by
  obtain ⟨n, l, w⟩ := h
  have key : ∀ b, n ≤ b → ∀ cs : List DevHeap, cs = [⟨n, l, w⟩, ⟨b, l, w⟩,
      ⟨b + 5, (b + 4) :: (b + 3) :: (b + 2) :: (b + 1) :: b :: l, w⟩,
      ⟨b + 9, (b + 8) :: (b + 7) :: (b + 2) :: b :: l, w⟩,
      ⟨b + 9, (b + 8) :: (b + 7) :: (b + 2) :: b :: l, w⟩] →
      List.Forall₂ (fun c k => DevHeap.Leaves ⟨n, l, w⟩ c k) cs [0, 0, 5, 4, 4] := by
    intro b hb cs e
    subst e
    have h4 : DevHeap.Leaves ⟨n, l, w⟩ ⟨b + 9, (b + 8) :: (b + 7) :: (b + 2) :: b :: l, w⟩ 4 :=
      Leaves.mk [b + 8, b + 7, b + 2, b] rfl (by simp; omega) (by simp) rfl (by simp; omega)
    refine .cons (Leaves.refl _) (.cons (Leaves.mk [] rfl (by simp) (by simp) rfl hb) (.cons ?_
      (.cons h4 (.cons h4 .nil))))
    exact Leaves.mk [b + 4, b + 3, b + 2, b + 1, b] rfl (by simp; omega) (by simp) rfl (by simp; omega)
  cases descr
  · refine ⟨n + 3, rfl, _, ?_, key (n + 3) (by omega) _ rfl⟩
    unfold eigCrash
    refine (runs_point _).bind1 ((runs_acquireMat _).2.bind0 ?_)
    refine Crashy.Runs.bind1 (Crashy.Runs.orDestroy (runs_point _)
      (cs' := [⟨n + 3, l, w⟩]) (.cons ?_ .nil)) ?_
    · simp [destroyObj, DevHeap.free]
    · exact eigCrash_tail _ _ (n + 3) l w (by
        simp [destroyObj, DevHeap.free, Nat.add_assoc])
  · refine ⟨n + 4, rfl, _, ?_, key (n + 4) (by omega) _ rfl⟩
    unfold eigCrash
    refine (runs_point _).bind1 ((runs_acquireMat _).1.bind0 ?_)
    refine Crashy.Runs.bind1 (Crashy.Runs.orDestroy (runs_point _)
      (cs' := [⟨n + 4, l, w⟩]) (.cons ?_ .nil)) ?_
    · simp [destroyObj, DevHeap.free]
    · exact eigCrash_tail _ _ (n + 4) l w (by
        simp [destroyObj, DevHeap.free, Nat.add_assoc])

/-- One agglomerate. -/
theorem aggCrash_runs (m : ℕ) (descr : Bool) (h : DevHeap) : ∃ h', h.Leaves h' 2 ∧
    (aggCrash m descr).RunsLeaving h (aggLeft m) () h' := by
  obtain ⟨b, hb', cs, r, t⟩ := eigCrash_runs descr h
  have hb : h.next ≤ b := by rw [hb']; exact Nat.le_add_right _ _
  obtain ⟨n, l, w⟩ := h
  simp only at hb r
  have h4 : DevHeap.Leaves ⟨n, l, w⟩ ⟨b + 9, (b + 8) :: (b + 7) :: (b + 2) :: b :: l, w⟩ 4 :=
    Leaves.mk [b + 8, b + 7, b + 2, b] rfl (by simp; omega) (by simp) rfl (by simp; omega)
  have h3 : DevHeap.Leaves ⟨n, l, w⟩ ⟨b + 9, (b + 7) :: (b + 2) :: b :: l, w⟩ 3 :=
    Leaves.mk [b + 7, b + 2, b] rfl (by simp; omega) (by simp) rfl (by simp; omega)
  have h2 : DevHeap.Leaves ⟨n, l, w⟩ ⟨b + 9, (b + 7) :: b :: l, w⟩ 2 :=
    Leaves.mk [b + 7, b] rfl (by simp; omega) (by simp) rfl (by simp; omega)
  refine ⟨⟨b + 9, (b + 7) :: b :: l, w⟩, h2, ⟨n, l, w⟩ :: (cs ++
    (⟨b + 9, (b + 8) :: (b + 7) :: (b + 2) :: b :: l, w⟩ ::
      (List.replicate m ⟨b + 9, (b + 8) :: (b + 7) :: (b + 2) :: b :: l, w⟩ ++
        [⟨b + 9, (b + 7) :: (b + 2) :: b :: l, w⟩, ⟨b + 9, (b + 7) :: (b + 2) :: b :: l, w⟩,
          ⟨b + 9, (b + 7) :: b :: l, w⟩, ⟨b + 9, (b + 7) :: b :: l, w⟩]))), ?_, ?_⟩
  · unfold aggCrash
    refine (runs_point _).bind1 (r.bind ((runs_point _).bind1 ((runs_points m _).bind ?_)))
    refine (runs_free (by simp) (l' := (b + 7) :: (b + 2) :: b :: l) (by addr)).bind0 ?_
    refine (runs_point _).bind1 ((runs_point _).bind1 ?_)
    refine (runs_free (by simp) (l' := (b + 7) :: b :: l) (by addr)).bind0 ?_
    exact (runs_point _).bind1 (runs_point _)
  · have e : aggLeft m = 0 :: ([0, 0, 5, 4, 4] ++ (4 :: (List.replicate m 4 ++ [3, 3, 2, 2]))) := by
      simp [aggLeft]
    rw [e]
    refine .cons (Leaves.refl _) (List.rel_append t (.cons h4 (List.rel_append ?_
      (.cons h3 (.cons h3 (.cons h2 (.cons h2 .nil)))))))
    clear e r t
    induction m with
    | zero => exact .nil
    | succ m ih => exact .cons h4 ih

/-- All agglomerates. -/
theorem aggsCrash_runs (m : ℕ) (ds : List Bool) (h : DevHeap) : ∃ h', h.Leaves h' (2 * ds.length) ∧
    (aggsCrash m ds).RunsLeaving h
      ((List.range ds.length).flatMap fun j => (aggLeft m).map (2 * j + ·)) () h' := by
  induction ds generalizing h with
  | nil => exact ⟨h, Leaves.refl h, [], runs_pure () h, .nil⟩
  | cons d ds ih =>
    obtain ⟨h1, l1, r1⟩ := aggCrash_runs m d h
    obtain ⟨h2, l2, r2⟩ := ih h1
    refine ⟨h2, ?_, ?_⟩
    · have := l1.trans l2
      rwa [List.length_cons, show 2 * (ds.length + 1) = 2 + 2 * ds.length by omega]
    · have := Crashy.RunsLeaving.bind (f := fun _ => aggsCrash m ds) r1 l1 r2
      have e : (List.range (d :: ds).length).flatMap (fun j => (aggLeft m).map (2 * j + ·)) =
          aggLeft m ++ ((List.range ds.length).flatMap fun j => (aggLeft m).map (2 * j + ·)).map (2 + ·) := by
        rw [List.length_cons, List.range_succ_eq_map, List.flatMap_cons, List.flatMap_map, List.map_flatMap]
        congr 1
        · simp
        · congr 1
          funext j
          rw [List.map_map]
          congr 1
          funext x
          simp only [Function.comp]
          omega
      rw [e]
      exact this

/-- Which pointer an argument sets. -/
def argField (o : SpObj) : ConvertArg → Option ℕ
  | .val => o.val
  | .col => o.col
  | .rowPtr => o.rowPtr
  | .range => none
  | .domain => none

theorem argsLeft_shift (k : ℕ) (as : List ConvertArg) : argsLeft k as = (argsLeft 0 as).map (k + ·) := by
  have key : ∀ (as : List ConvertArg) (k j : ℕ), argsLeft (k + j) as = (argsLeft j as).map (k + ·) := by
    intro as
    induction as with
    | nil => intro k j; rfl
    | cons a as ih =>
      intro k j
      cases a <;> simp only [argsLeft, List.map_cons, ih, Nat.add_assoc]
  simpa using key as k 0

/-- The number of arrays among the arguments. -/
def argArrays (as : List ConvertArg) : ℕ := as.countP fun a => a ≠ .range ∧ a ≠ .domain

theorem argsCrash_runs (as : List ConvertArg) (nd : as.Nodup) (o : SpObj)
    (ho : ∀ a ∈ as, argField o a = none) (h : DevHeap) :
    ∃ o' h' l, (argsCrash o as).RunsLeaving h (argsLeft 0 as) o' h' ∧ h.Leaks h' l ∧ l.Nodup ∧
      l.length = argArrays as ∧ h.next ≤ h'.next ∧ o'.heldPtrs.Perm (l ++ o.heldPtrs) ∧ o'.descr = o.descr := by
  induction as generalizing o h with
  | nil => exact ⟨o, h, [], ⟨[], runs_pure o h, .nil⟩, ⟨by simp, by simp⟩, by simp, rfl, le_rfl, by simp, rfl⟩
  | cons a as ih =>
    have nd' := (List.nodup_cons.1 nd).2
    have ha := (List.nodup_cons.1 nd).1
    have array : ∀ o1 : SpObj, (∀ b ∈ as, argField o1 b = none) → o1.heldPtrs.Perm (h.next :: o.heldPtrs) →
        o1.descr = o.descr → Crashy.Runs (argCrash o a) h [] o1 ⟨h.next + 1, h.next :: h.live, h.written⟩ →
        argArrays (a :: as) = argArrays as + 1 → argsLeft 0 (a :: as) = argsLeft 1 as →
        ∃ o' h' l, (argsCrash o (a :: as)).RunsLeaving h (argsLeft 0 (a :: as)) o' h' ∧ h.Leaks h' l ∧ l.Nodup ∧
          l.length = argArrays (a :: as) ∧ h.next ≤ h'.next ∧ o'.heldPtrs.Perm (l ++ o.heldPtrs) ∧
          o'.descr = o.descr := by
      intro o1 h1 h2 h3 h4 h5 h6
      obtain ⟨o', h', l, r, ⟨lp, lq⟩, lnd, llen, lle, lo, ld⟩ := ih nd' o1 h1 _
      refine ⟨o', h', l ++ [h.next], ?_, ⟨?_, ?_⟩, ?_, ?_, ?_, ?_, ld.trans h3⟩
      · rw [h6, argsLeft_shift]
        exact Crashy.RunsLeaving.bind (f := fun o => argsCrash o as) ⟨[], h4, .nil⟩
          (Leaves.mk [h.next] rfl (by simp) (by simp) rfl (by simp)) r
      · rw [List.append_assoc]
        exact lp
      · intro x hx
        simp only at lle lq
        rcases List.mem_append.1 hx with hx | hx
        · have := lq x hx; omega
        · simp only [List.mem_singleton] at hx; omega
      · rw [List.nodup_append]
        refine ⟨lnd, by simp, ?_⟩
        intro x hx y hy e
        have := lq x hx
        simp only [List.mem_singleton] at hy this
        omega
      · rw [List.length_append, llen, h5]; rfl
      · simp only at lle; omega
      · rw [List.append_assoc]
        exact lo.trans (h2.append_left l)
    have index : Crashy.Runs (argCrash o a) h [h] o h → argArrays (a :: as) = argArrays as →
        argsLeft 0 (a :: as) = 0 :: argsLeft 0 as →
        ∃ o' h' l, (argsCrash o (a :: as)).RunsLeaving h (argsLeft 0 (a :: as)) o' h' ∧ h.Leaks h' l ∧ l.Nodup ∧
          l.length = argArrays (a :: as) ∧ h.next ≤ h'.next ∧ o'.heldPtrs.Perm (l ++ o.heldPtrs) ∧
          o'.descr = o.descr := by
      intro h4 h5 h6
      obtain ⟨o', h', l, ⟨cs, r, t⟩, rest⟩ := ih nd' o (fun b hb => ho b (by simp [hb])) h
      refine ⟨o', h', l, ⟨h :: cs, h4.bind1 r, ?_⟩, ?_⟩
      · rw [h6]
        exact .cons (Leaves.refl h) t
      · rw [h5]
        exact rest
    have hn := ho a (by simp)
    have hrest : ∀ b ∈ as, argField o b = none := fun b hb => ho b (by simp [hb])
    have hne : ∀ b ∈ as, b ≠ a := fun b hb e => ha (e ▸ hb)
    cases a with
    | val =>
      simp only [argField] at hn
      refine array { o with val := some h.next } ?_ ?_ rfl ((runs_acquire h).bind0 (runs_pure _ _))
        (by simp [argArrays]) rfl
      · intro b hb
        have := hrest b hb
        have := hne b hb
        cases b <;> simp_all [argField]
      · simp [SpObj.heldPtrs, hn]
    | col =>
      simp only [argField] at hn
      refine array { o with col := some h.next } ?_ ?_ rfl ((runs_acquire h).bind0 (runs_pure _ _))
        (by simp [argArrays]) rfl
      · intro b hb
        have := hrest b hb
        have := hne b hb
        cases b <;> simp_all [argField]
      · simp only [SpObj.heldPtrs, hn, Option.toList_some, Option.toList_none, List.nil_append,
          List.singleton_append]
        exact List.perm_middle
    | rowPtr =>
      simp only [argField] at hn
      refine array { o with rowPtr := some h.next } ?_ ?_ rfl ((runs_acquire h).bind0 (runs_pure _ _))
        (by simp [argArrays]) rfl
      · intro b hb
        have := hrest b hb
        have := hne b hb
        cases b <;> simp_all [argField]
      · simp only [SpObj.heldPtrs, hn, Option.toList_some, Option.toList_none, List.nil_append,
          List.singleton_append]
        rw [← List.append_assoc, ← List.append_assoc]
        exact List.perm_middle
    | range => exact index ((runs_point h).bind1 (runs_pure _ _)) (by simp [argArrays]) rfl
    | domain => exact index ((runs_point h).bind1 (runs_pure _ _)) (by simp [argArrays]) rfl

theorem argOrder_facts {order : List ConvertArg} (ho : ArgOrder order) :
    order.Nodup ∧ argArrays order = 3 := by
  constructor
  · exact ho.nodup_iff.2 (by decide)
  · rw [argArrays, ho.countP_eq]
    rfl

/-- `convert_matrix`. -/
theorem convertCrash_runs (hv : ℕ) {order : List ConvertArg} (ho : ArgOrder order) (h : DevHeap) :
    ∃ o h', (convertCrash hv order).RunsLeaving h (convertLeft hv order) o h' ∧ h.Leaves h' 3 ∧
      h'.live.Perm (o.heldPtrs ++ h.live) ∧ h.next ≤ h'.next ∧ o.descr = none ∧
      (∀ p ∈ o.heldPtrs, h.next ≤ p ∧ p < h'.next) ∧ o.heldPtrs.Nodup ∧ o.heldPtrs.length = 3 := by
  obtain ⟨nd, cnt⟩ := argOrder_facts ho
  obtain ⟨o, h', l, ⟨cs, r, t⟩, hl, lnd, llen, lle, lo, ld⟩ := argsCrash_runs order nd
    ⟨none, none, none, none, true⟩ (by intro a _; cases a <;> rfl) h
  have lo' : o.heldPtrs.Perm l := by simpa [SpObj.heldPtrs] using lo
  have h3 : h.Leaves h' 3 := ⟨l, hl, lnd, llen.trans cnt, lle⟩
  refine ⟨o, h', ⟨List.replicate hv h ++ (cs ++ [h', h']), ?_, ?_⟩, h3,
    hl.1.trans (lo'.symm.append_right _), lle, ld, ?_, lo'.nodup_iff.2 lnd, ?_⟩
  · exact (runs_points hv h).bind (r.bind ((runs_point _).bind1 ((runs_point _).bind1 (runs_pure _ _))))
  · rw [convertLeft, List.append_assoc]
    refine List.rel_append ?_ (List.rel_append t (.cons h3 (.cons h3 .nil)))
    clear r t
    induction hv with
    | zero => exact .nil
    | succ hv ih => exact .cons (Leaves.refl h) ih
  · intro p hp
    exact hl.2 p (lo'.mem_iff.1 hp)
  · rw [lo'.length_eq, llen, cnt]

theorem leaves_replicate {h c : DevHeap} {j : ℕ} (k : ℕ) (e : h.Leaves c j) :
    List.Forall₂ (fun c k => h.Leaves c k) (List.replicate k c) (List.replicate k j) := by
  induction k with
  | zero => exact .nil
  | succ k ih => exact .cons e ih

/-- The set-up of the restrictor. -/
theorem setupCrash_runs (m hv : ℕ) {order : List ConvertArg} (ho : ArgOrder order) (ds : List Bool)
    (h : DevHeap) :
    ∃ o h' h1, (setupCrash m hv order ds).RunsLeaving h (setupLeft m hv order ds.length) o h' ∧
      h.Leaves h1 (2 * ds.length) ∧ h'.live.Perm (o.heldPtrs ++ h1.live) ∧ h1.next ≤ h'.next ∧
      h.Leaves h' (2 * ds.length + 4) := by
  obtain ⟨h1, l1, cs1, r1, t1⟩ := aggsCrash_runs m ds h
  obtain ⟨o, h2, ⟨cs2, r2, t2⟩, l2, p2, n2, od, -⟩ := convertCrash_runs hv ho h1
  have hptr : (SpObj.heldPtrs { o with descr := some h2.next }).Perm (h2.next :: o.heldPtrs) := by
    simp only [SpObj.heldPtrs, od, Option.toList_some, Option.toList_none, List.append_nil]
    rw [← List.append_assoc, ← List.append_assoc, List.append_assoc o.val.toList]
    exact List.perm_append_singleton _ _
  have l3 : h2.Leaves ⟨h2.next + 1, h2.next :: h2.live, h2.written⟩ 1 :=
    Leaves.mk [h2.next] rfl (by simp) (by simp) rfl (by simp)
  have p3 : (h2.next :: h2.live).Perm (SpObj.heldPtrs { o with descr := some h2.next } ++ h1.live) :=
    (p2.cons h2.next).trans (hptr.symm.append_right _)
  obtain ⟨c', e', q'⟩ := DevHeap.Leaves.destroy (h := h1) (h1 := ⟨h2.next + 1, h2.next :: h2.live, h2.written⟩)
    (o := { o with descr := some h2.next }) p3 (by simp only; omega) (Leaves.refl _)
  refine ⟨{ o with descr := some h2.next }, ⟨h2.next + 1, h2.next :: h2.live, h2.written⟩, h1,
    ⟨h :: h :: (cs1 ++ h1 :: h1 :: h1 :: (cs2 ++ List.replicate 5 c')), ?_, ?_⟩, l1, p3, by simp only; omega, ?_⟩
  · unfold setupCrash
    refine (runs_point _).bind1 ((runs_point _).bind1 (r1.bind ?_))
    refine (runs_point _).bind1 ((runs_point _).bind1 ((runs_point _).bind1 (r2.bind ?_)))
    refine (runs_acquire _).bind0 ?_
    have := (runs_orDestroy_points 5 e').bind (f := fun _ => pure { o with descr := some h2.next })
      (runs_pure _ _)
    simpa using this
  · have e : setupLeft m hv order ds.length = 0 :: 0 ::
        ((List.range ds.length).flatMap (fun j => (aggLeft m).map (2 * j + ·)) ++
          ((0 :: 0 :: 0 :: (convertLeft hv order ++ List.replicate 5 0)).map (2 * ds.length + ·))) := by
      simp [setupLeft]
    rw [e]
    refine .cons (Leaves.refl _) (.cons (Leaves.refl _) (List.rel_append t1 ?_))
    rw [List.forall₂_map_right_iff]
    refine List.Forall₂.imp (R := fun c k => h1.Leaves c k) (fun c k hk => l1.trans hk) ?_
    exact .cons (Leaves.refl _) (.cons (Leaves.refl _) (.cons (Leaves.refl _)
      (List.rel_append t2 (leaves_replicate 5 q'))))
  · exact l1.trans (l2.trans l3)

/-- **C99**, the restrictor on the device: what stays in use for ever if the call number `i` of the set-up
throws, for every number of agglomerates, every number of eigenvectors, every order in which the compiler
evaluates the arguments, and whatever was in use before.  Two resources for each agglomerate treated before,
and up to five more; what was in use before the call is untouched. -/
theorem C99_setup_exact (m hostVectors : ℕ) (order : List ConvertArg) (ho : ArgOrder order)
    (descrs : List Bool) (h : DevHeap) :
    (setupCrash m hostVectors order descrs).FailsLeaving h
      (setupLeft m hostVectors order descrs.length) (2 * descrs.length + 4) := by
  obtain ⟨o, h', h1, r, -, -, -, k⟩ := setupCrash_runs m hostVectors ho descrs h
  exact r.failsLeaving k

theorem flatMap_range_get {α : Type} (f : ℕ → List α) (L : ℕ) (hL : ∀ j, (f j).length = L) (n j c : ℕ)
    (hj : j < n) (hc : c < L) : ((List.range n).flatMap f)[j * L + c]? = (f j)[c]? := by
  induction n generalizing j f with
  | zero => omega
  | succ n ih =>
    rw [List.range_succ_eq_map, List.flatMap_cons, List.flatMap_map]
    cases j with
    | zero =>
      rw [List.getElem?_append_left (by rw [hL]; omega)]
      simp
    | succ j =>
      have e : (j + 1) * L + c = L + (j * L + c) := by ring
      rw [List.getElem?_append_right (by rw [hL, e]; omega), hL, e, Nat.add_sub_cancel_left]
      exact ih (fun j => f (j + 1)) (fun j => hL (j + 1)) j (by omega)

theorem aggLeft_length (m : ℕ) : (aggLeft m).length = m + 11 := by
  simp [aggLeft]

/-- The entry of the table for a call made while the agglomerate number `j` is treated. -/
theorem setupLeft_agg (m hv : ℕ) (order : List ConvertArg) (n j c k : ℕ) (hj : j < n)
    (hk : (aggLeft m)[c]? = some k) :
    (setupLeft m hv order n)[2 + (j * (m + 11) + c)]? = some (2 * j + k) := by
  have hc : c < m + 11 := by
    rw [← aggLeft_length]
    by_contra hn
    rw [List.getElem?_eq_none (by omega)] at hk
    cases hk
  have hL : ∀ j, ((aggLeft m).map (2 * j + ·)).length = m + 11 := fun j => by
    rw [List.length_map, aggLeft_length]
  have hlen : ((List.range n).flatMap fun j => (aggLeft m).map (2 * j + ·)).length = n * (m + 11) := by
    rw [List.length_flatMap]
    simp [aggLeft_length]
  have h1 : j * (m + 11) + c < n * (m + 11) := by
    have : (j + 1) * (m + 11) ≤ n * (m + 11) := Nat.mul_le_mul_right _ hj
    rw [Nat.add_mul] at this
    omega
  rw [setupLeft, List.append_assoc, List.getElem?_append_right (by simp)]
  have e : 2 + (j * (m + 11) + c) - [0, 0].length = j * (m + 11) + c := by simp
  rw [e, List.getElem?_append_left (by rw [hlen]; exact h1), flatMap_range_get _ (m + 11) hL n j c hj hc,
    List.getElem?_map, hk]
  rfl

/-- **C99**, partial: if the evaluator of the user throws for the agglomerate number `j`, before or after it
has filled the matrix, exactly the two resources of each of the `j` agglomerates before stay in use.  With
`j = 0` nothing does.

Missing: the other calls, and the resources of the agglomerates before (`C99_setup_violated`). -/
theorem C99_evaluator_partial (m hostVectors : ℕ) (order : List ConvertArg) (ho : ArgOrder order)
    (descrs : List Bool) (h : DevHeap) (j : ℕ) (hj : j < descrs.length) (after : Bool) :
    ∃ c, setupCrash m hostVectors order descrs
        (some (2 + (j * (m + 11) + if after then 2 else 1))) h = (.thrown, none, c) ∧ h.Leaves c (2 * j) := by
  refine (C99_setup_exact m hostVectors order ho descrs h).1 _ _ ?_
  have := setupLeft_agg m hostVectors order descrs.length j (if after then 2 else 1) 0 hj (by
    cases after <;> simp [aggLeft])
  simpa using this

/-- **C99 is violated** by the set-up on the device, whatever the mesh: if the two index sets of the new
matrix cannot be copied, three arrays stay in use even without any agglomerate; if the map of the dofs of an
agglomerate cannot be computed, four resources stay in use besides those of the agglomerates before. -/
theorem C99_setup_violated (m hostVectors : ℕ) (order : List ConvertArg) (ho : ArgOrder order)
    (descrs : List Bool) :
    ¬ (setupCrash m hostVectors order descrs).FailsCleanly ∧
    ∀ (h : DevHeap) (j : ℕ), j < descrs.length → ∃ c,
      setupCrash m hostVectors order descrs (some (2 + (j * (m + 11) + 4))) h = (.thrown, none, c) ∧
        h.Leaves c (2 * j + 4) := by
  constructor
  · intro hf
    have hmem : 2 * descrs.length + 3 ∈ setupLeft m hostVectors order descrs.length := by
      simp [setupLeft, convertLeft]
    obtain ⟨i, hi⟩ := List.mem_iff_getElem?.1 hmem
    have h0 : DevHeap := ⟨0, [], []⟩
    obtain ⟨c, e, l, ⟨p, -⟩, -, len, -⟩ := (C99_setup_exact m hostVectors order ho descrs h0).1 i _ hi
    rcases hf h0 i with ⟨a, n, c', e'⟩ | ⟨n, c', e', l', ⟨p', -⟩, -, len', -⟩
    · rw [e] at e'
      simp at e'
    · rw [e] at e'
      cases e'
      have := p.length_eq
      have := p'.length_eq
      simp only [List.length_append] at *
      omega
  · intro h j hj
    refine (C99_setup_exact m hostVectors order ho descrs h).1 _ _ ?_
    exact setupLeft_agg m hostVectors order descrs.length j 4 4 hj (by simp [aggLeft])

/-- A program that fails leaving something does not fail cleanly. -/
theorem not_cleanly {α : Type} {m : Crashy α} {h : DevHeap} {left : List ℕ} {kept i k : ℕ}
    (hm : m.FailsLeaving h left kept) (hi : left[i]? = some k) (hk : 0 < k) : ¬ m.FailsCleanly := by
  intro hf
  obtain ⟨c, e, l, ⟨p, -⟩, -, len, -⟩ := hm.1 i k hi
  rcases hf h i with ⟨a, n, c', e'⟩ | ⟨n, c', e', l', ⟨p', -⟩, -, len', -⟩
  · rw [e] at e'
    simp at e'
  · rw [e] at e'
    cases e'
    have := p.length_eq
    have := p'.length_eq
    simp only [List.length_append] at *
    omega

/-- A program all of whose entries are zero fails cleanly. -/
theorem cleanly {α : Type} {m : Crashy α} {left : List ℕ} {kept : ℕ}
    (hm : ∀ h, m.FailsLeaving h left kept) (h0 : ∀ k ∈ left, k = 0) : m.FailsCleanly := by
  intro h i
  by_cases hi : i < left.length
  · right
    have hx := List.getElem?_eq_getElem hi
    obtain ⟨c, e, hl⟩ := (hm h).1 i _ hx
    rw [h0 _ (List.getElem_mem hi)] at hl
    exact ⟨none, c, e, hl⟩
  · left
    obtain ⟨a, c, e, -⟩ := (hm h).2.1 i (by omega)
    exact ⟨a, _, c, e⟩

/-- **C99**, tried again: after any number of attempts, each failing at any call or succeeding (the matrix
being destroyed afterwards), the program can go on, no resource is released twice, and what is left is the sum
of what the attempts leave.  It grows without bound. -/
theorem C99_attempts (m hostVectors : ℕ) (order : List ConvertArg) (ho : ArgOrder order)
    (descrs : List Bool) (ns : List (Option ℕ)) (h : DevHeap) :
    ∃ h', attempts (setupCrash m hostVectors order descrs) ns h = .ok h' ∧
      h.Leaves h' ((ns.map (leftBy (setupLeft m hostVectors order descrs.length)
        (2 * descrs.length))).sum) := by
  induction ns generalizing h with
  | nil => exact ⟨h, rfl, Leaves.refl h⟩
  | cons n ns ih =>
    obtain ⟨o, h', h1, r, l1, p, le, lk⟩ := setupCrash_runs m hostVectors ho descrs h
    obtain ⟨c', e', q'⟩ := DevHeap.Leaves.destroy p le (Leaves.refl h')
    have done : ∀ n', setupCrash m hostVectors order descrs n h = (.done o, n', h') →
        leftBy (setupLeft m hostVectors order descrs.length) (2 * descrs.length) n = 2 * descrs.length →
        ∃ h'', attempts (setupCrash m hostVectors order descrs) (n :: ns) h = .ok h'' ∧
          h.Leaves h'' (((n :: ns).map (leftBy (setupLeft m hostVectors order descrs.length)
            (2 * descrs.length))).sum) := by
      intro n' e en
      obtain ⟨h'', e'', l''⟩ := ih c'
      refine ⟨h'', ?_, ?_⟩
      · simp [attempts, e, e', e'']
      · rw [List.map_cons, List.sum_cons, en]
        exact (show h.Leaves c' (2 * descrs.length) from l1.trans q').trans l''
    have hf := r
    obtain ⟨cs, ⟨r1, r2, r3⟩, t⟩ := r
    cases n with
    | none => exact done none r3 rfl
    | some i =>
      by_cases hi : i < cs.length
      · have hi' : i < (setupLeft m hostVectors order descrs.length).length := by rw [← t.length_eq]; exact hi
        obtain ⟨c, e, hl⟩ := (hf.failsLeaving lk).1 i _ (List.getElem?_eq_getElem hi')
        obtain ⟨h'', e'', l''⟩ := ih c
        refine ⟨h'', ?_, ?_⟩
        · simp [attempts, e, e'']
        · rw [List.map_cons, List.sum_cons]
          have : leftBy (setupLeft m hostVectors order descrs.length) (2 * descrs.length) (some i) =
              (setupLeft m hostVectors order descrs.length)[i] := by
            simp [leftBy, List.getD, List.getElem?_eq_getElem hi']
          rw [this]
          exact hl.trans l''
      · refine done _ (r2 i (by omega)) ?_
        have : (setupLeft m hostVectors order descrs.length).length ≤ i := by
          rw [← t.length_eq]; omega
        simp [leftBy, List.getD, List.getElem?_eq_none this]

/-- **C99 is violated** over time: with at least one agglomerate, `k` attempts that fail because the map of
the dofs of the first agglomerate cannot be computed leave `4 * k` resources in use. -/
theorem C99_unbounded_violated (m hostVectors : ℕ) (order : List ConvertArg) (ho : ArgOrder order)
    (descrs : List Bool) (hne : descrs ≠ []) (k : ℕ) (h : DevHeap) :
    ∃ h', attempts (setupCrash m hostVectors order descrs) (List.replicate k (some 6)) h = .ok h' ∧
      h.Leaves h' (4 * k) := by
  obtain ⟨h', e, l⟩ := C99_attempts m hostVectors order ho descrs (List.replicate k (some 6)) h
  refine ⟨h', e, ?_⟩
  have h6 := setupLeft_agg m hostVectors order descrs.length 0 4 4
    (List.length_pos_of_ne_nil hne) (by simp [aggLeft])
  have : leftBy (setupLeft m hostVectors order descrs.length) (2 * descrs.length) (some 6) = 4 := by
    simp only [leftBy, List.getD]
    have h6' : (setupLeft m hostVectors order descrs.length)[6]? = some 4 := by simpa using h6
    rw [h6']
    rfl
  rw [List.map_replicate, this, List.sum_replicate, smul_eq_mul, Nat.mul_comm] at l
  exact l

/-- **C99 is violated** by the smoother on the device: the four arrays stay in use if the index set cannot be
copied before `reinit`, one if it cannot be copied in `reinit`.  A smoother of another type than Jacobi is
refused before anything is acquired. -/
theorem C99_smoother_violated :
    (∀ h, smootherCrash.FailsLeaving h [0, 0, 4, 4, 4, 1, 1] 4) ∧ ¬ smootherCrash.FailsCleanly := by
  have key : ∀ h, smootherCrash.FailsLeaving h [0, 0, 4, 4, 4, 1, 1] 4 := by
    intro h
    obtain ⟨n, l, w⟩ := h
    have l4 : DevHeap.Leaves ⟨n, l, w⟩ ⟨n + 4, (n + 3) :: (n + 2) :: (n + 1) :: n :: l, w⟩ 4 :=
      Leaves.mk [n + 3, n + 2, n + 1, n] rfl (by simp) (by simp) rfl (by simp)
    have l1 : DevHeap.Leaves ⟨n, l, w⟩ ⟨n + 5, (n + 3) :: l, w⟩ 1 :=
      Leaves.mk [n + 3] rfl (by simp) (by simp) rfl (by simp)
    have r : smootherCrash.Runs ⟨n, l, w⟩ [⟨n, l, w⟩, ⟨n, l, w⟩,
        ⟨n + 4, (n + 3) :: (n + 2) :: (n + 1) :: n :: l, w⟩,
        ⟨n + 4, (n + 3) :: (n + 2) :: (n + 1) :: n :: l, w⟩,
        ⟨n + 4, (n + 3) :: (n + 2) :: (n + 1) :: n :: l, w⟩,
        ⟨n + 5, (n + 3) :: l, w⟩, ⟨n + 5, (n + 3) :: l, w⟩]
        ⟨some n, some (n + 1), some (n + 2), some (n + 4), true⟩
        ⟨n + 5, (n + 4) :: (n + 2) :: (n + 1) :: n :: l, w⟩ := by
      unfold smootherCrash
      refine (runs_point _).bind1 ((runs_point _).bind1 ?_)
      refine (runs_acquire _).bind0 ((runs_acquire _).bind0 ((runs_acquire _).bind0 ((runs_acquire _).bind0 ?_)))
      refine (runs_point _).bind1 ((runs_point _).bind1 ((runs_point _).bind1 ((runs_acquire _).bind0 ?_)))
      refine Crashy.Runs.bind (cs := [⟨n + 5, (n + 3) :: l, w⟩, ⟨n + 5, (n + 3) :: l, w⟩]) (cs' := [])
        (runs_orDestroy_points 2 ?_) ?_
      · simp [destroyObj, DevHeap.free, Nat.add_assoc]
      · exact (runs_free (by simp) (by addr)).bind0 (runs_pure _ _)
    refine Crashy.RunsLeaving.failsLeaving ⟨_, r, ?_⟩
      (Leaves.mk [n + 4, n + 2, n + 1, n] rfl (by simp) (by simp) rfl (by simp))
    exact .cons (Leaves.refl _) (.cons (Leaves.refl _) (.cons l4 (.cons l4 (.cons l4 (.cons l1 (.cons l1 .nil))))))
  exact ⟨key, not_cleanly (key ⟨0, [], []⟩) (i := 2) rfl (by omega)⟩

/-- What stays in use if the constructor of the AMGX solver fails: the library and six handles, and the
auxiliary array while the matrix is converted. -/
def solverLeft (before inside after : ℕ) : List ℕ :=
  [0, 0] ++ List.replicate before 7 ++ List.replicate inside 8 ++ List.replicate after 7

/-- **C99 is violated** by the coarse solver of type `amgx`: every call that throws after the name of the file
has been read leaves the library initialised and the six handles in use, since the destructor of an object
that has not been constructed does not run.  A missing file name leaves nothing. -/
theorem C99_solver_violated (before inside after : ℕ) :
    (∀ h, (solverCrash before inside after).FailsLeaving h (solverLeft before inside after) 7) ∧
    (0 < before + inside + after → ¬ (solverCrash before inside after).FailsCleanly) := by
  have key : ∀ h, (solverCrash before inside after).FailsLeaving h (solverLeft before inside after) 7 := by
    intro h
    obtain ⟨n, l, w⟩ := h
    have l7 : ∀ k, n + 7 ≤ k → DevHeap.Leaves ⟨n, l, w⟩ ⟨k, (n + 6) :: (n + 5) :: (n + 4) :: (n + 3) ::
        (n + 2) :: (n + 1) :: n :: l, w⟩ 7 := fun k hk =>
      Leaves.mk [n + 6, n + 5, n + 4, n + 3, n + 2, n + 1, n] rfl (by simp; omega) (by simp) rfl
        (by simp; omega)
    have l8 : DevHeap.Leaves ⟨n, l, w⟩ ⟨n + 8, (n + 7) :: (n + 6) :: (n + 5) :: (n + 4) :: (n + 3) ::
        (n + 2) :: (n + 1) :: n :: l, w⟩ 8 :=
      Leaves.mk [n + 7, n + 6, n + 5, n + 4, n + 3, n + 2, n + 1, n] rfl (by simp) (by simp) rfl (by simp)
    refine Crashy.RunsLeaving.failsLeaving (a := [n, n + 1, n + 2, n + 3, n + 4, n + 5, n + 6])
      (h' := ⟨n + 8, (n + 6) :: (n + 5) :: (n + 4) :: (n + 3) :: (n + 2) :: (n + 1) :: n :: l, w⟩)
      ⟨⟨n, l, w⟩ :: ⟨n, l, w⟩ :: (List.replicate before ⟨n + 7, (n + 6) :: (n + 5) :: (n + 4) :: (n + 3) ::
        (n + 2) :: (n + 1) :: n :: l, w⟩ ++ (List.replicate inside ⟨n + 8, (n + 7) :: (n + 6) :: (n + 5) ::
        (n + 4) :: (n + 3) :: (n + 2) :: (n + 1) :: n :: l, w⟩ ++ (List.replicate after ⟨n + 8, (n + 6) ::
        (n + 5) :: (n + 4) :: (n + 3) :: (n + 2) :: (n + 1) :: n :: l, w⟩ ++ []))), ?_, ?_⟩
      (l7 _ (by omega))
    · unfold solverCrash
      refine (runs_point _).bind1 ((runs_point _).bind1 ?_)
      refine (runs_acquire _).bind0 ((runs_acquire _).bind0 ((runs_acquire _).bind0 ((runs_acquire _).bind0
        ((runs_acquire _).bind0 ((runs_acquire _).bind0 ((runs_acquire _).bind0 ?_))))))
      refine (runs_points before _).bind ((runs_acquire _).bind0 ((runs_points inside _).bind ?_))
      refine (runs_free (by simp) (l' := (n + 6) :: (n + 5) :: (n + 4) :: (n + 3) :: (n + 2) :: (n + 1) ::
        n :: l) (by addr)).bind0 ?_
      exact (runs_points after _).bind (runs_pure _ _)
    · rw [solverLeft, List.append_assoc, List.append_assoc, List.append_nil]
      exact .cons (Leaves.refl _) (.cons (Leaves.refl _) (List.rel_append (leaves_replicate _ (l7 _ le_rfl))
        (List.rel_append (leaves_replicate _ l8) (leaves_replicate _ (l7 _ (by omega))))))
  refine ⟨key, fun hpos => ?_⟩
  have h2 : 2 < (solverLeft before inside after).length := by
    simp [solverLeft]
    omega
  refine not_cleanly (key ⟨0, [], []⟩) (List.getElem?_eq_getElem h2) ?_
  simp only [solverLeft, List.append_assoc]
  rw [List.getElem_append_right (by simp)]
  simp only [List.length_cons, List.length_nil, Nat.sub_self]
  by_cases hb : 0 < before
  · rw [List.getElem_append_left (by simpa using hb)]
    simp
  · have hb0 : before = 0 := by omega
    subst hb0
    simp only [List.replicate_zero, List.nil_append]
    by_cases hi : 0 < inside
    · rw [List.getElem_append_left (by simpa using hi)]
      simp
    · have hi0 : inside = 0 := by omega
      subst hi0
      simp

/-- **C99 is violated** by the product of a device matrix and a vector: the gathered vector and the buffer
stay in use if the indices cannot be stored. -/
theorem C99_vmult_violated :
    (∀ h, vmultCrash.FailsLeaving h [2, 2] 2) ∧ ¬ vmultCrash.FailsCleanly := by
  have key : ∀ h, vmultCrash.FailsLeaving h [2, 2] 2 := by
    intro h
    obtain ⟨n, l, w⟩ := h
    have l2 : DevHeap.Leaves ⟨n, l, w⟩ ⟨n + 2, (n + 1) :: n :: l, w⟩ 2 :=
      Leaves.mk [n + 1, n] rfl (by simp) (by simp) rfl (by simp)
    refine Crashy.RunsLeaving.failsLeaving (a := ()) (h' := ⟨n + 3, (n + 2) :: n :: l, w⟩)
      ⟨[⟨n + 2, (n + 1) :: n :: l, w⟩, ⟨n + 2, (n + 1) :: n :: l, w⟩], ?_, .cons l2 (.cons l2 .nil)⟩
      (Leaves.mk [n + 2, n] rfl (by simp) (by simp) rfl (by simp))
    unfold vmultCrash
    refine (runs_acquire _).bind0 ((runs_acquire _).bind0 ((runs_point _).bind1 ((runs_point _).bind1
      ((runs_acquire _).bind0 ?_))))
    exact runs_free (by simp) (by addr)
  exact ⟨key, not_cleanly (key ⟨0, [], []⟩) (i := 0) rfl (by omega)⟩

/-- **C99**, what holds: the product of two device matrices on one process, and the set-up of the restrictor
on the host without `fast_ap`, leave nothing behind whatever call throws.

Missing: the other parts of the set-up (`C99_setup_violated`, `C99_smoother_violated`,
`C99_solver_violated`, `C99_multiply_violated`, `C99_fast_ap_violated`). -/
theorem C99_clean_partial :
    multiplySerialCrash.FailsCleanly ∧ ∀ before, (hostRestrictorCrash false before).FailsCleanly := by
  constructor
  · refine cleanly (left := [0, 0, 0, 0]) (kept := 4) ?_ (by simp)
    intro h
    obtain ⟨n, l, w⟩ := h
    have l0 : DevHeap.Leaves ⟨n, l, w⟩ ⟨n + 7, l, w⟩ 0 := Leaves.mk [] rfl (by simp) (by simp) rfl (by simp)
    refine Crashy.RunsLeaving.failsLeaving (a := ⟨some (n + 5), some (n + 6), some (n + 4), some (n + 3), true⟩)
      (h' := ⟨n + 7, (n + 6) :: (n + 5) :: (n + 4) :: (n + 3) :: l, w⟩)
      ⟨[⟨n, l, w⟩, ⟨n + 7, l, w⟩, ⟨n + 7, l, w⟩, ⟨n + 7, l, w⟩], ?_,
        .cons (Leaves.refl _) (.cons l0 (.cons l0 (.cons l0 .nil)))⟩
      (Leaves.mk [n + 6, n + 5, n + 4, n + 3] rfl (by simp) (by simp) rfl (by simp))
    unfold multiplySerialCrash
    refine (runs_point _).bind1 ((runs_acquireMat _).1.bind0 ?_)
    refine (runs_destroy (h' := ⟨n + 4, (n + 3) :: (n + 1) :: n :: l, w⟩) ?_).bind0 ?_
    · simp [destroyObj, DevHeap.free]
    refine (runs_acquire _).bind0 ?_
    refine (runs_destroy (h' := ⟨n + 5, (n + 4) :: (n + 3) :: l, w⟩) ?_).bind0 ?_
    · simp [destroyObj, DevHeap.free]
    refine (runs_acquire _).bind0 ((runs_acquire _).bind0 ?_)
    refine Crashy.Runs.bind (cs := [⟨n + 7, l, w⟩, ⟨n + 7, l, w⟩, ⟨n + 7, l, w⟩]) (cs' := [])
      (runs_orDestroy_points 3 ?_) (runs_pure _ _)
    simp [destroyObj, DevHeap.free]
  · intro before
    refine cleanly (left := List.replicate before 0 ++ [0]) (kept := 0) ?_ (by simp; omega)
    intro h
    refine Crashy.RunsLeaving.failsLeaving (a := ()) (h' := h) ⟨List.replicate before h ++ [h], ?_, ?_⟩
      (Leaves.refl h)
    · exact (runs_points before h).bind (runs_point h)
    · exact List.rel_append (leaves_replicate _ (Leaves.refl h)) (.cons (Leaves.refl h) .nil)

/-- **C99 is violated** by the set-up on the host with `fast_ap`: the sum of the two matrices, held by a plain
pointer, stays in use if its copy cannot be made. -/
theorem C99_fast_ap_violated (before : ℕ) :
    (∀ h, (hostRestrictorCrash true before).FailsLeaving h
      (List.replicate before 0 ++ [0, 1, 1, 1, 0, 0]) 0) ∧
    ¬ (hostRestrictorCrash true before).FailsCleanly := by
  have key : ∀ h, (hostRestrictorCrash true before).FailsLeaving h
      (List.replicate before 0 ++ [0, 1, 1, 1, 0, 0]) 0 := by
    intro h
    obtain ⟨n, l, w⟩ := h
    have l1 : DevHeap.Leaves ⟨n, l, w⟩ ⟨n + 1, n :: l, w⟩ 1 :=
      Leaves.mk [n] rfl (by simp) (by simp) rfl (by simp)
    have l0 : DevHeap.Leaves ⟨n, l, w⟩ ⟨n + 1, l, w⟩ 0 := Leaves.mk [] rfl (by simp) (by simp) rfl (by simp)
    refine Crashy.RunsLeaving.failsLeaving (a := ()) (h' := ⟨n + 1, l, w⟩)
      ⟨List.replicate before ⟨n, l, w⟩ ++ [⟨n, l, w⟩, ⟨n + 1, n :: l, w⟩, ⟨n + 1, n :: l, w⟩,
        ⟨n + 1, n :: l, w⟩, ⟨n + 1, l, w⟩, ⟨n + 1, l, w⟩], ?_, ?_⟩ l0
    · refine (runs_points before _).bind ((runs_point _).bind1 ((runs_acquire _).bind0 ((runs_point _).bind1
        ((runs_point _).bind1 ((runs_point _).bind1 ?_)))))
      exact (runs_free (by simp) (by addr)).bind0 ((runs_point _).bind1 (runs_point _))
    · exact List.rel_append (leaves_replicate _ (Leaves.refl _)) (.cons (Leaves.refl _) (.cons l1 (.cons l1
        (.cons l1 (.cons l0 (.cons l0 .nil))))))
  refine ⟨key, not_cleanly (key ⟨0, [], []⟩) (i := before + 1) (k := 1) ?_ (by omega)⟩
  rw [List.getElem?_append_right (by simp)]
  simp

theorem Crashy.Runs.eval {α β : Type} {m : Crashy α} {h h' : DevHeap} {cs : List DevHeap} {a : α}
    (r : m.Runs h cs a h') (f : α → Crashy β) (i : ℕ) :
    (m >>= f) (some (cs.length + i)) h = f a (some i) h' := by
  rw [crashy_bind, r.2.1 _ (Nat.le_add_right _ _), Nat.add_sub_cancel_left]

theorem destroy_all {h h1 : DevHeap} {o : SpObj} (e : h1.live.Perm (o.heldPtrs ++ h.live)) (le : h.next ≤ h1.next)
    {cs : List DevHeap} {left : List ℕ} (t : List.Forall₂ (fun c k => h1.Leaves c k) cs left) :
    ∃ cs', List.Forall₂ (fun c c' => destroyObj c o = .ok c') cs cs' ∧
      List.Forall₂ (fun c k => h.Leaves c k) cs' left := by
  induction t with
  | nil => exact ⟨[], .nil, .nil⟩
  | cons hk _ ih =>
    obtain ⟨cs', d, t'⟩ := ih
    obtain ⟨c', e', q'⟩ := hk.destroy e le
    exact ⟨c' :: cs', .cons e' d, .cons q' t'⟩

/-- The copy assignment of index sets fails: the arrays are released twice. -/
theorem moveAssign_twice {o : SpObj} {h c : DevHeap} {p : ℕ} (hv : o.val = some p)
    (e : destroyObj h o = .ok c) (hp : p ∉ c.live) (i : ℕ) (hi : i < 2) :
    ∃ n c', moveAssignCrash o (some i) h = (.ub "double free", n, c') := by
  have r := runs_orDestroy_points 2 e
  have hi' : (List.replicate 2 c)[i]? = some c := by
    rw [List.getElem?_replicate, if_pos hi]
  have r1 := r.1 i c hi'
  refine ⟨none, c, ?_⟩
  unfold moveAssignCrash
  rw [crashy_bind]
  have : destroyMat o none c = (.ub "double free", none, c) := by
    simp [destroyMat, destroyObj, DevHeap.free, hv, hp]
  have : orDestroy o (orDestroy o (crashPoints 2)) (some i) h = (.ub "double free", none, c) := by
    rw [orDestroy, r1]
    simp only [this]
  rw [this]

theorem moveAssign_done {o : SpObj} {h c : DevHeap} (e : destroyObj h o = .ok c) (i : ℕ) :
    moveAssignCrash o (some (2 + i)) h = (.done o, some i, h) ∧ moveAssignCrash o none h = (.done o, none, h) := by
  have r := runs_orDestroy_points 2 e
  constructor
  · unfold moveAssignCrash
    rw [crashy_bind, orDestroy, r.2.1 (2 + i) (by simp)]
    simp only [List.length_replicate, Nat.add_sub_cancel_left]
    rfl
  · unfold moveAssignCrash
    rw [crashy_bind, orDestroy, r.2.2]
    rfl

/-- **C99 is violated** by the product of two device matrices on several processes.  If a call throws before
the result is assigned, what `convert_matrix` holds stays in use.  If an index set cannot be copied in the
move assignment, the arrays of the result belong to two matrices and are released twice, which is undefined
behaviour, whatever was in use before.  If the operator cannot be made afterwards, the three arrays of the
first copy stay in use; they do so as well if nothing throws. -/
theorem C99_multiply_violated (hostCalls hostVectors : ℕ) (order : List ConvertArg) (ho : ArgOrder order)
    (h : DevHeap) (hs : h.Sound) :
    let left := 0 :: (List.replicate hostCalls 0 ++ convertLeft hostVectors order)
    (∀ i k, left[i]? = some k → ∃ c,
      multiplyCrash hostCalls hostVectors order (some i) h = (.thrown, none, c) ∧ h.Leaves c k) ∧
    (∀ i, i < 2 → ∃ n c,
      multiplyCrash hostCalls hostVectors order (some (left.length + i)) h = (.ub "double free", n, c)) ∧
    (∃ c, multiplyCrash hostCalls hostVectors order (some (left.length + 2)) h = (.thrown, none, c) ∧
      h.Leaves c 3) ∧
    (∀ i, ∃ o c, multiplyCrash hostCalls hostVectors order (some (left.length + (3 + i))) h =
      (.done o, some i, c) ∧ h.Leaves c 7) := by
  intro left
  obtain ⟨n, l, w⟩ := h
  obtain ⟨o, h2, ⟨cs2, r2, t2⟩, l2, p2, n2, od, rng, nd, len⟩ := convertCrash_runs hostVectors ho
    ⟨n + 4, (n + 3) :: (n + 2) :: (n + 1) :: n :: l, w⟩
  simp only at p2 n2 rng
  obtain ⟨p, hv⟩ : ∃ p, o.val = some p := by
    cases hv : o.val with
    | some p => exact ⟨p, rfl⟩
    | none =>
      exfalso
      have h1 := Option.length_toList_le (o := o.col)
      have h2 := Option.length_toList_le (o := o.rowPtr)
      simp only [SpObj.heldPtrs, hv, od, Option.toList_none, List.nil_append, List.append_nil,
        List.length_append] at len
      omega
  have hpm : p ∈ o.heldPtrs := by simp [SpObj.heldPtrs, hv]
  have hpr := rng p hpm
  obtain ⟨c', e', q', nx'⟩ := destroy_ptrs p2
  have hpc : p ∉ c'.live := by
    intro hx
    have := q'.mem_iff.1 hx
    simp only [List.mem_cons] at this
    rcases this with rfl | rfl | rfl | rfl | hx
    · omega
    · omega
    · omega
    · omega
    · have := hs p hx
      simp only at this
      omega
  -- what happens before the assignment
  have hc : (⟨n + 4, (n + 3) :: (n + 2) :: (n + 1) :: n :: l, w⟩ : DevHeap).live.Perm
      (SpObj.heldPtrs ⟨some n, some (n + 1), some (n + 2), some (n + 3), true⟩ ++
        (⟨n, l, w⟩ : DevHeap).live) := by
    simp only [SpObj.heldPtrs, Option.toList_some, List.cons_append, List.nil_append]
    have h1 : [n + 3, n + 2, n + 1, n].Perm [n, n + 1, n + 2, n + 3] := List.reverse_perm [n, n + 1, n + 2, n + 3]
    exact h1.append_right l
  have rb : Crashy.Runs (do crashPoints hostCalls; convertCrash hostVectors order)
      ⟨n + 4, (n + 3) :: (n + 2) :: (n + 1) :: n :: l, w⟩
      (List.replicate hostCalls ⟨n + 4, (n + 3) :: (n + 2) :: (n + 1) :: n :: l, w⟩ ++ cs2) o h2 :=
    (runs_points hostCalls _).bind r2
  obtain ⟨cs3, d3, t3⟩ := destroy_all hc (by simp) (List.rel_append (leaves_replicate hostCalls
    (Leaves.refl ⟨n + 4, (n + 3) :: (n + 2) :: (n + 1) :: n :: l, w⟩)) t2)
  have r3 := rb.orDestroy d3
  have hlen : left.length = [(⟨n, l, w⟩ : DevHeap)].length + cs3.length := by
    simp only [left, List.length_cons, List.length_nil, t3.length_eq]
    omega
  have heval : ∀ i, multiplyCrash hostCalls hostVectors order (some (left.length + i)) ⟨n, l, w⟩ =
      (moveAssignCrash o >>= fun c1 => orDestroy { c1 with descr := some (n + 3) } crashPoint >>= fun _ =>
        pure { c1 with descr := some (n + 3) }) (some i) h2 := by
    intro i
    unfold multiplyCrash
    rw [hlen, Nat.add_assoc, (runs_point ⟨n, l, w⟩).eval]
    have := (runs_acquireMat ⟨n, l, w⟩).1.eval (β := SpObj) (fun c => orDestroy c (do
      crashPoints hostCalls
      convertCrash hostVectors order) >>= fun o => moveAssignCrash o >>= fun c1 =>
      orDestroy { c1 with descr := c.descr } crashPoint >>= fun _ => pure { c1 with descr := c.descr })
      (cs3.length + i)
    simp only [List.length_nil, Nat.zero_add] at this
    rw [this, r3.eval]
  have l3 : DevHeap.Leaves ⟨n, l, w⟩ h2 7 := (Leaves.mk (h := ⟨n, l, w⟩) (k := 4) [n + 3, n + 2, n + 1, n] rfl
    (by simp) (by simp) rfl (by simp)).trans l2
  refine ⟨?_, ?_, ?_, ?_⟩
  · intro i k hi
    have hlt : i < (⟨n, l, w⟩ :: cs3).length := by
      by_contra hn
      have : left.length ≤ i := by rw [hlen]; simp only [List.length_cons, List.length_nil] at hn ⊢; omega
      rw [List.getElem?_eq_none this] at hi
      cases hi
    have t4 : List.Forall₂ (fun c k => DevHeap.Leaves ⟨n, l, w⟩ c k) (⟨n, l, w⟩ :: cs3) left :=
      .cons (Leaves.refl _) t3
    have hlt' : i < left.length := by rw [← t4.length_eq]; exact hlt
    have hx := (List.forall₂_iff_get.1 t4).2 i hlt hlt'
    rw [List.getElem?_eq_getElem hlt'] at hi
    cases hi
    refine ⟨(⟨n, l, w⟩ :: cs3)[i], ?_, hx⟩
    unfold multiplyCrash
    cases i with
    | zero => rfl
    | succ i =>
      have hi3 : i < cs3.length := by simpa using hlt
      have e1 := (runs_point ⟨n, l, w⟩).eval (β := SpObj) (fun _ => acquireMat true >>= fun c => orDestroy c (do
        crashPoints hostCalls
        convertCrash hostVectors order) >>= fun o => moveAssignCrash o >>= fun c1 =>
        orDestroy { c1 with descr := c.descr } crashPoint >>= fun _ => pure { c1 with descr := c.descr }) i
      have e2 := (runs_acquireMat ⟨n, l, w⟩).1.eval (β := SpObj) (fun c => orDestroy c (do
        crashPoints hostCalls
        convertCrash hostVectors order) >>= fun o => moveAssignCrash o >>= fun c1 =>
        orDestroy { c1 with descr := c.descr } crashPoint >>= fun _ => pure { c1 with descr := c.descr }) i
      simp only [List.length_nil, List.length_cons, Nat.zero_add] at e1 e2
      rw [Nat.add_comm 1 i] at e1
      refine e1.trans (e2.trans ?_)
      rw [crashy_bind, r3.1 i _ (List.getElem?_eq_getElem hi3)]
      rfl
  · intro i hi
    obtain ⟨m, c, e⟩ := moveAssign_twice hv e' hpc i hi
    refine ⟨m, c, ?_⟩
    rw [heval, crashy_bind, e]
  · have e := (moveAssign_done e' 0).1
    rw [Nat.add_zero] at e
    have hptr : h2.live.Perm (SpObj.heldPtrs { o with descr := some (n + 3) } ++ (n + 2) :: (n + 1) :: n :: l) := by
      refine p2.trans ?_
      have : (SpObj.heldPtrs { o with descr := some (n + 3) }) = o.heldPtrs ++ [n + 3] := by
        simp [SpObj.heldPtrs, od]
      rw [this, List.append_assoc]
      rfl
    obtain ⟨c3, e3, q3, x3⟩ := destroy_ptrs hptr
    refine ⟨c3, ?_, [n + 2, n + 1, n], ⟨q3, ?_⟩, by simp, rfl, ?_⟩
    · rw [heval, crashy_bind, e]
      simp only
      rw [crashy_bind, orDestroy]
      simp [crashPoint, destroyMat, e3]
    · simp only [List.mem_cons, List.not_mem_nil, or_false]
      rintro x (rfl | rfl | rfl) <;> omega
    · simp only
      omega
  · intro i
    have e := (moveAssign_done e' (1 + i)).1
    refine ⟨{ o with descr := some (n + 3) }, h2, ?_, l3⟩
    rw [heval, show 3 + i = 2 + (1 + i) by omega, crashy_bind, e]
    simp only
    rw [crashy_bind, orDestroy, Nat.add_comm 1 i]
    rfl

/-- Without exceptions the model follows the same allocations as the one of C68. -/
theorem C99_no_exception (descr : Bool) (h : DevHeap) :
    ∃ (a : EigPtrs) (h1 h2 : DevHeap), eigCrash descr none h = (.done a, none, h1) ∧
      eigMem descr h = .ok (a, h2) ∧ h1.live = h2.live ∧ h1.next = h2.next := by
  obtain ⟨b, hb, cs, r, -⟩ := eigCrash_runs descr h
  have e : ∃ w, eigMem descr h = .ok (⟨b + 7, b + 8, b + 2⟩,
      ⟨b + 9, (b + 8) :: (b + 7) :: (b + 2) :: b :: h.live, w⟩) := by
    subst hb
    cases descr <;>
    simp [eigMem, newArrays, DevHeap.alloc, DevHeap.allocWritten, DevHeap.write, DevHeap.free,
      DevHeap.use, sygvdMem, destroyObj, List.erase_cons, Nat.add_assoc]
  obtain ⟨w, e⟩ := e
  exact ⟨_, _, _, r.2.2, e, rfl, rfl⟩

/-! ### Examples -/

/-- The order in which the arguments are written. -/
example : ArgOrder [.val, .col, .rowPtr, .range, .domain] := List.Perm.refl _

/-- Another order: the index sets first, so that nothing is held when they cannot be copied. -/
example : ArgOrder [.domain, .range, .rowPtr, .col, .val] ∧
    convertLeft 2 [.domain, .range, .rowPtr, .col, .val] = [0, 0, 0, 0, 3, 3] ∧
    convertLeft 2 [.val, .col, .rowPtr, .range, .domain] = [0, 0, 3, 3, 3, 3] :=
  ⟨by unfold ArgOrder; decide, rfl, rfl⟩

/-- The table for two agglomerates and one eigenvector. -/
example : setupLeft 1 1 [.val, .col, .rowPtr, .range, .domain] 2 =
    [0, 0, 0, 0, 0, 5, 4, 4, 4, 4, 3, 3, 2, 2, 2, 2, 2, 7, 6, 6, 6, 6, 5, 5, 4, 4,
      4, 4, 4, 4, 7, 7, 7, 7, 4, 4, 4, 4, 4] := by decide

/-- Resources in use before the set-up. -/
def exInUse : DevHeap := ⟨3, [2, 0], [0, 2]⟩

/-- The map of the dofs of the second agglomerate cannot be computed. -/
example : ∃ c, setupCrash 1 1 [.val, .col, .rowPtr, .range, .domain] [true, false] (some 18) exInUse =
    (.thrown, none, c) ∧ exInUse.Leaves c 6 :=
  (C99_setup_exact 1 1 _ (List.Perm.refl _) [true, false] exInUse).1 18 6 (by decide)

/-- The evaluator throws in the second agglomerate. -/
example : ∃ c, setupCrash 1 1 [.val, .col, .rowPtr, .range, .domain] [true, false] (some 16) exInUse =
    (.thrown, none, c) ∧ exInUse.Leaves c 2 :=
  C99_evaluator_partial 1 1 _ (List.Perm.refl _) [true, false] exInUse 1 (by decide) true

/-- Ten failures. -/
example : ∃ h', attempts (setupCrash 1 1 [.val, .col, .rowPtr, .range, .domain] [true])
    (List.replicate 10 (some 6)) exInUse = .ok h' ∧ exInUse.Leaves h' 40 :=
  C99_unbounded_violated 1 1 _ (List.Perm.refl _) [true] (by simp) 10 exInUse

/-- A failure, then a success. -/
example : ∃ h', attempts (setupCrash 1 1 [.val, .col, .rowPtr, .range, .domain] [true]) [some 5, none] exInUse =
    .ok h' ∧ exInUse.Leaves h' 7 := by
  obtain ⟨h', e, l⟩ := C99_attempts 1 1 _ (List.Perm.refl _) [true] [some 5, none] exInUse
  exact ⟨h', e, by simpa [leftBy, setupLeft, aggLeft, convertLeft, argsLeft] using l⟩

/-- A double free. -/
example : ∃ n c, multiplyCrash 1 1 [.val, .col, .rowPtr, .range, .domain] (some 8) exInUse =
    (.ub "double free", n, c) :=
  (C99_multiply_violated 1 1 _ (List.Perm.refl _) exInUse (by simp [DevHeap.Sound, exInUse])).2.1 1 (by omega)

example : ∃ c, smootherCrash (some 2) exInUse = (.thrown, none, c) ∧ exInUse.Leaves c 4 :=
  (C99_smoother_violated.1 exInUse).1 2 4 rfl

example : ¬ (solverCrash 3 2 1).FailsCleanly := (C99_solver_violated 3 2 1).2 (by omega)

end Mfmg
