import Verif.Lemmas.ParamTree
import Verif.Props.Params
import Verif.Props.Construction

/-!
# The caller's parameters during the set-up (C81)
-/

set_option autoImplicit false

namespace Mfmg

variable {V : ℕ → Type}

theorem splitDots_flagPath : splitDots flagPath =
    [chars! "coarse", chars! "params", chars! "zero starting solution"] := by decide

/-- **C81**: `put` followed by reads, for any tree and any path: the entry has the new value and the
children it had; everything that is not on the way to it reads as before; an entry on the way keeps its
value, or is created with no value. -/
theorem C81_put_get (t : PForest) (path v : List Char) (hpath : splitDots path ≠ []) :
    ((t.put path v).getChild path = some (v, ((t.getChild path).getD ([], .nil)).2)) ∧
    (∀ q, ¬ splitDots q <+: splitDots path → (t.put path v).getChild q = t.getChild q) ∧
    (∀ q, splitDots q <+: splitDots path → splitDots q ≠ [] → splitDots q ≠ splitDots path →
      ((t.put path v).getChild q).map Prod.fst = some (((t.getChild q).map Prod.fst).getD [])) := by
  refine ⟨PForest.walk_putAt_same _ hpath _ _, fun q hq => PForest.walk_putAt_other _ _ hq _ _, ?_⟩
  rintro q ⟨rs, hrs⟩ hq hne
  have hr : rs ≠ [] := fun h => hne (by rw [← hrs, h, List.append_nil])
  have h := PForest.walk_putAt_prefix (splitDots q) rs hq hr v t
  rw [hrs] at h
  rw [PForest.getChild, PForest.put, h]
  cases hw : PForest.walk (splitDots q) t <;> simp [PForest.getChild, hw]

theorem splitDots_ne_nil (s : List Char) : splitDots s ≠ [] := by
  induction s with
  | nil => simp [splitDots]
  | cons c cs ih =>
    rw [splitDots]
    split_ifs
    · simp
    · cases h : splitDots cs <;> simp

/-- **C81**, settings.  What the caller writes under one of the names is what a hierarchy reads under that name, and
it changes none of the other settings. -/
theorem C81_settings (sc : Scan) (t : PForest) (v : List Char) :
    treeParams sc (t.put (chars! "is preconditioner") v) =
      { treeParams sc t with isPreconditioner := sc.bool v } ∧
    treeParams sc (t.put (chars! "smoother.n_smoothing_steps") v) =
      { treeParams sc t with nSmoothingSteps := sc.int v } ∧
    treeParams sc (t.put (chars! "max levels") v) = { treeParams sc t with maxLevels := sc.int v } ∧
    treeParams sc (t.put (chars! "fast_ap") v) = { treeParams sc t with fastAp := sc.bool v } := by
  have same : ∀ {α : Type} (conv : List Char → Option α) (p : List Char),
      (t.put p v).getWith conv p = conv v := by
    intro α conv p
    simp only [PForest.getWith, (C81_put_get t p v (splitDots_ne_nil _)).1]
  have other : ∀ {α : Type} (conv : List Char → Option α) (p q : List Char),
      ¬ splitDots q <+: splitDots p → (t.put p v).getWith conv q = t.getWith conv q := by
    intro α conv p q h
    simp only [PForest.getWith, (C81_put_get t p v (splitDots_ne_nil _)).2.1 q h]
  refine ⟨?_, ?_, ?_, ?_⟩ <;>
    · simp only [treeParams, same]
      congr 1 <;> exact other _ _ _ (by decide)

example (sc : Scan) : treeParams sc (PForest.nil.put (chars! "max levels") (chars! "3")) =
    { treeParams sc .nil with maxLevels := sc.int (chars! "3") } :=
  (C81_settings sc .nil (chars! "3")).2.2.1

/-- The tree after a construction, in terms of the model. -/
theorem construct_tree (debug timer : Bool) (sc : Scan) (mk : PForest → Helpers V) (t : PForest) :
    ((treeParams sc t).maxLevels.getD 2 = 1 ∧ (∃ a, (mk t).globalOperator = .ok a) →
      (construct debug timer sc mk t).2 =
        t.put flagPath (boolText ((treeParams sc t).isPreconditioner.getD true))) ∧
    (¬ ((treeParams sc t).maxLevels.getD 2 = 1 ∧ ∃ a, (mk t).globalOperator = .ok a) →
      (construct debug timer sc mk t).2 = t) := by
  constructor
  · rintro ⟨h1, a, ha⟩
    exact buildHierarchy_one debug timer _ (treeHelpers mk t) h1 a ha t
  · intro h
    exact foldl_noPut _ (buildHierarchy_other debug timer _ (treeHelpers mk t)
      fun h1 a ha => h ⟨h1, a, ha⟩) t

/-- **C81**: the tree after the construction, whatever its outcome: one entry is written if one level
is asked for and the fine operator was obtained, otherwise the tree is the caller's. -/
theorem C81_tree (debug timer : Bool) (sc : Scan) (mk : PForest → Helpers V) (t : PForest) :
    ((treeParams sc t).maxLevels.getD 2 = 1 ∧ (∃ a, (mk t).globalOperator = .ok a) →
      (construct debug timer sc mk t).2 = t.put (chars! "coarse.params.zero starting solution")
        (if (treeParams sc t).isPreconditioner.getD true then chars! "true" else chars! "false")) ∧
    (¬ ((treeParams sc t).maxLevels.getD 2 = 1 ∧ ∃ a, (mk t).globalOperator = .ok a) →
      (construct debug timer sc mk t).2 = t) :=
  construct_tree debug timer sc mk t

/-- A construction that succeeds with one level. -/
theorem construct_one (debug timer : Bool) (sc : Scan) (mk : PForest → Helpers V) (t : PForest)
    (H : Hierarchy V) (hH : (construct debug timer sc mk t).1.result = .ok H) :
    ((treeParams sc t).maxLevels.getD 2 = 1 ↔ H.numLevels = 1) ∧
    H.isPreconditioner = (treeParams sc t).isPreconditioner.getD true ∧
    ∃ a, (mk t).globalOperator = .ok a := by
  obtain ⟨h, p, a, L, e1, e2, hpos, ha, hL, rfl⟩ := (build_ok _ _ _ _ _).mp hH
  obtain rfl := Option.some.inj e2
  obtain rfl := Outcome.ok.inj e1
  refine ⟨?_, rfl, a, ha⟩
  simp only
  omega

/-- **C81**, what holds of "a construction leaves the caller's parameters as they were"
(`ParametersKept`): with two or more levels (or if the construction fails before that point) the tree is
the same, and with one level every entry reads as before that is not `coarse`, `coarse.params` or
`coarse.params.zero starting solution`.  Missing: these three, see `C81_kept_violated`. -/
theorem C81_kept_partial (debug timer : Bool) (sc : Scan) (mk : PForest → Helpers V) (t : PForest) :
    ((treeParams sc t).maxLevels.getD 2 ≠ 1 → (construct debug timer sc mk t).2 = t) ∧
    ∀ q, ¬ splitDots q <+: [chars! "coarse", chars! "params", chars! "zero starting solution"] →
      (construct debug timer sc mk t).2.getChild q = t.getChild q := by
  constructor
  · exact fun h => (construct_tree debug timer sc mk t).2 (fun h' => h h'.1)
  · intro q hq
    rw [← splitDots_flagPath] at hq
    by_cases h : (treeParams sc t).maxLevels.getD 2 = 1 ∧ ∃ a, (mk t).globalOperator = .ok a
    · rw [(construct_tree debug timer sc mk t).1 h]
      exact (C81_put_get t flagPath _ (splitDots_ne_nil _)).2.1 q hq
    · rw [(construct_tree debug timer sc mk t).2 h]

/-- **C81 is violated**: after every successful construction with one level the entry
`coarse.params.zero starting solution` is the flag of the hierarchy, whatever the caller had put there;
so a caller who had something else there, or nothing, finds the parameters changed. -/
theorem C81_kept_violated (debug timer : Bool) (sc : Scan) (mk : PForest → Helpers V) (t : PForest)
    (H : Hierarchy V) (hH : (construct debug timer sc mk t).1.result = .ok H)
    (h1 : H.numLevels = 1) :
    ((construct debug timer sc mk t).2.getChild flagPath).map Prod.fst
      = some (boolText H.isPreconditioner) ∧
    ((t.getChild flagPath).map Prod.fst ≠ some (boolText H.isPreconditioner) →
      ¬ ParametersKept debug timer sc mk) := by
  obtain ⟨hn, hp, ha⟩ := construct_one debug timer sc mk t H hH
  have key : ((construct debug timer sc mk t).2.getChild flagPath).map Prod.fst
      = some (boolText H.isPreconditioner) := by
    rw [(construct_tree debug timer sc mk t).1 ⟨hn.2 h1, ha⟩, hp,
      (C81_put_get t flagPath _ (splitDots_ne_nil _)).1]
    rfl
  refine ⟨key, fun hne hkept => hne ?_⟩
  rw [← hkept t H hH flagPath]
  exact key

/-- **C81**: building again from the tree the first construction left gives the same hierarchy and
leaves the same tree, provided the fine operator does not depend on the parameters. -/
theorem C81_rebuild (debug timer : Bool) (sc : Scan) (mk : PForest → Helpers V)
    (hop : ∀ t t', (mk t).globalOperator = (mk t').globalOperator) (t : PForest) :
    construct debug timer sc mk (construct debug timer sc mk t).2 = construct debug timer sc mk t := by
  by_cases h : (treeParams sc t).maxLevels.getD 2 = 1 ∧ ∃ a, (mk t).globalOperator = .ok a
  · have ht := (construct_tree debug timer sc mk t).1 h
    set v := boolText ((treeParams sc t).isPreconditioner.getD true) with hv
    set t' := t.put flagPath v with ht'
    have hoth : ∀ q, ¬ splitDots q <+: splitDots flagPath → t'.getChild q = t.getChild q :=
      (C81_put_get t flagPath v (splitDots_ne_nil _)).2.1
    have e1 : (treeParams sc t').isPreconditioner = (treeParams sc t).isPreconditioner := by
      simp only [treeParams, PForest.getWith]
      rw [hoth _ (by decide)]
    have e2 : (treeParams sc t').nSmoothingSteps = (treeParams sc t).nSmoothingSteps := by
      simp only [treeParams, PForest.getWith]
      rw [hoth _ (by decide)]
    have e3 : (treeParams sc t').maxLevels = (treeParams sc t).maxLevels := by
      simp only [treeParams, PForest.getWith]
      rw [hoth _ (by decide)]
    have e4 : (treeParams sc t').fastAp = (treeParams sc t).fastAp := by
      simp only [treeParams, PForest.getWith]
      rw [hoth _ (by decide)]
    have h' : (treeParams sc t').maxLevels.getD 2 = 1 ∧ ∃ a, (mk t').globalOperator = .ok a := by
      rw [e3, hop t' t]; exact h
    have ht2 := (construct_tree debug timer sc mk t').1 h'
    have hidem : t'.put flagPath v = t' := PForest.putAt_putAt _ _ _ _
    rw [e1, ← hv, hidem] at ht2
    rw [ht]
    refine Prod.ext ?_ (by rw [ht2, ht])
    show buildHierarchy debug timer (some (treeParams sc t')) (.ok (treeHelpers mk t'))
      = buildHierarchy debug timer (some (treeParams sc t)) (.ok (treeHelpers mk t))
    have hg : (treeHelpers mk t').globalOperator = (treeHelpers mk t).globalOperator := hop t' t
    unfold buildHierarchy
    simp only [Run.result_lift_ok_bind, Outcome.deref_some, e1, e2, e3, hg, h.1]
    have hloop : ∀ L, buildLoop (treeHelpers mk t') (treeParams sc t') timer (Int.toNat 1) 0 L
        = buildLoop (treeHelpers mk t) (treeParams sc t) timer (Int.toNat 1) 0 L := by
      intro L
      rw [buildLoop, buildLoop]
      simp only [Int.toNat_one, Nat.sub_self, if_true, Nat.zero_lt_one, e1, e2, e3, e4,
        Run.bind_assoc_eq, Run.pure_bind', treeHelpers, ← hv, hidem, ← ht']
    simp only [hloop]
  · rw [(construct_tree debug timer sc mk t).2 h]

/-- The tree with the flag only, as read by ML. -/
theorem flag_plist (rd : Readers) (b : Bool) (hi : rd.int (boolText b) = false)
    (hd : rd.double (boolText b) = false) (hb : rd.bool (boolText b) = true) :
    ptree2plist rd (.cons (chars! "zero starting solution") (boolText b) .nil .nil)
      = some (.param (chars! "zero starting solution") (chars! "bool") (boolText b) .nil) := by
  have hplain : PlainForest (.cons (chars! "zero starting solution") (boolText b) .nil .nil) := by
    refine ⟨?_, fun _ => ?_, trivial, trivial⟩
    · unfold PlainText PlainChar; decide
    · cases b <;> unfold PlainText PlainChar <;> decide
  obtain ⟨L, h1, h2⟩ := C36_round_trip rd _ hplain
  rw [h1]
  exact congrArg some (C36_unique _ _ _ _ h2 (.leaf (.bool hi hd hb) .nil))

/-- **C81 is violated**, the effect on ML (parameter `coarse.type` equal to `ml`): a caller who gives no
parameters for ML gets ML's defaults from the tree as it was; after a successful construction with one
level ML is given one single parameter and no default.  This tree is also the one the solver of that
hierarchy itself is built from, since the entry is written before. -/
theorem C81_ml_violated (debug timer : Bool) (sc : Scan) (mk : PForest → Helpers V) (t : PForest)
    (H : Hierarchy V) (hH : (construct debug timer sc mk t).1.result = .ok H) (h1 : H.numLevels = 1)
    (hno : t.getChild (chars! "coarse.params") = none) (rd : Readers) (defaults : PList)
    (hi : rd.int (boolText H.isPreconditioner) = false)
    (hd : rd.double (boolText H.isPreconditioner) = false)
    (hb : rd.bool (boolText H.isPreconditioner) = true) :
    coarseMl rd defaults t = some defaults ∧
    coarseMl rd defaults (construct debug timer sc mk t).2 = some (.param
      (chars! "zero starting solution") (chars! "bool") (boolText H.isPreconditioner) .nil) ∧
    ∃ a s, (mk t).globalOperator = .ok a ∧ (H.level 0).solver = some s ∧
      (mk (construct debug timer sc mk t).2).buildCoarseSolver 0 a
        { treeParams sc t with zeroStartingSolution := some H.isPreconditioner } = .ok s := by
  obtain ⟨hn, hp, ha⟩ := construct_one debug timer sc mk t H hH
  have ht := (construct_tree debug timer sc mk t).1 ⟨hn.2 h1, ha⟩
  refine ⟨by rw [coarseMl, hno]; rfl, ?_, ?_⟩
  · rw [coarseMl, ht, ← hp]
    have h := PForest.walk_putAt_prefix (splitDots (chars! "coarse.params"))
      [chars! "zero starting solution"] (splitDots_ne_nil _) (by simp) (boolText H.isPreconditioner) t
    rw [show splitDots (chars! "coarse.params") ++ [chars! "zero starting solution"]
      = splitDots flagPath by decide, show PForest.walk (splitDots (chars! "coarse.params")) t = none
      from hno] at h
    rw [PForest.getChild, PForest.put, h]
    exact flag_plist rd _ hi hd hb
  · obtain ⟨h, p, a, L, e1, e2, hpos, ha', hL, rfl⟩ := (build_ok _ _ _ _ _).mp hH
    obtain rfl := Option.some.inj e2
    obtain rfl := Outcome.ok.inj e1
    rw [show ((treeParams sc t).maxLevels.getD 2).toNat = 1 from h1] at hL
    obtain ⟨a', s, ha1, hs, rfl⟩ := (buildLoop_last _ _ timer 1 0 _ rfl L).mp hL
    have haa : a' = a := by simpa [initLevels, Levels.set, eq_comm] using ha1
    subst haa
    refine ⟨a', s, ha', by simp [Levels.set], ?_⟩
    rw [ht]
    simpa [coarseParams, treeHelpers] using hs

/-- **C81 is violated**, across hierarchies: the caller builds a hierarchy with one level, then writes
any number of levels into the same tree for a second one.  For the second ML has one parameter, while a
tree without the first construction would have given ML's defaults. -/
theorem C81_history_violated (debug timer : Bool) (sc : Scan) (mk : PForest → Helpers V) (t : PForest)
    (H : Hierarchy V) (hH : (construct debug timer sc mk t).1.result = .ok H) (h1 : H.numLevels = 1)
    (hno : t.getChild (chars! "coarse.params") = none) (rd : Readers) (defaults : PList)
    (hi : rd.int (boolText H.isPreconditioner) = false)
    (hd : rd.double (boolText H.isPreconditioner) = false)
    (hb : rd.bool (boolText H.isPreconditioner) = true)
    (levels : List Char) :
    coarseMl rd defaults (t.put (chars! "max levels") levels) = some defaults ∧
    coarseMl rd defaults ((construct debug timer sc mk t).2.put (chars! "max levels") levels) =
      some (.param (chars! "zero starting solution") (chars! "bool") (boolText H.isPreconditioner)
        .nil) := by
  obtain ⟨h2, h3, _⟩ := C81_ml_violated debug timer sc mk t H hH h1 hno rd defaults hi hd hb
  have hoth : ∀ t' : PForest, (t'.put (chars! "max levels") levels).getChild (chars! "coarse.params")
      = t'.getChild (chars! "coarse.params") := fun t' =>
    (C81_put_get t' (chars! "max levels") levels (splitDots_ne_nil _)).2.1 _ (by decide)
  exact ⟨by rw [coarseMl, hoth]; exact h2, by rw [coarseMl, hoth]; exact h3⟩

/-! ### Concrete cases -/

/-- Reads `1`, `2`, `3`, `true` and `false`. -/
def exScan : Scan where
  int v := if v = chars! "1" then some 1 else if v = chars! "2" then some 2
    else if v = chars! "3" then some 3 else none
  bool v := if v = chars! "true" then some true else if v = chars! "false" then some false else none

/-- One level with ML, not as a preconditioner; no parameters for ML. -/
def exMlTree : PForest :=
  .cons (chars! "max levels") (chars! "1") .nil
    (.cons (chars! "is preconditioner") (chars! "false") .nil
      (.cons (chars! "coarse") [] (.cons (chars! "type") (chars! "ml") .nil .nil) .nil))

theorem exMlTree_builds : ∃ H, (construct true false exScan (fun _ => exHelpers) exMlTree).1.result
    = .ok H ∧ H.numLevels = 1 ∧ H.isPreconditioner = false := by
  obtain ⟨H, hH⟩ := C08_construction_succeeds true false (treeParams exScan exMlTree)
    (treeHelpers (fun _ => exHelpers) exMlTree) (by decide) ⟨_, rfl⟩ (fun _ _ => ⟨_, rfl⟩)
    (fun _ => ⟨_, rfl⟩) (fun _ _ _ => ⟨_, rfl⟩) (fun _ _ _ => ⟨_, rfl⟩) (fun _ _ _ => ⟨_, rfl⟩)
  obtain ⟨h1, h2, _⟩ := construct_one true false exScan (fun _ => exHelpers) exMlTree H hH
  exact ⟨H, hH, h1.1 (by decide), h2.trans (by decide)⟩

/-- Three of the defaults of ML. -/
def exMlDefaults : PList :=
  .param (chars! "max levels") (chars! "int") (chars! "10")
    (.param (chars! "aggregation: type") (chars! "string") (chars! "Uncoupled")
      (.param (chars! "smoother: type") (chars! "string") (chars! "Chebyshev") .nil))

/-- The parameters of the caller before and after. -/
example : let after := (construct true false exScan (fun _ => exHelpers) exMlTree).2
    coarseMl exReaders exMlDefaults exMlTree = some exMlDefaults ∧
    coarseMl exReaders exMlDefaults after = some (.param (chars! "zero starting solution") (chars! "bool")
      (chars! "false") .nil) ∧
    ¬ ParametersKept true false exScan (fun _ => exHelpers) ∧
    after.getChild (chars! "coarse.type") = some (chars! "ml", .nil) := by
  intro after
  obtain ⟨H, hH, h1, hp⟩ := exMlTree_builds
  have hml := C81_ml_violated true false exScan _ exMlTree H hH h1 (by decide) exReaders exMlDefaults
    (by rw [hp]; decide) (by rw [hp]; decide) (by rw [hp]; decide)
  refine ⟨hml.1, hml.2.1.trans (by rw [hp]; rfl), ?_, ?_⟩
  · exact (C81_kept_violated true false exScan _ exMlTree H hH h1).2 (by rw [hp]; decide)
  · exact ((C81_kept_partial true false exScan (fun _ => exHelpers) exMlTree).2 _ (by decide)).trans
      (by decide)

/-- A second hierarchy with three levels from the same tree. -/
example : let after := (construct true false exScan (fun _ => exHelpers) exMlTree).2
    (treeParams exScan (after.put (chars! "max levels") (chars! "3"))).maxLevels = some 3 ∧
    coarseMl exReaders .nil (exMlTree.put (chars! "max levels") (chars! "3")) ≠
      coarseMl exReaders .nil (after.put (chars! "max levels") (chars! "3")) := by
  intro after
  obtain ⟨H, hH, h1, hp⟩ := exMlTree_builds
  have h := C81_history_violated true false exScan _ exMlTree H hH h1 (by decide) exReaders .nil
    (by rw [hp]; decide) (by rw [hp]; decide) (by rw [hp]; decide) (chars! "3")
  refine ⟨?_, by rw [h.1, h.2]; simp⟩
  simp only [treeParams, PForest.getWith]
  rw [(C81_put_get after (chars! "max levels") (chars! "3") (splitDots_ne_nil _)).1]
  rfl

/-- Rebuilding from the tree left behind. -/
example : construct true false exScan (fun _ => exHelpers)
    (construct true false exScan (fun _ => exHelpers) exMlTree).2
    = construct true false exScan (fun _ => exHelpers) exMlTree :=
  C81_rebuild true false exScan _ (fun _ _ => rfl) exMlTree

/-- The default of two levels: the tree stays. -/
example : (construct true false exScan (fun _ => exHelpers)
    (.cons (chars! "fast_ap") (chars! "false") .nil .nil)).2
    = .cons (chars! "fast_ap") (chars! "false") .nil .nil :=
  (C81_kept_partial true false exScan _ _).1 (by decide)

end Mfmg
