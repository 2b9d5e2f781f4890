import Verif.Model.Driver
import Verif.Props.ParamTree

/-!
# What the program hierarchy_driver runs (C96)
-/

set_option autoImplicit false

namespace Mfmg

namespace PForest

/-- A node whose path begins with another key than the one replaced. -/
theorem walk_putChild_other (k q : List Char) (qs : List (List Char)) (n : List Char × PForest)
    (hq : q ≠ k) (t : PForest) : walk (q :: qs) (t.putChildAt [k] n) = walk (q :: qs) t := by
  by_cases h : qs = []
  · subst h
    exact find_modify_other _ _ _ _ hq
  · rw [walk_cons q h, walk_cons q h, putChildAt, find_modify_other _ _ _ _ hq]

/-- Everything at and below the key replaced. -/
theorem walk_putChild_same (k : List Char) (n : List Char × PForest) (t : PForest) :
    (t.putChildAt [k] n).find k = some n := by
  rw [putChildAt, find_modify_same]

/-- The entries at the top level of a tree with their content, in order. -/
def items : PForest → List (List Char × List Char × PForest)
  | .nil => []
  | .cons key data sub rest => (key, data, sub) :: rest.items

end PForest

theorem splitDots_plain (s : List Char) (h : '.' ∉ s) : splitDots s = [s] := by
  induction s with
  | nil => rfl
  | cons c cs ih =>
    simp only [List.mem_cons, not_or] at h
    rw [splitDots, if_neg (Ne.symm h.1), ih h.2]

/-- The paths of the entries `main` writes; the last one only if the problem is matrix-free. -/
def setByDriver (matrixFree : Bool) : List (List Char) :=
  [chars! "fast_ap", chars! "eigensolver.type", chars! "eigensolver.tolerance", chars! "solver.tolerance"] ++
    if matrixFree then [chars! "smoother.type"] else []

/-- What `main` makes of the tree, given the part that uncovers `hidden`. -/
theorem driverMain_problem (debug : Bool) (sc : Scan) (unsigned : List Char → Option ℕ) (o : DriverOptions)
    (file : PForest) (mf : Bool) (dim : ℕ) (degree : ℤ) (t : PForest)
    (h : driverMain debug sc unsigned o file = .ok (.problem mf dim degree t)) :
    o.help = false ∧ mf = o.matrixFree.getD true ∧ ∃ u, uncover sc mf file = .ok u ∧
      degree = asInt ((u.getWith unsigned (chars! "laplace.fe_degree")).getD 4) ∧
      (mf = true → 1 ≤ degree ∧ degree ≤ 10) ∧
      (debug = true → o.dim.getD 2 = dim) ∧ dim = (if o.dim.getD 2 = 2 then 2 else 3) ∧
      t = if mf then (driverPuts o u).put (chars! "smoother.type") (chars! "Chebyshev") else driverPuts o u := by
  unfold driverMain at h
  by_cases hh : o.help = true
  · simp [hh] at h
  · rw [if_neg hh] at h
    obtain ⟨_, h1, h⟩ := Outcome.bind_eq_ok.1 h
    obtain ⟨u, h2, h⟩ := Outcome.bind_eq_ok.1 h
    have hd : debug = true → o.dim.getD 2 = 2 ∨ o.dim.getD 2 = 3 := by
      intro e
      subst e
      by_contra hc
      simp [Outcome.assert, hc] at h1
    have hd' : debug = true → o.dim.getD 2 = ((if o.dim.getD 2 = 2 then 2 else 3 : ℕ) : ℤ) := by
      intro e
      rcases hd e with e | e <;> simp [e]
    cases hm : o.matrixFree.getD true with
    | true =>
      simp only [hm, if_true] at h h2
      by_cases hdeg : 1 ≤ asInt ((u.getWith unsigned (chars! "laplace.fe_degree")).getD 4) ∧
          asInt ((u.getWith unsigned (chars! "laplace.fe_degree")).getD 4) ≤ 10
      · rw [if_pos hdeg] at h
        simp only [Outcome.pure_eq, Outcome.ok.injEq, DriverRun.problem.injEq] at h
        obtain ⟨rfl, rfl, rfl, rfl⟩ := h
        exact ⟨by simpa using hh, rfl, u, h2, rfl, fun _ => hdeg, hd', rfl, rfl⟩
      · rw [if_neg hdeg] at h
        obtain ⟨_, _, h⟩ := Outcome.bind_eq_ok.1 h
        simp at h
    | false =>
      simp only [hm, Bool.false_eq_true, if_false] at h h2
      simp only [Outcome.pure_eq, Outcome.ok.injEq, DriverRun.problem.injEq] at h
      obtain ⟨rfl, rfl, rfl, rfl⟩ := h
      exact ⟨by simpa using hh, rfl, u, h2, rfl, by simp, hd', rfl, by simp⟩

theorem getChild_put_other (t : PForest) (path v q : List Char) (h : ¬ splitDots q <+: splitDots path) :
    (t.put path v).getChild q = t.getChild q :=
  (C81_put_get t path v (splitDots_ne_nil _)).2.1 q h

theorem getChild_put_same (t : PForest) (path v : List Char) :
    ((t.put path v).getChild path).map Prod.fst = some v := by
  rw [(C81_put_get t path v (splitDots_ne_nil _)).1]
  rfl

theorem driverPuts_other (o : DriverOptions) (mf : Bool) (u : PForest) (q : List Char)
    (hq : ∀ p ∈ setByDriver mf, ¬ splitDots q <+: splitDots p) :
    (if mf then (driverPuts o u).put (chars! "smoother.type") (chars! "Chebyshev")
      else driverPuts o u).getChild q = u.getChild q := by
  have h : (driverPuts o u).getChild q = u.getChild q := by
    rw [driverPuts, getChild_put_other _ _ _ _ (hq _ (by simp [setByDriver])),
      getChild_put_other _ _ _ _ (hq _ (by simp [setByDriver])),
      getChild_put_other _ _ _ _ (hq _ (by simp [setByDriver])),
      getChild_put_other _ _ _ _ (hq _ (by simp [setByDriver]))]
  cases mf with
  | false => simpa using h
  | true =>
    rw [if_pos rfl, getChild_put_other _ _ _ _ (hq _ (by simp [setByDriver])), h]

/-- **C96**, what holds of "the problem is run with the parameters of the file", unless the parameters in `hidden`
are asked for: every entry that is not on the way to one the program sets.
Missing: the entries the program sets itself, see `C96_parameters_violated`. -/
theorem C96_parameters_partial (debug : Bool) (sc : Scan) (unsigned : List Char → Option ℕ) (o : DriverOptions)
    (file : PForest) (mf : Bool) (dim : ℕ) (degree : ℤ) (t : PForest)
    (h : driverMain debug sc unsigned o file = .ok (.problem mf dim degree t))
    (hraw : mf = true ∨ (file.getWith sc.bool (chars! "use_raw_ml")).getD false = false)
    (q : List Char) (hq : ∀ p ∈ setByDriver mf, ¬ splitDots q <+: splitDots p) :
    t.getChild q = file.getChild q := by
  obtain ⟨_, _, u, hu, _, _, _, _, rfl⟩ := driverMain_problem debug sc unsigned o file mf dim degree t h
  rw [driverPuts_other o mf u q hq]
  have : uncover sc mf file = .ok file := by
    rw [uncover, if_neg]
    rcases hraw with e | e <;> simp [e]
  rw [this] at hu
  cases hu
  rfl

/-- **C96 is violated**: the eigensolver, its tolerance and the option `fast_ap` are never those of the file, nor
is the tolerance of the solver (which is that of the command line, or the default of the program); nor is the
smoother if the problem is matrix-free. -/
theorem C96_parameters_violated (debug : Bool) (sc : Scan) (unsigned : List Char → Option ℕ) (o : DriverOptions)
    (file : PForest) (mf : Bool) (dim : ℕ) (degree : ℤ) (t : PForest)
    (h : driverMain debug sc unsigned o file = .ok (.problem mf dim degree t)) :
    (t.getChild (chars! "eigensolver.type")).map Prod.fst = some (chars! "anasazi") ∧
    (t.getChild (chars! "eigensolver.tolerance")).map Prod.fst = some (chars! "0.001") ∧
    (t.getChild (chars! "fast_ap")).map Prod.fst = some (chars! "true") ∧
    (t.getChild (chars! "solver.tolerance")).map Prod.fst = some (o.tolerance.getD (chars! "1e-06")) ∧
    (mf = true → (t.getChild (chars! "smoother.type")).map Prod.fst = some (chars! "Chebyshev")) := by
  obtain ⟨_, _, u, -, _, _, _, _, rfl⟩ := driverMain_problem debug sc unsigned o file mf dim degree t h
  have key : ∀ q v, ¬ splitDots q <+: splitDots (chars! "smoother.type") →
      ((driverPuts o u).getChild q).map Prod.fst = some v →
      ((if mf then (driverPuts o u).put (chars! "smoother.type") (chars! "Chebyshev")
        else driverPuts o u).getChild q).map Prod.fst = some v := by
    intro q v hq hv
    cases mf with
    | false => simpa using hv
    | true => rw [if_pos rfl, getChild_put_other _ _ _ _ hq, hv]
  refine ⟨key _ _ (by decide) ?_, key _ _ (by decide) ?_, key _ _ (by decide) ?_, key _ _ (by decide) ?_, ?_⟩
  · rw [driverPuts, getChild_put_other _ _ _ _ (by decide), getChild_put_other _ _ _ _ (by decide),
      getChild_put_same]
  · rw [driverPuts, getChild_put_other _ _ _ _ (by decide), getChild_put_same]
  · rw [driverPuts, getChild_put_other _ _ _ _ (by decide), getChild_put_other _ _ _ _ (by decide),
      getChild_put_other _ _ _ _ (by decide), getChild_put_same]
    rfl
  · rw [driverPuts, getChild_put_same]
  · rintro rfl
    rw [if_pos rfl, getChild_put_same]

theorem uncoverLoop_plain (hs : PForest) (t : PForest)
    (hplain : ∀ e ∈ hs.items, '.' ∉ e.1 ∧ e.1 ≠ chars! "hidden")
    (hdist : (hs.items.map Prod.fst).Nodup) :
    ∃ u, uncoverLoop hs t = .ok u ∧ (∀ e ∈ hs.items, u.find e.1 = some e.2) ∧
      ∀ q qs, q ∉ hs.items.map Prod.fst → u.walk (q :: qs) = t.walk (q :: qs) := by
  induction hs generalizing t with
  | nil => exact ⟨t, rfl, by simp [PForest.items], fun _ _ _ => rfl⟩
  | cons key data sub rest _ ih =>
    simp only [PForest.items, List.mem_cons, forall_eq_or_imp, List.map_cons, List.nodup_cons] at hplain hdist ⊢
    obtain ⟨u, h1, h2, h3⟩ := ih (t.putChildAt [key] (data, sub)) hplain.2 hdist.2
    refine ⟨u, ?_, ⟨?_, h2⟩, ?_⟩
    · rw [uncoverLoop, splitDots_plain _ hplain.1.1, if_neg (by simpa using hplain.1.2), h1]
    · have := h3 key [] hdist.1
      simp only [PForest.walk_single] at this
      rw [this, PForest.walk_putChild_same]
    · intro q qs hq
      simp only [not_or] at hq
      rw [h3 q qs hq.2, PForest.walk_putChild_other _ _ _ _ hq.1]

/-- **C96**, if the parameters in `hidden` are asked for: the entries there, with everything below them, take the
place of the entries of the same name, and everything else is as in the file (but for what the program sets).
The names in `hidden` contain no dot, are different and not `hidden`. -/
theorem C96_hidden_partial (debug : Bool) (sc : Scan) (unsigned : List Char → Option ℕ) (o : DriverOptions)
    (file : PForest) (hmf : o.matrixFree = some false) (hhelp : o.help = false)
    (hdim : o.dim.getD 2 = 2 ∨ o.dim.getD 2 = 3)
    (hraw : file.getWith sc.bool (chars! "use_raw_ml") = some true) (data : List Char) (hidden : PForest)
    (hhid : file.getChild (chars! "hidden") = some (data, hidden))
    (hplain : ∀ e ∈ hidden.items, '.' ∉ e.1 ∧ e.1 ≠ chars! "hidden")
    (hdist : (hidden.items.map Prod.fst).Nodup) :
    ∃ dim degree t, driverMain debug sc unsigned o file = .ok (.problem false dim degree t) ∧
      (∀ e ∈ hidden.items, (∀ p ∈ setByDriver false, ¬ [e.1] <+: splitDots p) → t.find e.1 = some e.2) ∧
      ∀ q, (splitDots q).headD [] ∉ hidden.items.map Prod.fst →
        (∀ p ∈ setByDriver false, ¬ splitDots q <+: splitDots p) → t.getChild q = file.getChild q := by
  obtain ⟨u, h1, h2, h3⟩ := uncoverLoop_plain hidden file hplain hdist
  have hu : uncover sc false file = .ok u := by
    rw [uncover, if_pos (by simp [hraw]), hhid]
    exact h1
  have hass : Outcome.assert debug (decide (o.dim.getD 2 = 2 ∨ o.dim.getD 2 = 3)) = .ok () := by
    simp [Outcome.assert, hdim]
  refine ⟨if o.dim.getD 2 = 2 then 2 else 3,
    asInt ((u.getWith unsigned (chars! "laplace.fe_degree")).getD 4), driverPuts o u, ?_, ?_, ?_⟩
  · simp only [driverMain, hhelp, Bool.false_eq_true, if_false, hass, Outcome.ok_bind, hmf, Option.getD_some, hu]
    rfl
  · intro e he hp
    have := driverPuts_other o false u e.1 (by
      rw [splitDots_plain _ (hplain e he).1]
      exact hp)
    simp only [Bool.false_eq_true, if_false, PForest.getChild, splitDots_plain _ (hplain e he).1,
      PForest.walk_single] at this
    rw [this, h2 e he]
  · intro q hq hp
    have := driverPuts_other o false u q hp
    simp only [Bool.false_eq_true, if_false] at this
    rw [this, PForest.getChild, PForest.getChild]
    cases hs : splitDots q with
    | nil => rfl
    | cons k ks =>
      rw [hs] at hq
      exact h3 k ks hq

theorem uncoverLoop_hidden (hs t : PForest) (e : List Char × List Char × PForest) (he : e ∈ hs.items)
    (hk : (splitDots e.1).head? = some (chars! "hidden")) : ∃ w, uncoverLoop hs t = .ub w := by
  induction hs generalizing t with
  | nil => simp [PForest.items] at he
  | cons key data sub rest _ ih =>
    rw [uncoverLoop]
    split_ifs with hc
    · exact ⟨_, rfl⟩
    · simp only [PForest.items, List.mem_cons] at he
      rcases he with rfl | he
      · exact absurd hk hc
      · exact ih _ he

/-- **C96 is violated**: an entry called `hidden` among those of `hidden` is undefined behaviour: the tree
the loop runs over is replaced. -/
theorem C96_hidden_violated (debug : Bool) (sc : Scan) (unsigned : List Char → Option ℕ) (o : DriverOptions)
    (file : PForest) (hmf : o.matrixFree = some false) (hhelp : o.help = false)
    (hdim : o.dim.getD 2 = 2 ∨ o.dim.getD 2 = 3)
    (hraw : file.getWith sc.bool (chars! "use_raw_ml") = some true) (data : List Char) (hidden : PForest)
    (hhid : file.getChild (chars! "hidden") = some (data, hidden)) (sub : List Char × PForest)
    (he : (chars! "hidden", sub) ∈ hidden.items) :
    ∃ w, driverMain debug sc unsigned o file = .ub w := by
  obtain ⟨w, hw⟩ := uncoverLoop_hidden hidden file _ he
    (show (splitDots (chars! "hidden")).head? = some (chars! "hidden") by decide)
  have hu : uncover sc false file = .ub w := by
    rw [uncover, if_pos (by simp [hraw]), hhid]
    exact hw
  have hass : Outcome.assert debug (decide (o.dim.getD 2 = 2 ∨ o.dim.getD 2 = 3)) = .ok () := by
    simp [Outcome.assert, hdim]
  refine ⟨w, ?_⟩
  simp only [driverMain, hhelp, Bool.false_eq_true, if_false, hass, Outcome.ok_bind, hmf, Option.getD_some, hu,
    Outcome.ub_bind]

/-- **C96**, what holds of "the problem asked for is run or an error is reported": in debug builds, the program
either runs the problem with the dimension and the degree asked for, or does not end normally.
Missing: release builds, see `C96_problem_violated`. -/
theorem C96_problem_partial (sc : Scan) (unsigned : List Char → Option ℕ) (o : DriverOptions) (file : PForest)
    (r : DriverRun) (h : driverMain true sc unsigned o file = .ok r) (hhelp : o.help = false) :
    ∃ dim degree t, r = .problem (o.matrixFree.getD true) dim degree t ∧ o.dim.getD 2 = dim ∧
      (dim = 2 ∨ dim = 3) ∧
      (o.matrixFree.getD true = true →
        degree = asInt ((file.getWith unsigned (chars! "laplace.fe_degree")).getD 4) ∧
        1 ≤ degree ∧ degree ≤ 10) := by
  cases r with
  | usage =>
    exfalso
    unfold driverMain at h
    rw [if_neg (by simp [hhelp])] at h
    obtain ⟨_, -, h⟩ := Outcome.bind_eq_ok.1 h
    obtain ⟨u, -, h⟩ := Outcome.bind_eq_ok.1 h
    cases hm : o.matrixFree.getD true <;> simp only [hm, if_true, Bool.false_eq_true, if_false] at h
    · simp at h
    · by_cases hdeg : 1 ≤ asInt ((u.getWith unsigned (chars! "laplace.fe_degree")).getD 4) ∧
          asInt ((u.getWith unsigned (chars! "laplace.fe_degree")).getD 4) ≤ 10
      · rw [if_pos hdeg] at h
        simp at h
      · rw [if_neg hdeg] at h
        obtain ⟨_, _, h⟩ := Outcome.bind_eq_ok.1 h
        simp at h
  | nothing =>
    exfalso
    unfold driverMain at h
    rw [if_neg (by simp [hhelp])] at h
    obtain ⟨_, -, h⟩ := Outcome.bind_eq_ok.1 h
    obtain ⟨u, -, h⟩ := Outcome.bind_eq_ok.1 h
    cases hm : o.matrixFree.getD true <;> simp only [hm, if_true, Bool.false_eq_true, if_false] at h
    · simp at h
    · by_cases hdeg : 1 ≤ asInt ((u.getWith unsigned (chars! "laplace.fe_degree")).getD 4) ∧
          asInt ((u.getWith unsigned (chars! "laplace.fe_degree")).getD 4) ≤ 10
      · rw [if_pos hdeg] at h
        simp at h
      · rw [if_neg hdeg] at h
        obtain ⟨_, h1, h⟩ := Outcome.bind_eq_ok.1 h
        simp [Outcome.assert] at h1
  | problem mf dim degree t =>
    obtain ⟨_, rfl, u, hu, hdeg, hran, hdim, hdim', _⟩ := driverMain_problem true sc unsigned o file mf dim degree t h
    refine ⟨dim, degree, t, rfl, hdim rfl, ?_, ?_⟩
    · rw [hdim']
      split_ifs <;> simp
    · intro hm
      have : uncover sc (o.matrixFree.getD true) file = .ok file := by
        rw [uncover, if_neg (by simp [hm])]
      rw [this] at hu
      cases hu
      exact ⟨hdeg, hran hm⟩

/-- **C96, the degree.**  The degree of a problem, kept in an `int`, is the number of the file modulo `2 ^ 32`, in the
range of `int`; so it is the number itself exactly if that is below `2 ^ 31`. -/
theorem C96_degree (u : ℕ) :
    -(2 ^ 31) ≤ asInt u ∧ asInt u < 2 ^ 31 ∧ (2 ^ 32 : ℤ) ∣ asInt u - u ∧
      (u < 2 ^ 32 → (asInt u = u ↔ u < 2 ^ 31)) := by
  unfold asInt
  refine ⟨?_, ?_, ?_, fun h => ?_⟩
  · split_ifs <;> omega
  · split_ifs <;> omega
  · split_ifs <;> omega
  · split_ifs <;> omega

/-- `4294967295` is read as `-1`. -/
example : asInt 4294967295 = -1 ∧ asInt 2147483648 = -2147483648 ∧ asInt 4 = 4 := by decide

/-- **C96 is violated** in release builds: any dimension but two runs the problem in three dimensions, and a
matrix-free problem with a degree that is not supported ends with exit code zero, nothing being solved. -/
theorem C96_problem_violated (sc : Scan) (unsigned : List Char → Option ℕ) (o : DriverOptions) (file : PForest)
    (hhelp : o.help = false) :
    (∀ d : ℤ, d ≠ 2 → driverMain false sc unsigned { o with dim := some d } file
      = driverMain false sc unsigned { o with dim := some 3 } file) ∧
    (o.matrixFree.getD true = true →
      ¬ (1 ≤ asInt ((file.getWith unsigned (chars! "laplace.fe_degree")).getD 4) ∧
        asInt ((file.getWith unsigned (chars! "laplace.fe_degree")).getD 4) ≤ 10) →
      driverMain false sc unsigned o file = .ok .nothing) := by
  constructor
  · intro d hd
    simp [driverMain, hhelp, Outcome.assert, hd, driverPuts]
  · intro hm hdeg
    simp only [driverMain, hhelp, Bool.false_eq_true, if_false, Outcome.assert, Bool.false_and, Outcome.ok_bind, hm]
    have : uncover sc true file = .ok file := by rw [uncover, if_neg (by simp)]
    rw [this, Outcome.ok_bind, if_pos trivial, if_neg hdeg, Outcome.pure_eq]

/-- **C96**: which entries a problem needs: whether the hierarchy is a preconditioner, a known material and the
section `laplace`; without one of them an exception ends the program. -/
theorem C96_needed (sc : Scan) (t : PForest) (pre : Bool) :
    problemStart sc t = .ok pre ↔
      t.getWith sc.bool (chars! "is preconditioner") = some pre ∧
      (∃ m ∈ [chars! "constant", chars! "linear_x", chars! "linear", chars! "discontinuous"],
        (t.getChild (chars! "material_property.type")).map Prod.fst = some m) ∧
      (t.getChild (chars! "laplace")).isSome := by
  unfold problemStart PForest.getWith
  cases h1 : t.getChild (chars! "is preconditioner") with
  | none => simp
  | some n =>
    cases h2 : sc.bool n.1 with
    | none => simp [h2]
    | some b =>
      cases h3 : t.getChild (chars! "material_property.type") with
      | none => simp [h2]
      | some m =>
        simp only [h2, Outcome.ok_bind]
        split_ifs with hm
        · cases h4 : t.getChild (chars! "laplace") with
          | none => simp
          | some l =>
            simp only [Outcome.pure_eq, Outcome.ok.injEq, Option.some.injEq, Option.map_some, Option.isSome_some,
              and_true]
            exact ⟨fun e => ⟨e, m.1, hm, rfl⟩, fun e => e.1⟩
        · simp only [false_iff, Option.map_some, Option.some.injEq, not_and]
          rintro _ ⟨x, hx, rfl⟩
          exact absurd hx hm

/-- **C96 is violated** in one more way: the entry `is preconditioner` may be left out when a hierarchy is built,
where the default is `true`, but not in the file of the program, which then ends with an exception. -/
theorem C96_default_violated (debug : Bool) (sc : Scan) (unsigned : List Char → Option ℕ) (o : DriverOptions)
    (file : PForest) (mf : Bool) (dim : ℕ) (degree : ℤ) (t : PForest)
    (h : driverMain debug sc unsigned o file = .ok (.problem mf dim degree t))
    (hraw : mf = true ∨ (file.getWith sc.bool (chars! "use_raw_ml")).getD false = false)
    (hno : file.getChild (chars! "is preconditioner") = none) :
    (treeParams sc t).isPreconditioner = none ∧ problemStart sc t = .throws "ptree_bad_path" := by
  have e := C96_parameters_partial debug sc unsigned o file mf dim degree t h hraw (chars! "is preconditioner") (by
    cases mf <;> decide)
  rw [hno] at e
  constructor
  · simp [treeParams, PForest.getWith, e]
  · simp only [problemStart, e, Outcome.throws_bind]

/-! ### Examples -/

/-- The file distributed with the library, /repo/tests/data/hierarchy_input.info, abridged. -/
def exInput : PForest :=
  .cons (chars! "eigensolver") [] (.cons (chars! "number of eigenvectors") (chars! "2") .nil
      (.cons (chars! "tolerance") (chars! "1e-14") .nil .nil)) <|
  .cons (chars! "smoother") [] (.cons (chars! "type") (chars! "Gauss-Seidel") .nil .nil) <|
  .cons (chars! "is preconditioner") (chars! "false") .nil <|
  .cons (chars! "material_property") [] (.cons (chars! "type") (chars! "constant") .nil .nil) <|
  .cons (chars! "laplace") [] (.cons (chars! "n_refinements") (chars! "5") .nil .nil) <|
  .cons (chars! "use_raw_ml") (chars! "true") .nil <|
  .cons (chars! "hidden") [] (.cons (chars! "max levels") (chars! "1") .nil .nil) .nil

/-- Conversions that know the texts used in the example. -/
def exDriverScan : Scan where
  int s := if s = chars! "1" then some 1 else none
  bool s := if s = chars! "true" then some true else if s = chars! "false" then some false else none

/-- The matrix-free problem with degree 4 in two dimensions, as a solver; the tolerance `1e-14` and Gauss-Seidel
are not used. -/
example : ∃ t, driverMain true exDriverScan (fun _ => none) {} exInput = .ok (.problem true 2 4 t) ∧
    problemStart exDriverScan t = .ok false ∧
    (t.getChild (chars! "eigensolver.tolerance")).map Prod.fst = some (chars! "0.001") ∧
    (t.getChild (chars! "eigensolver.number of eigenvectors")).map Prod.fst = some (chars! "2") := by
  refine ⟨_, rfl, by decide, by decide, by decide⟩

/-- The matrix-based problem with the hidden parameters. -/
example : (exInput.getWith exDriverScan.bool (chars! "use_raw_ml") = some true) ∧
    (∃ data hidden, exInput.getChild (chars! "hidden") = some (data, hidden) ∧
      (∀ e ∈ hidden.items, '.' ∉ e.1 ∧ e.1 ≠ chars! "hidden") ∧ (hidden.items.map Prod.fst).Nodup ∧
      hidden.items ≠ []) ∧
    ∃ t, driverMain true exDriverScan (fun _ => none) { matrixFree := some false, dim := some 3 } exInput
        = .ok (.problem false 3 4 t) ∧ (treeParams exDriverScan t).maxLevels = some 1 :=
  ⟨by decide, ⟨_, _, rfl, by decide, by decide, by decide⟩, _, rfl, by decide⟩

/-- A degree that is not supported: nothing happens in release builds. -/
example : driverMain false exDriverScan (fun _ => some 11) {}
    (exInput.put (chars! "laplace.fe_degree") (chars! "11")) = .ok .nothing ∧
    driverMain true exDriverScan (fun _ => some 11) {}
      (exInput.put (chars! "laplace.fe_degree") (chars! "11")) = .aborted :=
  ⟨by decide, by decide⟩

/-- An entry `hidden` inside `hidden`. -/
example : ∃ sub, (chars! "hidden", sub) ∈ (PForest.cons (chars! "hidden") (chars! "x") .nil .nil).items :=
  ⟨_, List.mem_singleton.2 rfl⟩

end Mfmg
