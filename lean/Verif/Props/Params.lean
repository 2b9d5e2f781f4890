import Verif.Spec.Params
import Mathlib.Data.List.Basic
import Mathlib.Tactic.SplitIfs

/-!
# Parameter conversion (C36, C56)
-/

set_option autoImplicit false

namespace Mfmg

theorem stripPrefix_append (p s : List Char) : stripPrefix p (p ++ s) = some s := by
  unfold stripPrefix
  rw [if_pos (List.isPrefixOf_iff_prefix.2 (List.prefix_append p s)), List.drop_left]

theorem readAttr_plainChar (c : Char) (hc : PlainChar c) (r : List Char) :
    readAttr (c :: r) = (readAttr r).map (fun p => (c :: p.1, p.2)) := by
  obtain ⟨h1, h2, h3, h4, h5, h6⟩ := hc
  have hsp : (if isXmlSpace c = true then ' ' else c) = c := by
    unfold isXmlSpace
    by_cases h : c = ' '
    · rw [h]; rfl
    · simp [h, h4, h5, h6]
  rw [readAttr]
  · rw [if_neg h1, if_neg (by rintro (h | h); exact h2 h; exact h3 h), hsp]
  all_goals
    intros
    exact absurd (by assumption) h3

theorem readAttr_quote (r : List Char) : readAttr ('"' :: r) = some ([], r) := by
  rw [readAttr]
  · rfl
  all_goals
    intros
    rename_i h _
    exact absurd h (by decide)

/-- A plain value is read as it is. -/
theorem readAttr_plain (k w : List Char) (hk : PlainText k) :
    readAttr (k ++ '"' :: w) = some (k, w) := by
  induction k with
  | nil => exact readAttr_quote w
  | cons c k ih =>
    rw [List.cons_append, readAttr_plainChar c (hk c (by simp)),
      ih (fun c' hc' => hk c' (by simp [hc']))]
    rfl

/-- The value read is no longer than the text up to the first quote. -/
theorem readAttr_length (s : List Char) : ∀ (a w : List Char), readAttr s = some (a, w) →
    a.length ≤ (s.takeWhile (· ≠ '"')).length := by
  induction s using readAttr.induct with
  | case1 => intro a w h; cases h
  | case2 r ih | case3 r ih | case4 r ih | case5 r ih | case6 r ih =>
    intro a w h
    simp only [readAttr, Option.map_eq_some_iff, Prod.mk.injEq] at h
    obtain ⟨⟨a', w'⟩, h1, rfl, rfl⟩ := h
    have := ih a' w' h1
    simp [List.takeWhile_cons] at this ⊢
    omega
  | case7 r =>
    intro a w h
    rw [readAttr_quote] at h
    simp only [Option.some.injEq, Prod.mk.injEq] at h
    simp [← h.1]
  | case8 c r hc1 hc2 hc3 hc4 hc5 hc6 hc7 =>
    intro a w h
    rw [readAttr] at h
    · rw [if_neg hc6, if_pos hc7] at h
      cases h
    all_goals assumption
  | case9 c r hc1 hc2 hc3 hc4 hc5 hc6 hc7 ih =>
    intro a w h
    rw [readAttr] at h
    · rw [if_neg hc6, if_neg hc7] at h
      simp only [Option.map_eq_some_iff, Prod.mk.injEq] at h
      obtain ⟨⟨a', w'⟩, h1, rfl, rfl⟩ := h
      have := ih a' w' h1
      simp [hc6] at this ⊢
      omega
    all_goals assumption

theorem takeWhile_quote_le (k w : List Char) :
    ((k ++ '"' :: w).takeWhile (· ≠ '"')).length ≤ k.length := by
  induction k with
  | nil => simp
  | cons c k ih =>
    rw [List.cons_append, List.takeWhile_cons]
    split_ifs
    · simpa using ih
    · simp

/-- If reading the quoted value gives the value itself, it was plain. -/
theorem readAttr_conv (k w : List Char) : ∀ w', readAttr (k ++ '"' :: w) = some (k, w') →
    PlainText k ∧ w' = w := by
  induction k with
  | nil =>
    intro w' h
    rw [List.nil_append, readAttr_quote] at h
    simp only [Option.some.injEq, Prod.mk.injEq, true_and] at h
    exact ⟨fun c hc => by simp at hc, h.symm⟩
  | cons c k ih =>
    intro w' h
    rw [List.cons_append] at h
    by_cases hc : PlainChar c
    · rw [readAttr_plainChar c hc] at h
      simp only [Option.map_eq_some_iff, Prod.mk.injEq, List.cons.injEq, true_and] at h
      obtain ⟨⟨a, b⟩, h1, h2, h3⟩ := h
      simp only at h2 h3
      subst h2 h3
      obtain ⟨h4, h5⟩ := ih _ h1
      refine ⟨?_, h5⟩
      intro c' hc'
      rcases List.mem_cons.1 hc' with rfl | hc'
      · exact hc
      · exact h4 c' hc'
    · exfalso
      have hlen := takeWhile_quote_le k w
      generalize hs : k ++ '"' :: w = s at h hlen
      unfold readAttr at h
      split at h
      · cases ‹_ :: _ = []›
      · -- `&amp;`
        rename_i r heq
        simp only [List.cons.injEq] at heq
        simp only [Option.map_eq_some_iff, Prod.mk.injEq, List.cons.injEq] at h
        obtain ⟨⟨a, b⟩, h1, ⟨-, h2⟩, -⟩ := h
        have := readAttr_length _ _ _ h1
        simp only at h2
        rw [heq.2] at hlen
        simp at hlen this
        rw [h2] at this
        omega
      all_goals try
        rename_i r heq
        simp only [List.cons.injEq] at heq
        simp only [Option.map_eq_some_iff, Prod.mk.injEq, List.cons.injEq] at h
        obtain ⟨⟨a, b⟩, h1, ⟨h2, -⟩, -⟩ := h
        rw [heq.1] at h2
        exact absurd h2 (by decide)
      rename_i c' r' _ _ _ _ _ heq
      simp only [List.cons.injEq] at heq
      obtain ⟨rfl, rfl⟩ := heq
      split_ifs at h with h1 h2 h3
      · simp at h
      · simp only [Option.map_eq_some_iff, Prod.mk.injEq, List.cons.injEq] at h
        obtain ⟨⟨a, b⟩, -, ⟨h3, -⟩, -⟩ := h
        refine hc ⟨h1, fun h => h2 (Or.inl h), fun h => h2 (Or.inr h), ?_, ?_, ?_⟩ <;>
        · rintro rfl
          exact absurd h3 (by decide)
      · refine hc ⟨h1, fun h => h2 (Or.inl h), fun h => h2 (Or.inr h), ?_, ?_, ?_⟩ <;>
        · rintro rfl
          exact absurd rfl h3

/-! ### Trees -/

def PForest.size : PForest → ℕ
  | .nil => 1
  | .cons _ _ sub rest => sub.size + rest.size + 1

theorem valueType_spec (rd : Readers) (v : List Char) : LeafType rd v (valueType rd v) := by
  unfold valueType
  split_ifs with h1 h2 h3
  · exact .int h1
  · exact .double (by simpa using h1) h2
  · exact .bool (by simpa using h1) (by simpa using h2) h3
  · exact .string (by simpa using h1) (by simpa using h2) (by simpa using h3)

theorem LeafType.unique {rd : Readers} {v t : List Char} (h : LeafType rd v t) :
    t = valueType rd v := by
  unfold valueType
  cases h with
  | int h1 => rw [if_pos h1]
  | double h1 h2 => rw [if_neg (by simp [h1]), if_pos h2]
  | bool h1 h2 h3 => rw [if_neg (by simp [h1]), if_neg (by simp [h2]), if_pos h3]
  | string h1 h2 h3 => rw [if_neg (by simp [h1]), if_neg (by simp [h2]), if_neg (by simp [h3])]

theorem valueType_plain (rd : Readers) (v : List Char) : PlainText (valueType rd v) := by
  unfold valueType
  split_ifs <;>
  · intro c hc
    simp at hc
    unfold PlainChar
    rcases hc with rfl | rfl | rfl | hc <;> (try (rcases hc with rfl | rfl | rfl)) <;> decide

theorem strip_close_openList (x : List Char) : stripPrefix closeList (openList ++ x) = none := by
  simp [stripPrefix, closeList, openList]

theorem strip_close_openParam (x : List Char) : stripPrefix closeList (openParam ++ x) = none := by
  simp [stripPrefix, closeList, openParam]

theorem strip_openList_openParam (x : List Char) :
    stripPrefix openList (openParam ++ x) = none := by
  simp [stripPrefix, openList, openParam]

theorem dropWhile_lead (ws s : List Char) (hws : ∀ c ∈ ws, isXmlSpace c = true)
    (hs : ∃ r, s = '<' :: r) : (ws ++ s).dropWhile isXmlSpace = s := by
  induction ws with
  | nil =>
    obtain ⟨r, rfl⟩ := hs
    rw [List.nil_append, List.dropWhile_cons, if_neg (by decide)]
  | cons c ws ih =>
    rw [List.cons_append, List.dropWhile_cons, if_pos (hws c (by simp))]
    exact ih (fun c' hc' => hws c' (by simp [hc']))

theorem lead_openList (x : List Char) : ∃ r, openList ++ x = '<' :: r :=
  ⟨_, by simp [openList]; rfl⟩
theorem lead_openParam (x : List Char) : ∃ r, openParam ++ x = '<' :: r :=
  ⟨_, by simp [openParam]; rfl⟩
theorem lead_closeList (x : List Char) : ∃ r, closeList ++ x = '<' :: r :=
  ⟨_, by simp [closeList]; rfl⟩

/-- One step of the reader on a closing tag. -/
theorem parseItems_close (fuel : ℕ) (ws w : List Char) (hws : ∀ c ∈ ws, isXmlSpace c = true) :
    parseItems (fuel + 1) (ws ++ (closeList ++ w)) = some (.nil, w) := by
  rw [parseItems]
  simp only [dropWhile_lead ws _ hws (lead_closeList w), stripPrefix_append]

/-- One step of the reader on a sublist. -/
theorem parseItems_sub (fuel : ℕ) (ws x : List Char) (hws : ∀ c ∈ ws, isXmlSpace c = true) :
    parseItems (fuel + 1) (ws ++ (openList ++ x)) = (readAttr x).bind (fun a =>
      (stripPrefix (chars! ">") a.2).bind (fun r => (parseItems fuel r).bind (fun l =>
        (parseItems fuel l.2).bind (fun t => some (.sub a.1 l.1 t.1, t.2))))) := by
  rw [parseItems]
  simp only [dropWhile_lead ws _ hws (lead_openList x), strip_close_openList, stripPrefix_append]
  rfl

/-- One step of the reader on a parameter. -/
theorem parseItems_param (fuel : ℕ) (ws x : List Char) (hws : ∀ c ∈ ws, isXmlSpace c = true) :
    parseItems (fuel + 1) (ws ++ (openParam ++ x)) = (readAttr x).bind (fun a =>
      (stripPrefix attrType a.2).bind (fun r => (readAttr r).bind (fun b =>
        (stripPrefix attrValue b.2).bind (fun r => (readAttr r).bind (fun c =>
          (stripPrefix (chars! "/>") c.2).bind (fun r => (parseItems fuel r).bind (fun t =>
            some (.param a.1 b.1 c.1 t.1, t.2)))))))) := by
  rw [parseItems]
  simp only [dropWhile_lead ws _ hws (lead_openParam x), strip_close_openParam,
    strip_openList_openParam, stripPrefix_append]
  rfl

theorem newline_space : ∀ c ∈ ['\n'], isXmlSpace c = true := by decide

theorem renderItems_leaf (rd : Readers) (key data : List Char) (rest : PForest) (w : List Char) :
    renderItems rd (.cons key data .nil rest) ++ w = openParam ++ (key ++ '"' :: (attrType ++
      (valueType rd data ++ '"' :: (attrValue ++ (data ++ '"' :: ((chars! "/>") ++
        (['\n'] ++ (renderItems rd rest ++ w)))))))) := by
  simp [renderItems, PForest.empty]

theorem renderItems_sub (rd : Readers) (key data k d : List Char) (s r rest : PForest)
    (w : List Char) :
    renderItems rd (.cons key data (.cons k d s r) rest) ++ w = openList ++ (key ++ '"' ::
      ((chars! ">") ++ (['\n'] ++ (renderItems rd (.cons k d s r) ++ (closeList ++
        (['\n'] ++ (renderItems rd rest ++ w))))))) := by
  rw [renderItems]
  simp [PForest.empty]

theorem parse_ok (rd : Readers) (f : PForest) : PlainForest f → ∀ (fuel : ℕ) (ws w : List Char),
    (∀ c ∈ ws, isXmlSpace c = true) → f.size ≤ fuel →
    ∃ L, parseItems fuel (ws ++ (renderItems rd f ++ (closeList ++ w))) = some (L, w) ∧
      SameTree rd f L := by
  induction f with
  | nil =>
    intro _ fuel ws w hws hf
    obtain ⟨n, rfl⟩ : ∃ n, fuel = n + 1 := ⟨fuel - 1, by simp [PForest.size] at hf; omega⟩
    refine ⟨.nil, ?_, .nil⟩
    rw [renderItems, List.nil_append]
    exact parseItems_close n ws w hws
  | cons key data sub rest ihs ihr =>
    intro hp fuel ws w hws hf
    obtain ⟨h1, h2, h3, h4⟩ := hp
    simp only [PForest.size] at hf
    obtain ⟨n, rfl⟩ : ∃ n, fuel = n + 1 := ⟨fuel - 1, by omega⟩
    obtain ⟨Lr, er, sr⟩ := ihr h4 n ['\n'] w newline_space (by omega)
    cases sub with
    | nil =>
      refine ⟨.param key (valueType rd data) data Lr, ?_, .leaf (valueType_spec rd data) sr⟩
      rw [renderItems_leaf, parseItems_param n ws _ hws]
      simp only [readAttr_plain _ _ h1, readAttr_plain _ _ (valueType_plain rd data),
        readAttr_plain _ _ (h2 rfl), stripPrefix_append, Option.bind_some, er]
    | cons k d s r =>
      obtain ⟨Ls, es, ss⟩ := ihs h3 n ['\n'] (['\n'] ++ (renderItems rd rest ++ (closeList ++ w)))
        newline_space (by omega)
      refine ⟨.sub key Ls Lr, ?_, .sub ss sr⟩
      rw [renderItems_sub, parseItems_sub n ws _ hws]
      simp only [readAttr_plain _ _ h1, stripPrefix_append, Option.bind_some, es, er]

theorem parse_conv (rd : Readers) (f : PForest) : ∀ (fuel : ℕ) (ws w w' : List Char) (L : PList),
    (∀ c ∈ ws, isXmlSpace c = true) →
    parseItems fuel (ws ++ (renderItems rd f ++ (closeList ++ w))) = some (L, w') →
    SameTree rd f L → PlainForest f ∧ w' = w := by
  induction f with
  | nil =>
    intro fuel ws w w' L hws h hs
    cases fuel with
    | zero => simp [parseItems] at h
    | succ n =>
      rw [renderItems, List.nil_append, parseItems_close n ws w hws] at h
      simp only [Option.some.injEq, Prod.mk.injEq] at h
      exact ⟨trivial, h.2.symm⟩
  | cons key data sub rest ihs ihr =>
    intro fuel ws w w' L hws h hs
    cases fuel with
    | zero => simp [parseItems] at h
    | succ n =>
      cases hs with
      | leaf ht hr =>
        rw [renderItems_leaf, parseItems_param n ws _ hws] at h
        simp only [Option.bind_eq_some_iff, Option.some.injEq, Prod.mk.injEq, PList.param.injEq] at h
        obtain ⟨⟨a, a'⟩, ha, r1, hr1, ⟨b, b'⟩, hb, r2, hr2, ⟨c, c'⟩, hc, r3, hr3, ⟨t, t'⟩, hrest, ⟨e1, e2, e3, e4⟩,
          e5⟩ := h
        simp only at e1 e2 e3 e4 e5
        subst e1 e2 e3 e4 e5
        obtain ⟨p1, rfl⟩ := readAttr_conv _ _ _ ha
        simp only [stripPrefix_append, Option.some.injEq] at hr1
        subst hr1
        rw [readAttr_plain _ _ (valueType_plain rd _)] at hb
        simp only [Option.some.injEq, Prod.mk.injEq] at hb
        obtain ⟨-, rfl⟩ := hb
        simp only [stripPrefix_append, Option.some.injEq] at hr2
        subst hr2
        obtain ⟨p2, rfl⟩ := readAttr_conv _ _ _ hc
        simp only [stripPrefix_append, Option.some.injEq] at hr3
        subst hr3
        obtain ⟨p3, rfl⟩ := ihr n _ w _ _ newline_space hrest hr
        exact ⟨⟨p1, fun _ => p2, trivial, p3⟩, rfl⟩
      | sub hsub hr =>
        rw [renderItems_sub, parseItems_sub n ws _ hws] at h
        simp only [Option.bind_eq_some_iff, Option.some.injEq, Prod.mk.injEq, PList.sub.injEq] at h
        obtain ⟨⟨a, a'⟩, ha, r1, hr1, ⟨l, l'⟩, hl, ⟨t, t'⟩, hrest, ⟨e1, e2, e4⟩, e5⟩ := h
        simp only at e1 e2 e4 e5
        subst e1 e2 e4 e5
        obtain ⟨p1, rfl⟩ := readAttr_conv _ _ _ ha
        simp only [stripPrefix_append, Option.some.injEq] at hr1
        subst hr1
        obtain ⟨p2, rfl⟩ := ihs n _ _ _ _ newline_space hl hsub
        obtain ⟨p3, rfl⟩ := ihr n _ w _ _ newline_space hrest hr
        exact ⟨⟨p1, fun h => by simp at h, p2, p3⟩, rfl⟩

theorem size_le_length (rd : Readers) (f : PForest) : f.size ≤ (renderItems rd f).length + 1 := by
  induction f with
  | nil => simp [PForest.size]
  | cons key data sub rest ihs ihr =>
    have hl := congrArg List.length (List.append_nil (renderItems rd (.cons key data sub rest)))
    cases sub with
    | nil =>
      rw [renderItems_leaf] at hl
      simp [openParam, attrType, attrValue] at hl
      simp only [PForest.size]
      omega
    | cons k d s r =>
      rw [renderItems_sub] at hl
      simp [openList, closeList] at hl
      simp only [PForest.size] at ihs ⊢
      omega

theorem anonymous_plain : PlainText (chars! "ANONYMOUS") := by
  intro c hc
  simp at hc
  unfold PlainChar
  rcases hc with rfl | rfl | rfl | rfl | rfl | rfl | rfl | rfl | rfl <;> decide

theorem parseXml_render (rd : Readers) (t : PForest) : parseXml (renderTree rd t) =
    (parseItems ((renderTree rd t).length + 1) (['\n'] ++ (renderItems rd t ++ (closeList ++ [])))).bind
      (fun l => if l.2.all isXmlSpace then some l.1 else none) := by
  unfold parseXml
  have : stripPrefix openList (renderTree rd t) = some ((chars! "ANONYMOUS") ++ '"' :: ((chars! ">") ++
      (['\n'] ++ (renderItems rd t ++ (closeList ++ []))))) := by
    unfold renderTree
    rw [stripPrefix_append]
    simp
  rw [this]
  simp only [Option.bind_eq_bind, Option.bind_some, readAttr_plain _ _ anonymous_plain,
    stripPrefix_append]

/-- **C36.** For every parameter tree without special characters the conversion succeeds and gives
the list with the same names, nesting and order, each leaf with the first type its text converts to. -/
theorem C36_round_trip (rd : Readers) (t : PForest) (ht : PlainForest t) :
    ∃ L, ptree2plist rd t = some L ∧ SameTree rd t L := by
  unfold ptree2plist
  cases h : t.empty with
  | true =>
    cases t with
    | nil => exact ⟨.nil, rfl, .nil⟩
    | cons => simp [PForest.empty] at h
  | false =>
    simp only [Bool.false_eq_true, if_false]
    obtain ⟨L, hL, hs⟩ := parse_ok rd t ht ((renderTree rd t).length + 1) ['\n'] [] newline_space (by
      have := size_le_length rd t
      have h2 : (renderItems rd t).length ≤ (renderTree rd t).length := by
        simp [renderTree]
        omega
      omega)
    refine ⟨L, ?_, hs⟩
    rw [parseXml_render, hL]
    rfl

/-- **C36**, the exact range: the result says the same as the tree only if names and leaf values are
free of quotes, `<`, `&`, tabs and line breaks. -/
theorem C36_only_plain (rd : Readers) (t : PForest) (L : PList) (h : ptree2plist rd t = some L)
    (hs : SameTree rd t L) : PlainForest t := by
  unfold ptree2plist at h
  cases he : t.empty with
  | true =>
    cases t with
    | nil => trivial
    | cons => simp [PForest.empty] at he
  | false =>
    rw [he] at h
    simp only [Bool.false_eq_true, if_false] at h
    rw [parseXml_render, Option.bind_eq_some_iff] at h
    obtain ⟨⟨L', w'⟩, h1, h2⟩ := h
    simp only at h2
    split_ifs at h2
    simp only [Option.some.injEq] at h2
    subst h2
    exact (parse_conv rd t _ _ _ _ _ newline_space h1 hs).1

/-- **C36**: a tree is described by at most one list. -/
theorem C36_unique (rd : Readers) (t : PForest) : ∀ (L L' : PList), SameTree rd t L →
    SameTree rd t L' → L = L' := by
  induction t with
  | nil => intro L L' h h'; cases h; cases h'; rfl
  | cons key data sub rest ihs ihr =>
    intro L L' h h'
    cases h with
    | leaf t1 r1 =>
      cases h' with
      | leaf t2 r2 => rw [t1.unique, t2.unique, ihr _ _ r1 r2]
    | sub s1 r1 =>
      cases h' with
      | sub s2 r2 => rw [ihs _ _ s1 s2, ihr _ _ r1 r2]

/-- Readers for the examples. -/
def exReaders : Readers where
  int v := !v.isEmpty && v.all Char.isDigit
  double v := v.contains '.'
  bool v := v == chars! "true" || v == chars! "false"

/-- A tree with two levels. -/
def exTree : PForest :=
  .cons (chars! "smoother: type") (chars! "Chebyshev") .nil
    (.cons (chars! "levels") [] (.cons (chars! "max") (chars! "10") .nil
      (.cons (chars! "damping") (chars! "0.5") .nil .nil))
    (.cons (chars! "repartition") (chars! "true") .nil .nil))

theorem exTree_plain : PlainForest exTree := by
  simp [exTree, PlainForest, PlainText, PlainChar]

example : ptree2plist exReaders exTree = some (.param (chars! "smoother: type") (chars! "string")
    (chars! "Chebyshev") (.sub (chars! "levels") (.param (chars! "max") (chars! "int") (chars! "10")
      (.param (chars! "damping") (chars! "double") (chars! "0.5") .nil))
    (.param (chars! "repartition") (chars! "bool") (chars! "true") .nil))) := by
  obtain ⟨L, h1, h2⟩ := C36_round_trip exReaders exTree exTree_plain
  rw [h1]
  refine congrArg some (C36_unique _ _ _ _ h2 ?_)
  refine .leaf (.string rfl rfl rfl) (.sub (.leaf (.int rfl) (.leaf (.double rfl rfl) .nil))
    (.leaf (.bool rfl rfl rfl) .nil))

/-- **C36**: a value with a quote can add an entry of its own. -/
theorem C36_injection : ptree2plist exReaders (.cons (chars! "a")
      (chars! "1\"/><Parameter name=\"b\" type=\"int\" value=\"2") .nil .nil)
    = some (.param (chars! "a") (chars! "string") (chars! "1")
        (.param (chars! "b") (chars! "int") (chars! "2") .nil)) := by
  decide +kernel

/-! ## C56 -/

theorem SameTree.names {rd : Readers} {t : PForest} {L : PList} (h : SameTree rd t L) :
    L.names = t.names := by
  induction h with
  | nil => rfl
  | leaf _ _ ih => simp [PList.names, PForest.names, ih]
  | sub _ _ _ ih => simp [PList.names, PForest.names, ih]

/-- **C56**, what holds: without user parameters ML gets its defaults, and the user's parameters all
reach ML with their types.  Missing from C56: the defaults that the user does not mention are lost,
see `C56_defaults_violated`. -/
theorem C56_user_parameters_partial (rd : Readers) (defaults : PList) :
    mlParameters rd defaults none = some defaults ∧
    ∀ t, PlainForest t → ∃ L, mlParameters rd defaults (some t) = some L ∧ SameTree rd t L :=
  ⟨rfl, fun t ht => C36_round_trip rd t ht⟩

/-- **C56 is violated**: whatever the defaults, as soon as the user gives parameters every default the
user does not name is lost. -/
theorem C56_defaults_violated (rd : Readers) (defaults : PList) (t : PForest) (ht : PlainForest t)
    (n : List Char) (_hn : n ∈ defaults.names) (hnt : n ∉ t.names) :
    ∃ L, mlParameters rd defaults (some t) = some L ∧ n ∉ L.names := by
  obtain ⟨L, h1, h2⟩ := C36_round_trip rd t ht
  exact ⟨L, h1, by rw [h2.names]; exact hnt⟩

example : ∃ L, mlParameters exReaders
    (.param (chars! "aggregation: type") (chars! "string") (chars! "Uncoupled") .nil) (some exTree) = some L ∧
    (chars! "aggregation: type") ∉ L.names :=
  C56_defaults_violated exReaders _ exTree exTree_plain _ (by simp [PList.names])
    (by simp [exTree, PForest.names])

end Mfmg
