import Verif.Spec.ParamTree
import Verif.Lemmas.Timer

/-!
# Lemmas: reading and writing the parameter tree
-/

set_option autoImplicit false

namespace Mfmg

namespace PForest

theorem find_modify_same (k : List Char) (f : List Char × PForest → List Char × PForest)
    (t : PForest) : (t.modify k f).find k = some (f ((t.find k).getD ([], .nil))) := by
  induction t with
  | nil => simp [modify, find]
  | cons key data sub rest _ ih =>
    by_cases h : key = k <;> simp [modify, find, h, ih]

theorem find_modify_other (k q : List Char) (f : List Char × PForest → List Char × PForest)
    (t : PForest) (hq : q ≠ k) : (t.modify k f).find q = t.find q := by
  induction t with
  | nil => simp [modify, find, Ne.symm hq]
  | cons key data sub rest _ ih =>
    by_cases h : key = k
    · subst h; simp [modify, find, Ne.symm hq]
    · simp only [modify, find, h, if_false, ih]

theorem walk_nil (ks : List (List Char)) : walk ks .nil = none := by
  match ks with
  | [] => rfl
  | [k] => rfl
  | k :: k' :: ks => rfl

theorem walk_cons (k : List Char) {ks : List (List Char)} (h : ks ≠ []) (t : PForest) :
    walk (k :: ks) t = walk ks ((t.find k).getD ([], .nil)).2 := by
  match ks, h with
  | k' :: ks, _ =>
    rw [walk]
    cases t.find k with
    | none => simp [walk_nil]
    | some n => rfl

theorem walk_single (k : List Char) (t : PForest) : walk [k] t = t.find k := rfl

theorem putAt_cons (k : List Char) {ks : List (List Char)} (h : ks ≠ []) (v : List Char)
    (t : PForest) : putAt (k :: ks) v t = t.modify k (fun n => (n.1, putAt ks v n.2)) := by
  match ks, h with
  | k' :: ks, _ => rfl

/-- The node written: new data, old children. -/
theorem walk_putAt_same (ks : List (List Char)) (hks : ks ≠ []) (v : List Char) (t : PForest) :
    walk ks (putAt ks v t) = some (v, ((walk ks t).getD ([], .nil)).2) := by
  induction ks generalizing t with
  | nil => exact absurd rfl hks
  | cons k ks ih =>
    by_cases h : ks = []
    · subst h
      simp [putAt, walk_single, find_modify_same]
    · rw [putAt_cons k h, walk_cons k h, walk_cons k h, find_modify_same]
      exact ih h _

/-- A node that is not on the way to the one written. -/
theorem walk_putAt_other (ks qs : List (List Char)) (hq : ¬ qs <+: ks) (v : List Char)
    (t : PForest) : walk qs (putAt ks v t) = walk qs t := by
  induction ks generalizing t qs with
  | nil => rfl
  | cons k ks ih =>
    match qs with
    | [] => exact absurd (List.nil_prefix) hq
    | q :: qs =>
      by_cases hqk : q = k
      · subst hqk
        have hq' : ¬ qs <+: ks := fun h => hq (by simpa using h)
        have hqs : qs ≠ [] := fun h => hq' (h ▸ List.nil_prefix)
        rw [walk_cons q hqs, walk_cons q hqs]
        by_cases h : ks = []
        · subst h
          rw [putAt, find_modify_same]
          rfl
        · rw [putAt_cons q h, find_modify_same]
          exact ih _ hq' _
      · by_cases h : ks = []
        · subst h
          by_cases hqs : qs = []
          · subst hqs
            simp only [walk_single, putAt]
            exact find_modify_other _ _ _ _ hqk
          · rw [walk_cons q hqs, walk_cons q hqs, putAt, find_modify_other _ _ _ _ hqk]
        · rw [putAt_cons k h]
          by_cases hqs : qs = []
          · subst hqs
            simp only [walk_single]
            exact find_modify_other _ _ _ _ hqk
          · rw [walk_cons q hqs, walk_cons q hqs, find_modify_other _ _ _ _ hqk]

/-- A node on the way keeps its data and is created if missing. -/
theorem walk_putAt_prefix (qs rs : List (List Char)) (hqs : qs ≠ []) (hrs : rs ≠ [])
    (v : List Char) (t : PForest) :
    walk qs (putAt (qs ++ rs) v t) =
      some (((walk qs t).getD ([], .nil)).1, putAt rs v ((walk qs t).getD ([], .nil)).2) := by
  induction qs generalizing t with
  | nil => exact absurd rfl hqs
  | cons q qs ih =>
    rw [List.cons_append, putAt_cons q (by simp [hrs])]
    by_cases h : qs = []
    · subst h
      simp [walk_single, find_modify_same]
    · rw [walk_cons q h, walk_cons q h, find_modify_same]
      exact ih h _

theorem modify_modify (k : List Char) (f g : List Char × PForest → List Char × PForest)
    (t : PForest) : (t.modify k f).modify k g = t.modify k (g ∘ f) := by
  induction t with
  | nil => simp [modify]
  | cons key data sub rest _ ih =>
    by_cases h : key = k <;> simp [modify, h, ih]

/-- Writing twice at the same path: the last value stays. -/
theorem putAt_putAt (ks : List (List Char)) (v w : List Char) (t : PForest) :
    putAt ks w (putAt ks v t) = putAt ks w t := by
  induction ks generalizing t with
  | nil => rfl
  | cons k ks ih =>
    by_cases h : ks = []
    · subst h; simp only [putAt, modify_modify]; rfl
    · rw [putAt_cons k h, putAt_cons k h, putAt_cons k h, modify_modify]
      congr 1
      funext n
      simp [Function.comp, ih]

end PForest

/-! ### Which runs write to the tree -/

/-- The run does not write to the tree. -/
def NoPut {α : Type} (r : Run α) : Prop := ∀ v, Event.put v ∉ r.trace

theorem NoPut.bind {α β : Type} {x : Run α} {f : α → Run β} (hx : NoPut x) (hf : ∀ a, NoPut (f a)) :
    NoPut (x >>= f) := by
  intro v
  match x, hx with
  | (t, .ok a), hx =>
    show Event.put v ∉ t ++ (f a).1
    rw [List.mem_append]
    exact fun h => h.elim (hx v) (hf a v)
  | (t, .throws m), hx => exact hx v
  | (t, .aborted), hx => exact hx v
  | (t, .ub w), hx => exact hx v

theorem Run.bind_assoc_eq {α β γ : Type} (x : Run α) (f : α → Run β) (g : β → Run γ) :
    x >>= f >>= g = x >>= fun a => f a >>= g := by
  match x with
  | (t, .ok a) =>
    show (match (t ++ (f a).1, (f a).2) with
      | (t, .ok a) => (t ++ (g a).1, (g a).2)
      | (t, .throws m) => (t, .throws m)
      | (t, .aborted) => (t, .aborted)
      | (t, .ub w) => (t, .ub w)) = (t ++ (f a >>= g).1, (f a >>= g).2)
    cases h : f a with
    | mk u o => cases o <;> simp [bind]
  | (t, .throws m) => rfl
  | (t, .aborted) => rfl
  | (t, .ub w) => rfl

theorem noPut_lift {α : Type} (o : Outcome α) : NoPut (Run.lift o) := fun _ => List.not_mem_nil

theorem noPut_pure {α : Type} (a : α) : NoPut (pure a : Run α) := fun _ => List.not_mem_nil

theorem noPut_timerEnter (t : Bool) (s : String) : NoPut (timerEnter t s) := by
  intro v; cases t <;> simp [timerEnter, Run.emit, Run.trace, pure]

theorem noPut_timerLeave (t : Bool) : NoPut (timerLeave t) := by
  intro v; cases t <;> simp [timerLeave, Run.emit, Run.trace, pure]

theorem noPut_timed {α : Type} (t : Bool) (s : String) (o : Outcome α) : NoPut (timed t s o) :=
  (noPut_timerEnter t s).bind fun _ => (noPut_lift o).bind fun _ =>
    (noPut_timerLeave t).bind fun _ => noPut_pure _

variable {V : ℕ → Type}

theorem noPut_buildLoop (h : Helpers V) (p : Params) (t : Bool) (n : ℕ) (hn : n ≠ 1) (d l : ℕ)
    (hd : n - l = d) (L : Levels V) : NoPut (buildLoop h p t n l L) := by
  induction d generalizing l L with
  | zero =>
    rw [buildLoop, if_neg (by omega)]
    exact noPut_pure _
  | succ d ih =>
    rw [buildLoop, if_pos (by omega)]
    refine (noPut_lift _).bind fun a => ?_
    by_cases hl : l = n - 1
    · rw [if_pos hl, if_neg (by omega)]
      exact (noPut_pure _).bind fun _ => (noPut_timed _ _ _).bind fun _ => noPut_pure _
    · rw [if_neg hl]
      refine (noPut_timed _ _ _).bind fun _ => (noPut_timed _ _ _).bind fun _ => ?_
      refine NoPut.bind ?_ fun _ => (noPut_timed _ _ _).bind fun _ => ih (l + 1) (by omega) _
      split_ifs <;> exact noPut_timed _ _ _

theorem foldl_noPut (tr : List Event) (htr : ∀ v, Event.put v ∉ tr) (t : PForest) :
    tr.foldl Event.onTree t = t := by
  induction tr generalizing t with
  | nil => rfl
  | cons e tr ih =>
    have h1 : Event.onTree t e = t := by
      cases e with
      | put v => exact absurd (List.mem_cons_self) (htr v)
      | _ => rfl
    rw [List.foldl_cons, h1]
    exact ih (fun v hv => htr v (List.mem_cons_of_mem _ hv)) t

/-- A one-level construction that gets its operator writes exactly once. -/
theorem buildHierarchy_one (debug timer : Bool) (p : Params) (h : Helpers V)
    (hp : p.maxLevels.getD 2 = 1) (a : Op (V 0) (V 0)) (ha : h.globalOperator = .ok a) (t : PForest) :
    (buildHierarchy debug timer (some p) (.ok h)).trace.foldl Event.onTree t =
      t.put flagPath (boolText (p.isPreconditioner.getD true)) := by
  have hassert : Outcome.assert debug (decide (p.maxLevels.getD 2 > 0)) = .ok () := by
    simp [Outcome.assert, hp]
  simp only [buildHierarchy, timerEnter_bind_trace, Run.result_lift_ok_bind, Outcome.deref_some]
  rw [hassert, Run.result_lift_ok_bind, if_neg (by omega), ha, Run.result_lift_ok_bind,
    if_neg (by omega)]
  rw [hp, show (1 : ℤ).toNat = 1 from rfl, buildLoop, if_pos (by omega)]
  rw [List.foldl_append, foldl_noPut (tEnter timer "Setup") (by cases timer <;> simp [tEnter])]
  have hop : ((Levels.set (fun _ => {}) 0 fun v : Level V 0 => { v with operator := some a }) 0).operator
      = some a := by simp [Levels.set]
  rw [hop, Outcome.deref_some, Run.result_lift_ok_bind, if_pos rfl, if_pos rfl]
  rw [Run.bind_assoc_eq, Run.bind_assoc_eq, emit_bind_trace, List.foldl_cons]
  refine foldl_noPut _ ?_ _
  refine NoPut.bind (noPut_pure _) fun _ => ?_
  refine NoPut.bind ((noPut_timed _ _ _).bind fun _ => noPut_pure _) fun _ => ?_
  exact (noPut_timerLeave _).bind fun _ => noPut_pure _

/-- A construction that asks for another number of levels, or does not get its operator, does not
write. -/
theorem buildHierarchy_other (debug timer : Bool) (p : Params) (h : Helpers V)
    (hp : p.maxLevels.getD 2 = 1 → ∀ a, h.globalOperator ≠ .ok a) :
    NoPut (buildHierarchy debug timer (some p) (.ok h)) := by
  refine (noPut_timerEnter _ _).bind fun _ => ?_
  rw [Run.result_lift_ok_bind, Outcome.deref_some, Run.result_lift_ok_bind]
  refine (noPut_lift _).bind fun _ => ?_
  split_ifs with hneg
  · exact noPut_lift _
  by_cases h1 : p.maxLevels.getD 2 = 1
  · intro v
    cases hg : h.globalOperator with
    | ok a => exact absurd hg (hp h1 a)
    | throws m => exact List.not_mem_nil
    | aborted => exact List.not_mem_nil
    | ub w => exact List.not_mem_nil
  · refine (noPut_lift _).bind fun a => ?_
    split_ifs with h0
    · exact noPut_lift _
    · exact (noPut_buildLoop h p timer _ (by omega) _ 0 rfl _).bind fun _ =>
        (noPut_timerLeave _).bind fun _ => noPut_pure _

end Mfmg
