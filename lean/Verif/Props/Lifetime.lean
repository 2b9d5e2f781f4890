import Verif.Lemmas.LifetimeRun

/-!
# C83 – Lifetimes of the objects behind a hierarchy

Full claim: *for as long as a program holds a hierarchy it may apply it, whatever else the program
has given up in the meantime; handles may be given up in any order, no object is destroyed while
another refers to it or destroyed twice, and nothing is left when the program holds nothing.*

`C83_alive_iff`, `C83_references`, `C83_drop`, `C83_teardown`, `C83_leak` prove the second half for
every program.  `C83_vmult` says exactly what an application needs; `C83_vmult_partial` is the first
half for hierarchies that store their matrices on the host.  For the others it is false:
`C83_matrix_free_violated` (the `DoFHandler`) and `C83_device_violated` (the CUDA handle).  Missing
from the full claim: just these.
-/

set_option autoImplicit false

namespace Mfmg

open Mem

/-- An object is alive exactly as long as the program holds a handle to it or a living object
owns it. -/
theorem C83_alive_iff {debug : Bool} {m : Mem} (hm : m.Reached debug) (a : ℕ) :
    m.Live a ↔ a ∈ m.held ∨ ∃ S, m.Live S ∧ a ∈ (m.obj S).strong := by
  have h := hm.inv.1
  constructor
  · intro hl
    have hlt := h.live_lt hl
    by_contra hc
    push Not at hc
    unfold Live at hl
    rw [h.counts a hlt, List.append_nil, List.count_eq_zero.2 hc.1] at hl
    have : m.ownersOf a = 0 := by
      unfold ownersOf
      refine Finset.sum_eq_zero fun i _ => ?_
      split_ifs with hi
      · rw [List.count_eq_zero]; exact hc.2 i hi
      · rfl
    omega
  · rintro (ha | ⟨S, hS, ha⟩)
    · exact h.live_mem (by simpa using ha)
    · exact h.live_strong hS ha

/-- No living object refers to a destroyed one, except to an object of the program whose scope has
ended: inside the library there is no dangling reference, in any state of any program. -/
theorem C83_references {debug : Bool} {m : Mem} (hm : m.Reached debug) {n w : ℕ} (hn : m.Live n)
    (hw : w ∈ (m.obj n).refs) (hl : (m.obj w).isLocal = false) : m.Live w :=
  hm.inv.1.live_refs hn hw hl

/-- Giving up a handle never releases an object twice.  It succeeds, except that in debug mode the
end of a scope is fatal while a living object subscribes to the object. -/
theorem C83_drop {debug : Bool} {m : Mem} (hm : m.Reached debug) {a : ℕ} (ha : a ∈ m.held) :
    (∃ m', m.exec debug (.drop a) = .ok m' ∧ m'.held = m.held.erase a) ∨
    (debug = true ∧ (m.obj a).isLocal = true ∧ (∃ n, m.Live n ∧ a ∈ (m.obj n).watched) ∧
      m.exec debug (.drop a) = .aborted) := by
  have h := hm.inv.1
  have he : m.exec debug (.drop a) = m.drop debug a := by
    simp [Mem.exec, UseStmt.allowed, ha]
  rw [he]
  cases hl : (m.obj a).isLocal with
  | false =>
    obtain ⟨m', h1, _, _, h4, _⟩ := drop_shared debug h ha hl
    exact Or.inl ⟨m', h1, h4⟩
  | true =>
    obtain ⟨h1, _⟩ := drop_local debug h ha hl
    rw [h1]
    split_ifs with hc
    · obtain ⟨hd, n, _, hn, hw⟩ := hc
      exact Or.inr ⟨hd, rfl, ⟨n, hn, hw⟩, rfl⟩
    · exact Or.inl ⟨_, rfl, rfl⟩

/-- When the program holds nothing any more, every object has been destroyed. -/
theorem C83_leak {debug : Bool} {m : Mem} (hm : m.Reached debug) (hh : m.held = []) (a : ℕ) :
    ¬ m.Live a :=
  hm.inv.1.no_leak hh a

theorem teardown_aux : ∀ (order : List ℕ) (m : Mem), m.Reached false → order.Perm m.held →
    ∃ m', m.run false (order.map .drop) = .ok m' ∧ m'.held = []
  | [], m, _, hp => ⟨m, rfl, List.perm_nil.1 hp.symm⟩
  | a :: order, m, hm, hp => by
    have ha : a ∈ m.held := hp.subset (by simp)
    rcases C83_drop hm ha with ⟨m', h1, h2⟩ | ⟨h1, _⟩
    · have hp' : order.Perm m'.held := by
        rw [h2]
        have := hp.erase a
        rwa [List.erase_cons_head] at this
      obtain ⟨m'', h3, h4⟩ := teardown_aux order m' (hm.exec h1) hp'
      refine ⟨m'', ?_, h4⟩
      rw [List.map_cons, Mem.run, h1]
      exact h3
    · cases h1

/-- In release mode the program may give up its handles in any order whatsoever: nothing is
released twice, and at the end every object has been destroyed. -/
theorem C83_teardown {m : Mem} (hm : m.Reached false) {order : List ℕ}
    (hp : order.Perm m.held) :
    ∃ m', m.run false (order.map .drop) = .ok m' ∧ ∀ a, ¬ m'.Live a := by
  obtain ⟨m', h1, h2⟩ := teardown_aux order m hm hp
  exact ⟨m', h1, C83_leak (hm.run h1) h2⟩

/-- What an application needs, exactly.  Build a hierarchy in any state of any program and let the
program go on in any way, as long as it keeps the hierarchy: an application succeeds if and only if
all objects that the roots of `neededRoots` read are still alive; otherwise it is undefined
behaviour.  There are no roots for a matrix-based hierarchy on the host; the root is the evaluator
for a matrix-free one and the CUDA handle on the device. -/
theorem C83_vmult {debug : Bool} {m m₁ m₂ : Mem} {e p levels : ℕ} {t : Option ℕ} {amgx : Bool}
    {kind : EvalKind} {later : List UseStmt} (hm : m.Reached debug)
    (hal : (UseStmt.build e p t levels amgx).allowed m = true)
    (hkind : (m.obj e).evaluator = some kind)
    (hb : m.exec debug (.build e p t levels amgx) = .ok m₁)
    (hl : m₁.run debug later = .ok m₂) (hheld : m₁.nodes.length - 1 ∈ m₂.held) :
    ((∀ root ∈ neededRoots kind e levels amgx, ∀ b, m₂.Reads root b → m₂.Live b) →
      m₂.exec debug (.vmult (m₁.nodes.length - 1)) = .ok m₂) ∧
    ((∃ root ∈ neededRoots kind e levels amgx, ∃ b, m₂.Reads root b ∧ ¬ m₂.Live b) →
      m₂.exec debug (.vmult (m₁.nodes.length - 1)) = .ub "use of a destroyed object") := by
  have hiff := vmult_iff hm.inv.1 hm.inv.2 hal hkind hb hl hheld
  have hr₁ := hm.exec hb
  have hpre := (run_inv later m₁ m₂ hr₁.inv.1 hr₁.inv.2 hl).2.2
  have hH : (m₂.obj (m₁.nodes.length - 1)).isHierarchy = true := by
    obtain ⟨r, kind', _, _, _, _, hm₁⟩ := exec_build_ok hal hb
    have hlen : m₁.nodes.length =
        (buildLevels kind' amgx e p r m.nodes).1.length + 1 := by rw [hm₁]; simp [Mem.adopt]
    rw [prefix_obj hpre (by omega), hm₁]
    simp [Mem.adopt, Mem.obj, List.getD, hierarchyObj]
  have hexec : m₂.exec debug (.vmult (m₁.nodes.length - 1)) =
      (m₂.use (m₁.nodes.length - 1) >>= fun _ => .ok m₂) := by
    simp [Mem.exec, UseStmt.allowed, hheld, hH]
  rw [hexec]
  constructor
  · intro hall
    rw [hiff.2 hall]; rfl
  · rintro ⟨root, h1, b, h2, h3⟩
    rcases use_cases (m := m₂) (m₁.nodes.length - 1) with h | h
    · exact absurd (hiff.1 h root h1 b h2) h3
    · rw [h]; rfl

/-- **Partial.**  A matrix-based hierarchy on the host can be applied for as long as the program
holds it, whatever the program has done and given up since: the mesh, the degrees of freedom, the
constraints, the evaluator, the parameters, the timer, other hierarchies.  Missing from the full
claim: the other kinds, see the two theorems below. -/
theorem C83_vmult_partial {debug : Bool} {m m₁ m₂ : Mem} {e p levels : ℕ} {t : Option ℕ}
    {amgx : Bool} {later : List UseStmt} (hm : m.Reached debug)
    (hal : (UseStmt.build e p t levels amgx).allowed m = true)
    (hkind : (m.obj e).evaluator = some .matrixBased)
    (hb : m.exec debug (.build e p t levels amgx) = .ok m₁)
    (hl : m₁.run debug later = .ok m₂) (hheld : m₁.nodes.length - 1 ∈ m₂.held) :
    m₂.exec debug (.vmult (m₁.nodes.length - 1)) = .ok m₂ :=
  (C83_vmult hm hal hkind hb hl hheld).1 (by simp [neededRoots])

/-- A matrix-free hierarchy is not safe to apply once something its evaluator reads is gone: the
evaluator is kept alive, but it only refers to the `DoFHandler`. -/
theorem C83_matrix_free_violated {debug : Bool} {m m₁ m₂ : Mem} {e p levels : ℕ} {t : Option ℕ}
    {amgx : Bool} {later : List UseStmt} (hm : m.Reached debug)
    (hal : (UseStmt.build e p t levels amgx).allowed m = true)
    (hkind : (m.obj e).evaluator = some .matrixFree)
    (hb : m.exec debug (.build e p t levels amgx) = .ok m₁)
    (hl : m₁.run debug later = .ok m₂) (hheld : m₁.nodes.length - 1 ∈ m₂.held)
    {d : ℕ} (hd : m₂.Reads e d) (hdead : ¬ m₂.Live d) :
    m₂.exec debug (.vmult (m₁.nodes.length - 1)) = .ub "use of a destroyed object" :=
  (C83_vmult hm hal hkind hb hl hheld).2 ⟨e, by simp [neededRoots], d, hd, hdead⟩

/-- A device hierarchy is not safe to apply once the CUDA handle is gone, except with one level
and AMGX. -/
theorem C83_device_violated {debug : Bool} {m m₁ m₂ : Mem} {e p k levels : ℕ} {t : Option ℕ}
    {amgx : Bool} {later : List UseStmt} (hm : m.Reached debug)
    (hal : (UseStmt.build e p t levels amgx).allowed m = true)
    (hkind : (m.obj e).evaluator = some (.device k)) (hcase : 1 < levels ∨ amgx = false)
    (hb : m.exec debug (.build e p t levels amgx) = .ok m₁)
    (hl : m₁.run debug later = .ok m₂) (hheld : m₁.nodes.length - 1 ∈ m₂.held)
    (hdead : ¬ m₂.Live k) :
    m₂.exec debug (.vmult (m₁.nodes.length - 1)) = .ub "use of a destroyed object" := by
  refine (C83_vmult hm hal hkind hb hl hheld).2 ⟨k, ?_, k, .refl, hdead⟩
  simp only [neededRoots]
  rw [if_neg]
  · simp
  · rintro ⟨h1, h2⟩
    rcases hcase with h | h
    · omega
    · rw [h2] at h; cases h

/-! ### Examples -/

/-- A program up to the evaluator and the parameters: triangulation (0), `DoFHandler` (1),
constraints (2), CUDA handle (3), evaluator (4), parameters (5), timer (6). -/
def exSetup (kind : EvalKind) : List UseStmt :=
  [.object [] [], .object [0] [0], .object [] [], .object [] [],
   .evaluator kind 1 2 [2], .shared, .shared]

/-- Give up everything but the hierarchy, in an unusual but legal order. -/
def exGiveUp : List UseStmt := [.drop 5, .drop 4, .drop 1, .drop 0, .drop 2, .drop 3, .drop 6]

/-- Three levels on the host: applied twice after everything else was given up, in debug mode. -/
example : ∃ m, Mem.run true {} (exSetup .matrixBased ++ [.build 4 5 (some 6) 3 false] ++ exGiveUp ++
    [.vmult 23, .vmult 23]) = .ok m ∧ m.held = [23] ∧ m.cnt 4 = 0 ∧ m.cnt 5 = 3 :=
  ⟨_, rfl, by decide +kernel⟩

/-- The same hierarchy, given up at the end: nothing is left. -/
example : ∃ m, Mem.run true {} (exSetup .matrixBased ++ [.build 4 5 (some 6) 3 false] ++ exGiveUp ++
    [.vmult 23, .drop 23]) = .ok m ∧ m.count.sum = 0 ∧ m.nodes.length = 24 :=
  ⟨_, rfl, by decide +kernel⟩

/-- Matrix-free with two levels: fine while the `DoFHandler` is there, even without the
evaluator's own handle. -/
example : ∃ m, Mem.run true {} (exSetup .matrixFree ++ [.build 4 5 none 2 false] ++
    [.drop 4, .drop 5, .vmult 17]) = .ok m :=
  ⟨_, rfl⟩

/-- ... undefined behaviour without it. -/
example : Mem.run true {} (exSetup .matrixFree ++ [.build 4 5 none 2 false] ++
    [.drop 1, .vmult 17]) = .ub "use of a destroyed object" := rfl

/-- On the device the `DoFHandler` may go, the handle may not. -/
example : (∃ m, Mem.run true {} (exSetup (.device 3) ++ [.build 4 5 none 2 false] ++
      [.drop 1, .drop 0, .drop 2, .drop 4, .vmult 15]) = .ok m) ∧
    Mem.run true {} (exSetup (.device 3) ++ [.build 4 5 none 2 false] ++
      [.drop 3, .vmult 15]) = .ub "use of a destroyed object" :=
  ⟨⟨_, rfl⟩, rfl⟩

/-- One level with AMGX does not need the handle. -/
example : ∃ m, Mem.run true {} (exSetup (.device 3) ++ [.build 4 5 none 1 true] ++
      [.drop 3, .vmult 10]) = .ok m :=
  ⟨_, rfl⟩

/-- The end of the scope of the triangulation before that of the `DoFHandler` is fatal in debug
mode and goes unnoticed in release mode. -/
example : Mem.run true {} (exSetup .matrixBased ++ [.drop 0]) = .aborted ∧
    ∃ m, Mem.run false {} (exSetup .matrixBased ++ [.drop 0]) = .ok m :=
  ⟨rfl, _, rfl⟩

/-- The hypotheses of `C83_vmult_partial` at a state with two hierarchies, the second of which is
built and given up later. -/
example : ∃ m m₁ m₂ : Mem, m.Reached true ∧
    (UseStmt.build 4 5 none 3 false).allowed m = true ∧
    (m.obj 4).evaluator = some .matrixBased ∧
    m.exec true (.build 4 5 none 3 false) = .ok m₁ ∧
    m₁.run true [.build 4 5 none 2 false, .drop 34, .drop 4, .drop 1] = .ok m₂ ∧
    m₁.nodes.length - 1 ∈ m₂.held :=
  ⟨_, _, _, ⟨exSetup .matrixBased, rfl⟩, by decide +kernel, by decide +kernel, rfl, rfl,
    by decide +kernel⟩

/-- The hypotheses of the two `_violated` theorems. -/
example : ∃ m m₁ m₂ : Mem, m.Reached true ∧
    (UseStmt.build 4 5 none 2 false).allowed m = true ∧
    (m.obj 4).evaluator = some .matrixFree ∧
    m.exec true (.build 4 5 none 2 false) = .ok m₁ ∧
    m₁.run true [.drop 1] = .ok m₂ ∧ m₁.nodes.length - 1 ∈ m₂.held ∧
    m₂.Reads 4 1 ∧ ¬ m₂.Live 1 :=
  ⟨_, _, _, ⟨exSetup .matrixFree, rfl⟩, by decide +kernel, by decide +kernel, rfl, rfl,
    by decide +kernel, .single (by decide +kernel), by unfold Mem.Live; decide +kernel⟩

example : ∃ m m₁ m₂ : Mem, m.Reached true ∧
    (UseStmt.build 4 5 none 2 false).allowed m = true ∧
    (m.obj 4).evaluator = some (.device 3) ∧
    m.exec true (.build 4 5 none 2 false) = .ok m₁ ∧
    m₁.run true [.drop 3] = .ok m₂ ∧ m₁.nodes.length - 1 ∈ m₂.held ∧ ¬ m₂.Live 3 :=
  ⟨_, _, _, ⟨exSetup (.device 3), rfl⟩, by decide +kernel, by decide +kernel, rfl, rfl,
    by decide +kernel, by unfold Mem.Live; decide +kernel⟩

/-- Tear down in the order of construction, in release mode. -/
example : ∃ m m' : Mem, m.Reached false ∧ [0, 1, 2, 3, 4, 5, 6, 23].Perm m.held ∧
    m.run false ([0, 1, 2, 3, 4, 5, 6, 23].map .drop) = .ok m' ∧ m'.count.sum = 0 :=
  ⟨_, _, ⟨exSetup .matrixBased ++ [.build 4 5 (some 6) 3 false], rfl⟩, by decide +kernel, rfl,
    by decide +kernel⟩

end Mfmg
