import Verif.Spec.PatchBoundary
import Mathlib.Data.List.Basic
import Mathlib.Tactic.Common

/-!
# C72: boundary ids of patch meshes
-/

set_option autoImplicit false

namespace Mfmg

theorem mem_pushBoundary (c : ℕ) (v : ℕ × ℕ) (acc : List (ℕ × List (ℕ × ℕ))) (d : ℕ) (w : ℕ × ℕ) :
    (∃ vs, (d, vs) ∈ pushBoundary c v acc ∧ w ∈ vs) ↔
      (d = c ∧ w = v) ∨ ∃ vs, (d, vs) ∈ acc ∧ w ∈ vs := by
  induction acc with
  | nil =>
    simp only [pushBoundary, List.mem_singleton, Prod.mk.injEq, List.not_mem_nil, false_and, exists_false,
      or_false]
    constructor
    · rintro ⟨vs, ⟨rfl, rfl⟩, hw⟩; exact ⟨rfl, by simpa using hw⟩
    · rintro ⟨rfl, rfl⟩; exact ⟨[w], ⟨rfl, rfl⟩, by simp⟩
  | cons e rest ih =>
    obtain ⟨k, ks⟩ := e
    unfold pushBoundary
    by_cases h1 : c = k
    · rw [if_pos h1]
      subst h1
      constructor
      · rintro ⟨vs, hm, hw⟩
        rcases List.mem_cons.1 hm with h | h
        · obtain ⟨rfl, rfl⟩ := Prod.mk.injEq _ _ _ _ ▸ h
          rcases List.mem_append.1 hw with hw | hw
          · exact Or.inr ⟨ks, by simp, hw⟩
          · exact Or.inl ⟨rfl, by simpa using hw⟩
        · exact Or.inr ⟨vs, by simp [h], hw⟩
      · rintro (⟨rfl, rfl⟩ | ⟨vs, hm, hw⟩)
        · exact ⟨ks ++ [w], by simp, by simp⟩
        · rcases List.mem_cons.1 hm with h | h
          · obtain ⟨rfl, rfl⟩ := Prod.mk.injEq _ _ _ _ ▸ h
            exact ⟨vs ++ [v], by simp, by simp [hw]⟩
          · exact ⟨vs, by simp [h], hw⟩
    · rw [if_neg h1]
      by_cases h2 : c < k
      · rw [if_pos h2]
        constructor
        · rintro ⟨vs, hm, hw⟩
          rcases List.mem_cons.1 hm with h | h
          · obtain ⟨rfl, rfl⟩ := Prod.mk.injEq _ _ _ _ ▸ h
            exact Or.inl ⟨rfl, by simpa using hw⟩
          · exact Or.inr ⟨vs, h, hw⟩
        · rintro (⟨rfl, rfl⟩ | ⟨vs, hm, hw⟩)
          · exact ⟨[w], by simp, by simp⟩
          · exact ⟨vs, List.mem_cons_of_mem _ hm, hw⟩
      · rw [if_neg h2]
        constructor
        · rintro ⟨vs, hm, hw⟩
          rcases List.mem_cons.1 hm with h | h
          · exact Or.inr ⟨vs, by simp [h], hw⟩
          · rcases ih.1 ⟨vs, h, hw⟩ with h' | ⟨vs', h', hw'⟩
            · exact Or.inl h'
            · exact Or.inr ⟨vs', by simp [h'], hw'⟩
        · rintro (h | ⟨vs, hm, hw⟩)
          · obtain ⟨vs, hm, hw⟩ := ih.2 (Or.inl h)
            exact ⟨vs, by simp [hm], hw⟩
          · rcases List.mem_cons.1 hm with h | h
            · exact ⟨vs, by simp [h], hw⟩
            · obtain ⟨vs', hm', hw'⟩ := ih.2 (Or.inr ⟨vs, h, hw⟩)
              exact ⟨vs', by simp [hm'], hw'⟩

theorem mem_boundaryIds (m : MeshFaces) (agg : List ℕ) (c f b : ℕ) :
    (∃ vs, (c, vs) ∈ boundaryIds m agg ∧ (f, b) ∈ vs) ↔
      c ∈ agg ∧ f < m.facesPerCell ∧ m.atBoundary (m.face c f) = true ∧
        b = m.boundaryId (m.face c f) := by
  have hinner : ∀ (l : List ℕ) (d : ℕ) (acc : List (ℕ × List (ℕ × ℕ))),
      (∃ vs, (c, vs) ∈ l.foldl (fun acc f => if m.atBoundary (m.face d f) = true then
        pushBoundary d (f, m.boundaryId (m.face d f)) acc else acc) acc ∧ (f, b) ∈ vs) ↔
      (c = d ∧ f ∈ l ∧ m.atBoundary (m.face c f) = true ∧ b = m.boundaryId (m.face c f)) ∨
        ∃ vs, (c, vs) ∈ acc ∧ (f, b) ∈ vs := by
    intro l
    induction l with
    | nil => intro d acc; simp
    | cons f' l ih =>
      intro d acc
      rw [List.foldl_cons, ih]
      by_cases h : m.atBoundary (m.face d f') = true
      · rw [if_pos h, mem_pushBoundary]
        simp only [Prod.mk.injEq, List.mem_cons]
        constructor
        · rintro (⟨h1, h2, h3, h4⟩ | ⟨h1, h2, h3⟩ | h1)
          · exact Or.inl ⟨h1, Or.inr h2, h3, h4⟩
          · subst h1; subst h2; exact Or.inl ⟨rfl, Or.inl rfl, h, h3⟩
          · exact Or.inr h1
        · rintro (⟨h1, h2 | h2, h3, h4⟩ | h1)
          · subst h1; subst h2; exact Or.inr (Or.inl ⟨rfl, rfl, h4⟩)
          · exact Or.inl ⟨h1, h2, h3, h4⟩
          · exact Or.inr (Or.inr h1)
      · rw [if_neg h]
        simp only [List.mem_cons]
        constructor
        · rintro (⟨h1, h2, h3, h4⟩ | h1)
          · exact Or.inl ⟨h1, Or.inr h2, h3, h4⟩
          · exact Or.inr h1
        · rintro (⟨h1, h2 | h2, h3, h4⟩ | h1)
          · subst h1; subst h2; exact absurd h3 h
          · exact Or.inl ⟨h1, h2, h3, h4⟩
          · exact Or.inr h1
  have hcell : ∀ (d : ℕ) (acc : List (ℕ × List (ℕ × ℕ))),
      (∃ vs, (c, vs) ∈ cellBoundary m d acc ∧ (f, b) ∈ vs) ↔
      (c = d ∧ f < m.facesPerCell ∧ m.atBoundary (m.face c f) = true ∧
        b = m.boundaryId (m.face c f)) ∨ ∃ vs, (c, vs) ∈ acc ∧ (f, b) ∈ vs := by
    intro d acc
    unfold cellBoundary
    by_cases h : m.cellAtBoundary d = true
    · rw [if_pos h, hinner, List.mem_range]
    · rw [if_neg h]
      constructor
      · exact Or.inr
      · rintro (⟨rfl, h2, h3, -⟩ | h1)
        · refine absurd ?_ h
          unfold MeshFaces.cellAtBoundary
          rw [List.any_eq_true]
          exact ⟨f, List.mem_range.2 h2, h3⟩
        · exact h1
  have houter : ∀ (l : List ℕ) (acc : List (ℕ × List (ℕ × ℕ))),
      (∃ vs, (c, vs) ∈ l.foldl (fun acc c => cellBoundary m c acc) acc ∧ (f, b) ∈ vs) ↔
      (c ∈ l ∧ f < m.facesPerCell ∧ m.atBoundary (m.face c f) = true ∧
        b = m.boundaryId (m.face c f)) ∨ ∃ vs, (c, vs) ∈ acc ∧ (f, b) ∈ vs := by
    intro l
    induction l with
    | nil => intro acc; simp
    | cons d l ih =>
      intro acc
      rw [List.foldl_cons, ih, hcell, List.mem_cons]
      tauto
  rw [boundaryIds, houter]
  simp

/-- The ids are written face by face; a face is written only with its own id. -/
theorem setBoundaryIds_spec (p : PatchMesh) (ids : ℕ → ℕ) (b : ℕ × List (ℕ × ℕ)) (F id : ℕ)
    (hid : ∀ a, (a, b.1) ∈ p.cells → ∀ fb ∈ b.2, p.face a fb.1 = F → fb.2 = id) :
    (setBoundaryIds p ids b F = ids F ∨ setBoundaryIds p ids b F = id) ∧
    (∀ a, p.cells.find? (fun e => e.2 == b.1) = some (a, b.1) →
      (∃ fb ∈ b.2, p.face a fb.1 = F) → setBoundaryIds p ids b F = id) ∧
    (ids F = id → setBoundaryIds p ids b F = id) := by
  unfold setBoundaryIds
  cases hf : p.cells.find? (fun e => e.2 == b.1) with
  | none => simp
  | some e =>
    have hmem := List.mem_of_find?_eq_some hf
    have heq := List.find?_some hf
    obtain ⟨a, g⟩ := e
    have hg : g = b.1 := by simpa using heq
    subst hg
    have key : ∀ (l : List (ℕ × ℕ)) (ids : ℕ → ℕ), (∀ fb ∈ l, p.face a fb.1 = F → fb.2 = id) →
        (l.foldl (fun ids fb => Function.update ids (p.face a fb.1) fb.2) ids F = ids F ∨
          l.foldl (fun ids fb => Function.update ids (p.face a fb.1) fb.2) ids F = id) ∧
        ((∃ fb ∈ l, p.face a fb.1 = F) →
          l.foldl (fun ids fb => Function.update ids (p.face a fb.1) fb.2) ids F = id) ∧
        (ids F = id → l.foldl (fun ids fb => Function.update ids (p.face a fb.1) fb.2) ids F = id) := by
      intro l
      induction l with
      | nil => intro ids _; simp
      | cons fb l ih =>
        intro ids h
        simp only [List.foldl_cons]
        obtain ⟨i1, i2, i3⟩ := ih (Function.update ids (p.face a fb.1) fb.2)
          (fun x hx => h x (by simp [hx]))
        by_cases hF : p.face a fb.1 = F
        · have : Function.update ids (p.face a fb.1) fb.2 F = id := by
            rw [← hF, Function.update_self]; exact h fb (by simp) hF
          exact ⟨Or.inr (i3 this), fun _ => i3 this, fun _ => i3 this⟩
        · have e : Function.update ids (p.face a fb.1) fb.2 F = ids F :=
            Function.update_of_ne (Ne.symm hF) _ _
          rw [e] at i1 i3
          refine ⟨i1, ?_, i3⟩
          rintro ⟨x, hx, hxF⟩
          rcases List.mem_cons.1 hx with rfl | hx
          · exact absurd hxF hF
          · exact i2 ⟨x, hx, hxF⟩
    obtain ⟨k1, k2, k3⟩ := key b.2 ids (hid a hmem)
    refine ⟨k1, ?_, k3⟩
    intro a' ha'
    simp only [Option.some.injEq, Prod.mk.injEq, and_true] at ha'
    subst ha'
    exact k2

/-- **C72**, ids.  Every face of the patch mesh that belongs to a cell of the agglomerate has the boundary id
of the corresponding face of the mesh if that is on the boundary of the mesh, and the id 0 of a new
triangulation otherwise, whatever the order of the cells. -/
theorem C72_ids (m : MeshFaces) (p : PatchMesh) (agg : List ℕ) (hp : p.Copies m agg) (a g f : ℕ)
    (hag : (a, g) ∈ p.cells) (hg : g ∈ agg) (hf : f < m.facesPerCell) :
    patchBoundaryIds m p agg (p.face a f) =
      if m.atBoundary (m.face g f) = true then m.boundaryId (m.face g f) else 0 := by
  have hloop : ∀ (l : List (ℕ × List (ℕ × ℕ))) (ids : ℕ → ℕ) (F id : ℕ),
      (∀ b ∈ l, ∀ a', (a', b.1) ∈ p.cells → ∀ fb ∈ b.2, p.face a' fb.1 = F → fb.2 = id) →
      ((∀ b ∈ l, ∀ a', (a', b.1) ∈ p.cells → ∀ fb ∈ b.2, p.face a' fb.1 ≠ F) →
        l.foldl (setBoundaryIds p) ids F = ids F) ∧
      ((∃ b ∈ l, ∃ a', p.cells.find? (fun e => e.2 == b.1) = some (a', b.1) ∧
        ∃ fb ∈ b.2, p.face a' fb.1 = F) ∨ ids F = id → l.foldl (setBoundaryIds p) ids F = id) := by
    intro l
    induction l with
    | nil => intro ids F id _; simp
    | cons b l ih =>
      intro ids F id h
      obtain ⟨s1, s2, s3⟩ := setBoundaryIds_spec p ids b F id (h b (by simp))
      obtain ⟨i1, i2⟩ := ih (setBoundaryIds p ids b) F id (fun x hx => h x (by simp [hx]))
      simp only [List.foldl_cons]
      constructor
      · intro hno
        rw [i1 (fun x hx => hno x (by simp [hx]))]
        have hb := hno b (by simp)
        obtain ⟨t1, -, -⟩ := setBoundaryIds_spec p ids b F (ids F)
          (fun a' ha' fb hfb e => absurd e (hb a' ha' fb hfb))
        tauto
      · rintro (⟨x, hx, a', ha', hfb⟩ | he)
        · rcases List.mem_cons.1 hx with rfl | hx
          · exact i2 (Or.inr (s2 a' ha' hfb))
          · exact i2 (Or.inl ⟨x, hx, a', ha', hfb⟩)
        · exact i2 (Or.inr (s3 he))
  have hspec : ∀ b ∈ boundaryIds m agg, ∀ a', (a', b.1) ∈ p.cells → ∀ fb ∈ b.2,
      p.face a' fb.1 = p.face a f →
      m.atBoundary (m.face g f) = true ∧ fb.2 = m.boundaryId (m.face g f) := by
    rintro ⟨c, vs⟩ hb a' ha' ⟨f', id'⟩ hfb e
    obtain ⟨h1, h2, h3, h4⟩ := (mem_boundaryIds m agg c f' id').1 ⟨vs, hb, hfb⟩
    have := hp.faces a' a c g f' f ha' hag h2 hf e
    rw [← this]
    exact ⟨h3, h4⟩
  unfold patchBoundaryIds
  by_cases hB : m.atBoundary (m.face g f) = true
  · rw [if_pos hB]
    refine (hloop _ _ _ _ (fun b hb a' ha' fb hfb e => (hspec b hb a' ha' fb hfb e).2)).2 (Or.inl ?_)
    obtain ⟨vs, hvs, hm⟩ := (mem_boundaryIds m agg g f _).2 ⟨hg, hf, hB, rfl⟩
    refine ⟨(g, vs), hvs, a, ?_, (f, _), hm, rfl⟩
    cases hfind : p.cells.find? (fun e => e.2 == g) with
    | none =>
      have := List.find?_eq_none.1 hfind (a, g) hag
      simp at this
    | some e =>
      obtain ⟨a', g'⟩ := e
      have hm' := List.mem_of_find?_eq_some hfind
      have he := List.find?_some hfind
      have : g' = g := by simpa using he
      subst this
      rw [hp.unique a' a g' hm' hag]
  · rw [if_neg hB]
    exact (hloop _ _ _ 0 (fun b hb a' ha' fb hfb e => absurd (hspec b hb a' ha' fb hfb e).1 hB)).1
      (fun b hb a' ha' fb hfb e => hB (hspec b hb a' ha' fb hfb e).1)

/-- **C72**, which faces are artificial.  The ids of the patch mesh should tell the faces on the boundary of
the mesh from those inside the mesh.  They do if no face on the boundary of the mesh has the id 0.

Missing: meshes that use the id 0, the default of deal.II (`C72_zero_violated`). -/
theorem C72_distinguish_partial (m : MeshFaces) (p : PatchMesh) (agg : List ℕ) (hp : p.Copies m agg)
    (hz : ∀ g ∈ agg, ∀ f < m.facesPerCell, m.atBoundary (m.face g f) = true →
      m.boundaryId (m.face g f) ≠ 0)
    (a g f : ℕ) (hag : (a, g) ∈ p.cells) (hg : g ∈ agg) (hf : f < m.facesPerCell) :
    patchBoundaryIds m p agg (p.face a f) ≠ 0 ↔ m.atBoundary (m.face g f) = true := by
  rw [C72_ids m p agg hp a g f hag hg hf]
  by_cases h : m.atBoundary (m.face g f) = true
  · rw [if_pos h]; exact ⟨fun _ => h, fun _ => hz g hg f hf h⟩
  · rw [if_neg h]; simp [h]

/-- **C72**, id 0.  A face on the boundary of the mesh with id 0 has in the patch mesh the same id as every
face of the agglomerate inside the mesh: boundary conditions for id 0 are applied there too. -/
theorem C72_zero_violated (m : MeshFaces) (p : PatchMesh) (agg : List ℕ) (hp : p.Copies m agg)
    (a g f : ℕ) (hag : (a, g) ∈ p.cells) (hg : g ∈ agg) (hf : f < m.facesPerCell)
    (hb : m.atBoundary (m.face g f) = true) (hz : m.boundaryId (m.face g f) = 0)
    (a' g' f' : ℕ) (hag' : (a', g') ∈ p.cells) (hg' : g' ∈ agg) (hf' : f' < m.facesPerCell)
    (hb' : m.atBoundary (m.face g' f') = false) :
    patchBoundaryIds m p agg (p.face a f) = patchBoundaryIds m p agg (p.face a' f') := by
  rw [C72_ids m p agg hp a g f hag hg hf, C72_ids m p agg hp a' g' f' hag' hg' hf', if_pos hb, hz,
    if_neg (by simp [hb'])]

/-- Four cells on a line with faces `c`, `c + 1`; the left end has the id `i`, the right end 7.  The
agglomerate consists of the cells 1 and 0 (in this order), whose partners are 5 and 6. -/
def exFaces (i : ℕ) : MeshFaces := ⟨2, fun c f => c + f, fun F => F == 0 || F == 4, fun F => if F = 0 then i else 7⟩

def exPatchMesh : PatchMesh := ⟨[(5, 1), (6, 0)], fun a f => if a = 5 then 11 + f else 10 + f⟩

theorem exPatchMesh_copies (i : ℕ) : exPatchMesh.Copies (exFaces i) [1, 0] := by
  refine ⟨?_, ?_, ?_⟩
  · intro g hg
    simp only [List.mem_cons, List.not_mem_nil, or_false] at hg
    rcases hg with rfl | rfl
    · exact ⟨5, by simp [exPatchMesh]⟩
    · exact ⟨6, by simp [exPatchMesh]⟩
  · intro a b g ha hb
    simp only [exPatchMesh, List.mem_cons, Prod.mk.injEq, List.not_mem_nil, or_false] at ha hb
    omega
  · intro a b g h f f' ha hb _ _ e
    simp only [exPatchMesh, List.mem_cons, Prod.mk.injEq, List.not_mem_nil, or_false] at ha hb
    simp only [exPatchMesh, exFaces] at e ⊢
    rcases ha with ⟨rfl, rfl⟩ | ⟨rfl, rfl⟩ <;> rcases hb with ⟨rfl, rfl⟩ | ⟨rfl, rfl⟩ <;> simp at e <;> omega

example : patchBoundaryIds (exFaces 3) exPatchMesh [1, 0] 10 = 3 :=
  C72_ids (exFaces 3) exPatchMesh [1, 0] (exPatchMesh_copies 3) 6 0 0 (by decide) (by decide) (by decide)

example (a g f : ℕ) (hag : (a, g) ∈ exPatchMesh.cells) (hg : g ∈ [1, 0]) (hf : f < 2) :
    patchBoundaryIds (exFaces 3) exPatchMesh [1, 0] (exPatchMesh.face a f) ≠ 0 ↔
      (exFaces 3).atBoundary ((exFaces 3).face g f) = true :=
  C72_distinguish_partial _ _ _ (exPatchMesh_copies 3) (by decide) a g f hag hg hf

example : patchBoundaryIds (exFaces 0) exPatchMesh [1, 0] 10 =
    patchBoundaryIds (exFaces 0) exPatchMesh [1, 0] 12 :=
  C72_zero_violated _ _ _ (exPatchMesh_copies 0) 6 0 0 (by decide) (by decide) (by decide) (by decide)
    (by decide) 5 1 1 (by decide) (by decide) (by decide) (by decide)

end Mfmg
