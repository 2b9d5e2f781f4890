import Verif.Spec.Locality
import Verif.Lemmas.SetupAll
import Verif.Props.Restriction

/-!
# Lemmas about locality
-/

set_option autoImplicit false

namespace Mfmg

open Finset

variable {K : Type}

theorem tagged_rows {T : Type} (P : T → CopyData K → CopyData K → Prop) (cs cs' : List (CopyData K))
    (hlen : cs'.length = cs.length) (f : ℕ → T)
    (h : ∀ k c c', cs[k]? = some c → cs'[k]? = some c' →
      c'.eigenvectors.length = c.eigenvectors.length ∧ P (f k) c c') :
    ∃ Z : List (T × (CopyData K × List K) × (CopyData K × List K)),
      Z.map Prod.fst = (cs.mapIdx fun k c => List.replicate c.eigenvectors.length (f k)).flatten ∧
      Z.map (fun z => z.2.1) = rowsOf cs ∧ Z.map (fun z => z.2.2) = rowsOf cs' ∧
      ∀ z ∈ Z, P z.1 z.2.1.1 z.2.2.1 ∧ (z.2.1.1 = z.2.2.1 → z.2.1 = z.2.2) := by
  induction cs generalizing cs' f with
  | nil =>
    cases cs' with
    | nil => exact ⟨[], rfl, rfl, rfl, by simp⟩
    | cons => simp at hlen
  | cons c cs ih =>
    cases cs' with
    | nil => simp at hlen
    | cons c' cs' =>
      obtain ⟨Z, h1, h2, h3, h4⟩ := ih cs' (by simpa using hlen) (fun k => f (k + 1))
        (fun k d d' hd hd' => h (k + 1) d d' (by simpa using hd) (by simpa using hd'))
      obtain ⟨hn, hP⟩ := h 0 c c' rfl rfl
      refine ⟨((c.eigenvectors.zip c'.eigenvectors).map fun v => (f 0, (c, v.1), (c', v.2))) ++ Z,
        ?_, ?_, ?_, ?_⟩
      · rw [List.map_append, h1, List.mapIdx_cons, List.flatten_cons]
        congr 1
        rw [List.map_map, List.eq_replicate_iff]
        refine ⟨by simp [hn], ?_⟩
        rintro b hb
        obtain ⟨v, -, rfl⟩ := List.mem_map.1 hb
        rfl
      · rw [List.map_append, h2, rowsOf, rowsOf, List.flatMap_cons]
        congr 1
        rw [List.map_map]
        have : (c.eigenvectors.zip c'.eigenvectors).map Prod.fst = c.eigenvectors :=
          List.map_fst_zip (by omega)
        conv_rhs => rw [← this, List.map_map]
        rfl
      · rw [List.map_append, h3, rowsOf, rowsOf, List.flatMap_cons]
        congr 1
        rw [List.map_map]
        have : (c.eigenvectors.zip c'.eigenvectors).map Prod.snd = c'.eigenvectors :=
          List.map_snd_zip (by omega)
        conv_rhs => rw [← this, List.map_map]
        rfl
      · intro z hz
        rcases List.mem_append.1 hz with hz | hz
        · obtain ⟨v, hv, rfl⟩ := List.mem_map.1 hz
          refine ⟨hP, fun he => ?_⟩
          have he : c = c' := he
          subst he
          have hv' : v.1 = v.2 := by
            obtain ⟨i, hi, rfl⟩ := List.getElem_of_mem hv
            simp
          simp [hv']
        · exact h4 z hz

/-- What is known of a row before and after. -/
def RowPair (t : Changed K × Finset ℕ) (c c' : CopyData K) : Prop :=
  ((∀ d ∈ t.2, d ∉ t.1.cells) → c = c') ∧ ∀ x, x ∈ c.dofMap ↔ ∃ d ∈ t.2, x ∈ t.1.before.cellDofs d

theorem Changed.Local.aggCells {ch : Changed K} {name : String} (h : ch.Local name) (u : UserIndex) (k : ℕ) :
    ch.after.aggCells u k = ch.before.aggCells u k := by
  rw [ProcFem.aggCells, ProcFem.aggCells, h.mesh]

theorem Changed.Local.agglomerate {ch : Changed K} {name : String} (h : ch.Local name) (debug : Bool) (dim : ℕ)
    (s : Strategy) (u : UserIndex) :
    ch.after.share.agglomerate debug dim s u = ch.before.share.agglomerate debug dim s u := by
  cases s <;> simp only [Share.agglomerate, h.mesh, h.graph, h.partition]

variable [AddCommMonoid K]

theorem Changed.Local.pair {ch : Changed K} {name : String} (h : ch.Local name) {u : UserIndex}
    {cs cs' : List (CopyData K)} (hr : ch.before.Result name u cs) (hr' : ch.after.Result name u cs') (k : ℕ)
    (c c' : CopyData K) (hc : cs[k]? = some c) (hc' : cs'[k]? = some c') :
    c'.eigenvectors.length = c.eigenvectors.length ∧ RowPair (ch, ch.before.aggCells u k) c c' := by
  have h1 := hr.solved k c hc
  have h2 := hr'.solved k c' hc'
  rw [h.aggCells] at h2
  refine ⟨h.number _ c c' h1 h2, fun hf => ?_, hr.dofs k c hc⟩
  rw [h.solver _ (fun d hd => hf d (by simpa using hd)), h1] at h2
  exact Outcome.ok.inj h2

theorem tagged_setup {debug : Bool} {dim : ℕ} {strat : Strategy} {name : String} (chs : List (Changed K))
    (hl : ∀ ch ∈ chs, ch.Local name) (rs rs' : List (UserIndex × List (CopyData K)))
    (h : List.Forall₂ (fun q r => q.Result name r.1 r.2 ∧
      q.share.agglomerate debug dim strat (fun _ => 0) = .ok (r.1, r.2.length)) (chs.map Changed.before) rs)
    (h' : List.Forall₂ (fun q r => q.Result name r.1 r.2 ∧
      q.share.agglomerate debug dim strat (fun _ => 0) = .ok (r.1, r.2.length)) (chs.map Changed.after) rs') :
    rs'.map Prod.fst = rs.map Prod.fst ∧
    ∃ Z : List ((Changed K × Finset ℕ) × (CopyData K × List K) × (CopyData K × List K)),
      Z.map Prod.fst = rowAgglomerates Changed.before (chs.zip rs) ∧
      Z.map (fun z => z.2.1) = rowsOf (rs.map Prod.snd).flatten ∧
      Z.map (fun z => z.2.2) = rowsOf (rs'.map Prod.snd).flatten ∧
      ∀ z ∈ Z, RowPair z.1 z.2.1.1 z.2.2.1 ∧ (z.2.1.1 = z.2.2.1 → z.2.1 = z.2.2) := by
  induction chs generalizing rs rs' with
  | nil =>
    cases h
    cases h'
    exact ⟨rfl, [], rfl, rfl, rfl, by simp⟩
  | cons ch chs ih =>
    obtain ⟨r, rs, ⟨hr, ha⟩, hrs, rfl⟩ := List.forall₂_cons_left_iff.1 h
    obtain ⟨r', rs', ⟨hr', ha'⟩, hrs', rfl⟩ := List.forall₂_cons_left_iff.1 h'
    obtain ⟨i0, Z, i1, i2, i3, i4⟩ := ih (fun c hc => hl c (List.mem_cons_of_mem _ hc)) rs rs' hrs hrs'
    have hch := hl ch List.mem_cons_self
    obtain ⟨u, cs⟩ := r
    obtain ⟨u', cs'⟩ := r'
    rw [hch.agglomerate, ha] at ha'
    have hu : u = u' ∧ cs.length = cs'.length := by simpa using Outcome.ok.inj ha'
    obtain ⟨rfl, hlen⟩ := hu
    obtain ⟨Y, j1, j2, j3, j4⟩ := tagged_rows RowPair cs cs' hlen.symm
      (fun k => (ch, ch.before.aggCells u k)) (hch.pair hr hr')
    refine ⟨by simp [i0], Y ++ Z, ?_, ?_, ?_, ?_⟩
    · rw [List.map_append, i1, j1, rowAgglomerates, rowAgglomerates, List.zip_cons_cons, List.flatMap_cons]
    · rw [List.map_append, i2, j2, List.map_cons, List.flatten_cons, rowsOf, rowsOf, rowsOf, List.flatMap_append]
    · rw [List.map_append, i3, j3, List.map_cons, List.flatten_cons, rowsOf, rowsOf, rowsOf, List.flatMap_append]
    · intro z hz
      rcases List.mem_append.1 hz with hz | hz
      · exact j4 z hz
      · exact i4 z hz

theorem globalEntry_untouched {name : String} (chs : List (Changed K)) (hl : ∀ ch ∈ chs, ch.Local name)
    (hq : ∀ ch ∈ chs, ch.before.Faithful name) (hq' : ∀ ch ∈ chs, ch.after.Faithful name) (x y : ℕ)
    (h : ¬ (TouchedDof chs x ∧ TouchedDof chs y)) :
    globalEntry (chs.map Changed.after) x y = globalEntry (chs.map Changed.before) x y := by
  simp only [globalEntry, List.map_map]
  congr 1
  apply List.map_congr_left
  intro ch hch
  have hl' := hl ch hch
  have hown : ch.after.ownCells = ch.before.ownCells := by
    rw [ProcFem.ownCells, ProcFem.ownCells, hl'.mesh]
  simp only [Function.comp_apply, hown]
  apply Finset.sum_congr rfl
  intro c hc
  by_cases hD : c ∈ ch.cells
  · have key : ¬ (x ∈ ch.before.cellDofs c ∧ y ∈ ch.before.cellDofs c) := fun hh =>
      h ⟨⟨ch, hch, c, hc, hD, hh.1⟩, ⟨ch, hch, c, hc, hD, hh.2⟩⟩
    have e1 : ch.before.cellMat c x y = 0 := by
      by_contra h0
      exact key ((hq ch hch).support c x y h0)
    have e2 : ch.after.cellMat c x y = 0 := by
      by_contra h0
      have := (hq' ch hch).support c x y h0
      rw [hl'.dofs] at this
      exact key this
    rw [e1, e2]
  · rw [hl'.same c hD]

end Mfmg
