import Verif.Spec.Agglomerate
import Verif.Lemmas.Partitioner
import Mathlib.Tactic.Linarith

/-! # Concrete meshes for the satisfiability examples -/

set_option autoImplicit false

namespace Mfmg

/-- `X × Y` grid, cells numbered lexicographically, all owned. -/
def gridMesh (X Y : ℕ) : Mesh where
  nCells := X * Y
  owned c := decide (c < X * Y)
  nbr d c := match d with
    | .xp => if c % X + 1 < X then some (c + 1) else none
    | .yp => if c / X + 1 < Y then some (c + X) else none
    | .zp => none
  sameLevel _ _ := true

def gridPos (X : ℕ) (c : ℕ) : ℕ × ℕ × ℕ := (c % X, c / X, 0)

theorem gridMesh_box {X Y : ℕ} (hX : 1 ≤ X) : OwnedBox (gridMesh X Y) 2 X Y 1 (gridPos X) := by
  have key : ∀ c, c < X * Y → c / X < Y := fun c h => Nat.div_lt_of_lt_mul h
  have dm : ∀ c, X * (c / X) + c % X = c := fun c => Nat.div_add_mod c X
  have ml : ∀ c, c % X < X := fun c => Nat.mod_lt c hX
  have mk : ∀ x y, x < X → (X * y + x) % X = x ∧ (X * y + x) / X = y := by
    intro x y hx
    refine ⟨by rw [Nat.mul_add_mod, Nat.mod_eq_of_lt hx], ?_⟩
    rw [Nat.mul_add_div (by omega), Nat.div_eq_of_lt hx]; rfl
  have bound : ∀ x y, x < X → y < Y → X * y + x < X * Y := by
    intro x y hx hy
    have : X * (y + 1) ≤ X * Y := Nat.mul_le_mul_left _ hy
    rw [Nat.mul_add] at this
    omega
  refine ⟨?_, ?_, ?_, ?_, ?_, ?_, ?_, ?_, ?_, ?_, ?_, ?_⟩
  · intro c h; simpa [gridMesh] using h
  · intro c h
    have h' : c < X * Y := by simpa [gridMesh] using h
    exact ⟨ml c, key c h', by simp [gridPos]⟩
  · intro c d _ _ h
    simp only [gridPos, Prod.mk.injEq] at h
    rw [← dm c, ← dm d, h.1, h.2.1]
  · intro x y z hx hy hz
    refine ⟨X * y + x, by simp [gridMesh, bound x y hx hy], ?_⟩
    simp [gridPos, (mk x y hx).1, (mk x y hx).2]
    omega
  · intro c d _ _ h1 h2 _
    simp only [gridPos] at h1 h2
    rw [← dm c, ← dm d]
    have := Nat.mul_le_mul_left X h2
    omega
  · intro c h hlt
    have h' : c < X * Y := by simpa [gridMesh] using h
    simp only [gridPos] at hlt
    have e : c + 1 = X * (c / X) + (c % X + 1) := by have := dm c; omega
    refine ⟨c + 1, by simp [gridMesh, hlt], ?_, ?_⟩
    · have := bound (c % X + 1) (c / X) hlt (key c h')
      rw [← e] at this
      simpa [gridMesh] using this
    · have := mk (c % X + 1) (c / X) hlt
      rw [← e] at this
      simp [gridPos, this.1, this.2]
  · intro c h hlt
    have h' : c < X * Y := by simpa [gridMesh] using h
    simp only [gridPos] at hlt
    have e : c + X = X * (c / X + 1) + c % X := by have := dm c; rw [Nat.mul_add]; omega
    refine ⟨c + X, by simp [gridMesh, hlt], ?_, ?_⟩
    · have := bound (c % X) (c / X + 1) (ml c) hlt
      rw [← e] at this
      simpa [gridMesh] using this
    · have := mk (c % X) (c / X + 1) (ml c)
      rw [← e] at this
      simp [gridPos, this.1, this.2]
  · intro h; exact absurd h (by decide)
  · intro c c' _ h hn
    simp only [gridPos] at h
    simp [gridMesh, h] at hn
  · intro c c' _ h hn
    simp only [gridPos] at h
    simp [gridMesh, h] at hn
  · intro h; exact absurd h (by decide)
  · intro _; exact ⟨rfl, fun c => rfl⟩

/-- Five cells in a row, the fourth a ghost, for the partitioner path. -/
def rowMesh : GraphMesh where
  nCells := 5
  owned c := c != 3
  key c := (0, c)
  faces c := match c with
    | 0 => [(true, false, (0, 1))]
    | 1 => [(true, false, (0, 0)), (true, false, (0, 2))]
    | 2 => [(true, false, (0, 1)), (false, false, (0, 3))]
    | 4 => [(false, false, (0, 3))]
    | _ => []

theorem rowMesh_sound : rowMesh.Sound := by
  refine ⟨?_, ?_⟩
  · intro c d _ _ _ _ h
    simpa [rowMesh] using h
  · intro c k hc ho h
    have hc' : c < 5 := hc
    have : c = 0 ∨ c = 1 ∨ c = 2 ∨ c = 3 ∨ c = 4 := by omega
    rcases this with rfl | rfl | rfl | rfl | rfl
    · simp [rowMesh] at h
      exact ⟨1, by decide, by decide, h.symm⟩
    · simp [rowMesh] at h
      rcases h with h | h
      · exact ⟨0, by decide, by decide, h.symm⟩
      · exact ⟨2, by decide, by decide, h.symm⟩
    · simp [rowMesh] at h
      exact ⟨1, by decide, by decide, h.symm⟩
    · simp [rowMesh] at ho
    · simp [rowMesh] at h

end Mfmg
