import Verif.Model.DeviceFaults

/-!
# Specification: errors of the device are reported
-/

set_option autoImplicit false

namespace Mfmg

variable {K : Type}

/-- The same machine without faults. -/
def Machine.clean (m : Machine K) : Machine K := { m with fault := fun _ => .none }

/-- No call from number `i` up to number `j` (without it) fails. -/
def Machine.NoFault (m : Machine K) (i j : ℕ) : Prop := ∀ n, i ≤ n → n < j → m.fault n = .none

/-- The call number `n` fails and no other. -/
def Machine.OnlyFault (m : Machine K) (n : ℕ) : Prop := m.fault n = .fails ∧ ∀ k, k ≠ n → m.fault k = .none

/-- The state of a device without errors. -/
def DevState.Healthy (s : DevState) : Prop := s.pending = false ∧ s.broken = false

/-- A program returns only if none of its calls failed (from the state `s` on). -/
def ReportsErrors {α : Type} (m : Machine K) (p : Dev α) (s : DevState) : Prop :=
  ∀ a s', p s = .ok (a, s') → s.calls ≤ s'.calls ∧ m.NoFault s.calls s'.calls

/-- A program neither throws nor ends in `std::abort`. -/
def Silent {α : Type} (p : Dev α) (s : DevState) : Prop :=
  p s ≠ .aborted ∧ ∀ msg, p s ≠ .throws msg

end Mfmg
