import Verif.Model.SelfTest
/-! What users expect of the self-test. -/
namespace ExtMpi.SelfTest

/-- No access outside of the buffers, whatever is in memory. -/
def Safe (size : Buf → Nat) (test : List Op) : Prop := ∀ s, (run size test s).isSome = true

/-- The test ends without complaint. -/
def Accepts (size : Buf → Nat) (test : List Op) (mem : Buf → Nat → Nat) : Prop :=
  ∃ s, run size test ⟨mem, false⟩ = some s ∧ s.bad = false

/-- Positions that belong to one of `P` parts. -/
def Covered (P ts : Nat) (counts displs : Nat → Nat) (x : Nat) : Prop :=
  ∃ j < P, displs j * ts ≤ x ∧ x < displs j * ts + counts j * ts

/-- The parts lie in a buffer of `user` bytes. -/
def Fits (P ts user : Nat) (counts displs : Nat → Nat) : Prop := ∀ j < P, displs j * ts + counts j * ts ≤ user

end ExtMpi.SelfTest
