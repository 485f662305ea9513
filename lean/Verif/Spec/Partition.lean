/-! Specification of a division of a vector between processes. -/
namespace ExtMpi.Spec

/-- The `n` pieces `[off r, off r + len r)` stay inside a vector of `total` bytes and every byte
lies in exactly one piece. -/
def ExactPartition (total n : Nat) (off len : Nat → Nat) : Prop :=
  (∀ r, r < n → len r ≠ 0 → off r + len r ≤ total) ∧
  (∀ x, x < total → ∃ r, r < n ∧ (off r ≤ x ∧ x < off r + len r) ∧
    ∀ r', r' < n → (off r' ≤ x ∧ x < off r' + len r') → r' = r)

end ExtMpi.Spec
