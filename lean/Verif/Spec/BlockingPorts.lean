import Mathlib.Algebra.BigOperators.Group.List.Basic
/-! What the port counts of the blocking reduce_scatter must provide, stated without the code that chooses them. -/
namespace ExtMpi.BlockingPorts

/-- The factors `rs` connect all `N` nodes with at most `P` partners in a step; the factors before the last do not suffice, and the last is at
most one larger than needed. -/
structure Steps (N P : Nat) (rs : List Nat) : Prop where
  nonempty : rs ≠ []
  range : ∀ r, r ∈ rs → 2 ≤ r ∧ r ≤ P + 1
  covers : N ≤ rs.prod
  before : rs.length = 1 ∨ rs.dropLast.prod < N
  last : ∀ l, rs.getLast? = some l → rs.dropLast.prod * (l - 2) < N

/-- The time of all steps, from the last to the first: `cost fac r` is the time of a step with factor `r` after steps with product `fac`. -/
def time {α : Type} [Add α] (cost : Nat → Nat → α) : Nat → Nat → List Nat → α
  | fac, r, [] => cost fac r
  | fac, r, r' :: rs => cost fac r + time cost (fac * r) r' rs

end ExtMpi.BlockingPorts
