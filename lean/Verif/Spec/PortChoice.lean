import Mathlib.Algebra.BigOperators.Group.List.Basic
/-! What a choice of factors must provide, stated without the code that makes the choice. -/
namespace ExtMpi.PortChoice

/-- The factors `nums` connect all `N` nodes, and no step is larger than needed: the factors before the
last do not suffice, and neither does a last factor that is one less. -/
structure Tight (N : Nat) (nums : List Nat) : Prop where
  nonempty : nums ≠ []
  range : ∀ n, n ∈ nums → 2 ≤ n ∧ n ≤ 13
  covers : N ≤ nums.prod
  before : nums.dropLast.prod < N
  last : ∀ l, nums.getLast? = some l → nums.dropLast.prod * (l - 1) < N

/-- A list of signed factors: reduction steps that undo the last `l` factors in reverse order, then all
factors. -/
def Shaped (nums : List Nat) (l : Nat) (fs : List Int) : Prop :=
  fs = (nums.reverse.take l).map (fun n : Nat => -(n : Int)) ++ nums.map (fun n : Nat => (n : Int))

end ExtMpi.PortChoice
