import Verif.Model.RootNode
import Mathlib.Algebra.BigOperators.Group.Finset.Basic
/-! What rooted collectives promise: the process `rank` is on the node `rank / ns`. -/
namespace ExtMpi.RootNode
open Schedule Rooted Forward

/-- The schedule runs to completion and the node of process `rank` gets block `b` of node `b`. -/
def GathersTo (N ns rank : Nat) (rows : List Row) : Prop :=
  ∀ (V : Type) [AddCommMonoid V] (inp junk : Nat → Nat → V), (∃ out, ExecD N copyOut rows inp junk out) ∧
    ∀ out, ExecD N copyOut rows inp junk out → ∀ b < N, out (rank / ns) b = some (inp b b)

/-- The schedule runs to completion and the node of process `rank` gets the sums. -/
def ReducesTo (N ns rank : Nat) (rows : List Row) : Prop :=
  ∀ (V : Type) [AddCommMonoid V] (inp junk : Nat → Nat → V), (∃ out, ExecD N copyOut rows inp junk out) ∧
    ∀ out, ExecD N copyOut rows inp junk out → ∀ b < N, out (rank / ns) b = some (∑ s ∈ Finset.range N, inp s b)

/-- The schedule runs to completion and all nodes get the data of process `rank`. -/
def BcastsFrom (N ns rank : Nat) (rows : List Row) : Prop :=
  ∀ (V : Type) [AddCommMonoid V] (inp : Nat → V) (junk : Nat → Nat → V), (∃ out, ExecF N (rank / ns) copyOut rows inp junk out) ∧
    ∀ out, ExecF N (rank / ns) copyOut rows inp junk out → ∀ t < N, ∀ b < N, out t b = some (inp b)

/-- The schedule runs to completion and all nodes get their part of the data of process `rank`. -/
def ScattersFrom (N ns rank : Nat) (rows : List Row) : Prop :=
  ∀ (V : Type) [AddCommMonoid V] (inp : Nat → V) (junk : Nat → Nat → V), (∃ out, ExecF N (rank / ns) copyOutFirst rows inp junk out) ∧
    ∀ out, ExecF N (rank / ns) copyOutFirst rows inp junk out → ∀ t < N, out t = some (inp t)

end ExtMpi.RootNode
