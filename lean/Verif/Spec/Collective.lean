import Verif.Model.Schedule
import Mathlib.Algebra.BigOperators.Group.Finset.Basic
/-! What the collectives promise. -/
namespace ExtMpi.Schedule

/-- Whatever the send buffers and the scratch memory contain, the schedule runs to completion and
every result satisfies `post`. -/
def Computes {V O : Type} [Add V] (N : Nat) (co : Block → (Nat → V) → O) (sched : Nat → List Block)
    (post : (Nat → Nat → V) → (Nat → O) → Prop) : Prop :=
  ∀ inp junk, (∃ out, Exec N co sched inp junk out) ∧
    ∀ out, Exec N co sched inp junk out → post inp out

/-- Every node gets block `b` of node `b`, for all `b`. -/
def AllgatherPost {V : Type} (N : Nat) (inp : Nat → Nat → V) (out : Nat → Nat → Option V) : Prop :=
  ∀ t b, t < N → b < N → out t b = some (inp b b)

/-- Node `t` gets the sum of block `t` of all nodes. -/
def ReduceScatterPost {V : Type} [AddCommMonoid V] (N : Nat) (inp : Nat → Nat → V) (out : Nat → Option V) :
    Prop :=
  ∀ t, t < N → out t = some (∑ s ∈ Finset.range N, inp s t)

/-- Every node gets the sum of block `b` of all nodes, for all `b`. -/
def AllreducePost {V : Type} [AddCommMonoid V] (N : Nat) (inp : Nat → Nat → V)
    (out : Nat → Nat → Option V) : Prop :=
  ∀ t b, t < N → b < N → out t b = some (∑ s ∈ Finset.range N, inp s b)

/-- In every step the number of lines sent from `q` to `t` is the number of lines `t` receives
from `q`. -/
def Matched (N : Nat) (sched : Nat → List Block) : Prop :=
  ∀ (m q t : Nat) (bq bt : Block), q < N → t < N → q ≠ t → (sched q)[m]? = some bq → (sched t)[m]? = some bt →
    (sendIdx bq t).length = (recvIdx bt q).length

end ExtMpi.Schedule
