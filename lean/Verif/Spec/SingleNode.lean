import Verif.Spec.OnNode
/-! What the collectives on a single node promise: contents of the receive buffers, given the send buffers. -/
namespace ExtMpi.SingleNode
open OnNode

/-- In the `k`-th execution element `y` of the receive buffer of process `p` becomes `want p y s` where `s` are the send
buffers, or stays if that is `none`; nothing else of the buffers of the user changes. -/
def Delivered {X : Type} (n k : Nat) (want : Nat → Nat → (Nat → Nat → X) → Option X) (m mem : Cell → X) : Prop :=
  ∀ p, p < n → ∀ y,
    mem (.recv p k y) = (want p y fun q e => m (.send q k e)).getD (m (.recv p k y)) ∧
    mem (.send p k y) = m (.send p k y)

/-- Elements before the part of process `p`. -/
def before (cnt : Nat → Nat) (p : Nat) : Nat := ∑ q ∈ Finset.range p, cnt q

/-- The parts of all processes one after the other. -/
def together {X : Type} (n : Nat) (cnt : Nat → Nat) (s : Nat → Nat → X) : List X :=
  (List.range n).flatMap fun q => (List.range (cnt q)).map fun e => s q e

/-- Broadcast: the other processes get the data of the root. -/
def Bcast {X : Type} (len root : Nat) (p y : Nat) (s : Nat → Nat → X) : Option X :=
  if p ≠ root ∧ y < len then some (s root y) else none

/-- Scatter: every process gets its part of the data of the root. -/
def Scatter {X : Type} (cnt : Nat → Nat) (root : Nat) (p y : Nat) (s : Nat → Nat → X) : Option X :=
  if y < cnt p then some (s root (before cnt p + y)) else none

/-- Allgather: everybody gets the parts of all processes. -/
def Allgather {X : Type} (n : Nat) (cnt : Nat → Nat) (_p y : Nat) (s : Nat → Nat → X) : Option X :=
  (together n cnt s)[y]?

/-- Gather: the root gets the parts of all processes. -/
def Gather {X : Type} (n : Nat) (cnt : Nat → Nat) (root : Nat) (p y : Nat) (s : Nat → Nat → X) : Option X :=
  if p = root then (together n cnt s)[y]? else none

/-- Reduce_scatter: every process gets its part of the sum. -/
def ReduceScatter {X : Type} [AddCommMonoid X] (n : Nat) (cnt : Nat → Nat) (p y : Nat) (s : Nat → Nat → X) : Option X :=
  if y < cnt p then some (∑ q ∈ Finset.range n, s q (before cnt p + y)) else none

/-- Reduce: the root gets the sum. -/
def Reduce {X : Type} [AddCommMonoid X] (n len root : Nat) (p y : Nat) (s : Nat → Nat → X) : Option X :=
  if p = root ∧ y < len then some (∑ q ∈ Finset.range n, s q y) else none

/-- Scatterv: the part of process `p` starts at `displs p` in the buffer of the root. -/
def ScattervD {X : Type} (cnt displs : Nat → Nat) (root : Nat) (p y : Nat) (s : Nat → Nat → X) : Option X :=
  if y < cnt p then some (s root (displs p + y)) else none

/-- Allgatherv: the part of process `q` is at `displs q` in every receive buffer, the send buffers are unchanged. (Nothing is said about the rest of
the receive buffers.) -/
def AllgathervD {X : Type} (n k : Nat) (cnt displs : Nat → Nat) (m mem : Cell → X) : Prop :=
  ∀ p < n, ∀ q < n, ∀ e < cnt q, mem (.recv p k (displs q + e)) = m (.send q k e)

end ExtMpi.SingleNode
