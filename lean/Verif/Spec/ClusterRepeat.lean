import Verif.Model.ClusterRepeat
import Verif.Spec.Cluster
/-! What repeated executions by several processes on each of several nodes promise. -/
namespace ExtMpi.Cluster
open RawCode

/-- The element is in the send buffer of `S p` elements or the receive buffer of `R p` elements of process `p`. -/
def InBuffers (u : TasksNode.Users) (S R : Nat → Nat) (p : Nat) (a : Addr) : Prop :=
  (a.reg = .send ∧ u.send p ≤ a.off ∧ a.off < u.send p + S p) ∨ (a.reg = .recv ∧ u.recv p ≤ a.off ∧ a.off < u.recv p + R p)

/-- What an application may do between the executions: a process uses neither the shared memory of the library nor the
buffers of other processes of the node, and the processes of a node do not change elements that other ones use. -/
structure OwnData (ns : Nat) (u : TasksNode.Users) (S R : Nat → Nat) (fills : Nat → Nat → List Change) : Prop where
  shm : ∀ i p x, x ∈ fills i p → ∀ k, x.1.reg ≠ .shm k ∧ x.2.reg ≠ .shm k
  buffers : ∀ i p x, x ∈ fills i p → ∀ p', p ≠ p' → p / ns = p' / ns →
    ¬InBuffers u S R p' x.1 ∧ ¬InBuffers u S R p' x.2
  own : ∀ i p x, x ∈ fills i p → ∀ i' p' x', x' ∈ fills i' p' → p ≠ p' → p / ns = p' / ns → x.1 ≠ x'.1 ∧ x.1 ≠ x'.2
  ne : ∀ i p x, x ∈ fills i p → x.1 ≠ x.2

/-- Overwrite an element. -/
def change {X : Type} (m : Mem X) (x : Change) : Mem X :=
  fun r e => if r = x.1.reg ∧ e = x.1.off then m x.2.reg x.2.off else m r e

/-- The memories of the nodes after the changes `f p` of all processes `p`. -/
def changed {X : Type} (ns : Nat) (f : Nat → List Change) (m : Nat → Mem X) : Nat → Mem X :=
  fun a => ((List.range ns).flatMap fun r => f (a * ns + r)).foldl change (m a)

/-- The executions one at a time: all processes make their changes, then an execution, of which `post` is the result, takes
place, and so on. -/
def Serially {X : Type} (N ns : Nat) (fills : Nat → Nat → List Change) (post : (Nat → Mem X) → (Nat → Mem X) → Prop) :
    Nat → Nat → (Nat → Mem X) → (Nat → Mem X) → Prop
  | _, 0, m, m' => ∀ a, a < N → m' a = m a
  | s, K + 1, m, m' => ∃ mid, post (changed ns (fills s) m) mid ∧ Serially N ns fills post (s + 1) K mid m'

end ExtMpi.Cluster
