import Verif.Model.Cluster
import Verif.Spec.TasksRun
/-! What the programs of the processes of several nodes promise. -/
namespace ExtMpi.Cluster
open RawCode
open TasksNode (Users Conflict)

/-- No race: the next instructions of two processes of a node do not access a common element of the memory of the node
with one of them writing it. -/
def CNoRace {X : Type} (N ns : Nat) (s : CState X) : Prop :=
  ∀ p p', p < N * ns → p' < N * ns → p ≠ p' → p / ns = p' / ns → ∀ i r i' r',
    (s.task p).rest = .op i :: r → (s.task p').rest = .op i' :: r' → ¬Conflict i i'

/-- No process is about to break the rules of MPI: its next instruction neither accesses the buffer of a receive nor writes the
buffer of a send that any process of its node has not completed, and the operands of a copy are separate. -/
def CSafe {X : Type} (N ns : Nat) (s : CState X) : Prop :=
  ∀ p, p < N * ns → ∀ i r, (s.task p).rest = .op i :: r → CClear ns s (p / ns) i

/-- MPI may perform the step even if it never buffers a message. -/
def CUnbuffered {X : Type} : Lab → CState X → Prop
  | .depart q t, s => s.chan q t = [] ∧ (s.task t).recvs q ≠ []
  | _, _ => True

/-- All processes are at the end of their programs, nothing is pending or under way. -/
def CFinal {X : Type} (N ns : Nat) (s : CState X) : Prop :=
  ∀ p, p < N * ns → (s.task p).rest = [] ∧
    ∀ q, (s.task p).recvs q = [] ∧ (s.task p).sends q = [] ∧ s.chan q p = [] ∧ s.chan p q = []

/-- The programs are correct: executions are finite, no execution gets stuck (not even if MPI never buffers a message),
has a race or touches the buffer of a message that is not complete, and every execution ends in memories of the nodes with the
property `post`. -/
def CCorrect {X : Type} [Add X] (N ns : Nat) (prog : Nat → List CInstr) (m : Nat → Mem X)
    (post : (Nat → Mem X) → Prop) : Prop :=
  ∃ bound, ∀ k s, CSteps N ns k (startC prog m) s →
    k ≤ bound ∧ CNoRace N ns s ∧ CSafe N ns s ∧
    ((CFinal N ns s ∧ post s.mem) ∨ ∃ l s', CUnbuffered l s ∧ CStep N ns l s s')

/-- The receive buffers of the processes of a node, with `cnt p` elements of process `p`, have no element in common. -/
def ApartBy (ns : Nat) (u : Users) (cnt : Nat → Nat) : Prop :=
  ∀ p p', p ≠ p' → p / ns = p' / ns → ∀ i j, i < cnt p → j < cnt p' → u.recv p + i ≠ u.recv p' + j

/-- Every receive buffer holds the element-wise sum of the first `len` elements of the send buffers of all processes of
all nodes; nothing else outside of the scratch buffers changes. -/
def CAllreduceMem {X : Type} [AddCommMonoid X] (N ns : Nat) (u : Users) (len : Nat) (m mem : Nat → Mem X) : Prop :=
  (∀ t, t < N * ns → ∀ e, e < len →
    mem (t / ns) .recv (u.recv t + e) = ∑ p ∈ Finset.range (N * ns), m (p / ns) .send (u.send p + e)) ∧
  (∀ a, a < N → ∀ e, (∀ t, t < N * ns → t / ns = a → ¬(u.recv t ≤ e ∧ e < u.recv t + len)) →
    mem a .recv e = m a .recv e) ∧
  ∀ a, a < N → mem a .send = m a .send

/-- The receive buffer of process `t` holds the sum over all processes of the part of `cnt t` elements of their send
buffers that starts after the parts of the processes before `t`; nothing else outside of the scratch buffers changes. -/
def CReduceScatterMem {X : Type} [AddCommMonoid X] (N ns : Nat) (u : Users) (cnt : Nat → Nat) (m mem : Nat → Mem X) : Prop :=
  (∀ t, t < N * ns → ∀ e, e < cnt t →
    mem (t / ns) .recv (u.recv t + e) =
      ∑ p ∈ Finset.range (N * ns), m (p / ns) .send (u.send p + (∑ k ∈ Finset.range t, cnt k + e))) ∧
  (∀ a, a < N → ∀ e, (∀ t, t < N * ns → t / ns = a → ¬(u.recv t ≤ e ∧ e < u.recv t + cnt t)) →
    mem a .recv e = m a .recv e) ∧
  ∀ a, a < N → mem a .send = m a .send

end ExtMpi.Cluster
