import Verif.Model.TasksRun
import Verif.Spec.RawCode
/-! What the programs of several processes per node promise. -/
namespace ExtMpi.TasksNode
open RawCode

/-- Two instructions access a common element and one of them writes it. -/
def Conflict (i j : Instr) : Prop :=
  (∃ x y, x ∈ writes i ∧ y ∈ writes j ++ reads j ∧ overlap x.1 x.2 y.1 y.2) ∨
  ∃ x y, x ∈ reads i ∧ y ∈ writes j ∧ overlap x.1 x.2 y.1 y.2

/-- No race: the next instructions of two processes of a node do not conflict (a barrier accesses nothing). -/
def NoRace {X : Type} (N ns : Nat) (s : TState X) : Prop :=
  ∀ p p', p < N * ns → p' < N * ns → p ≠ p' → p / ns = p' / ns → ∀ i r i' r',
    (s.task p).rest = i :: r → (s.task p').rest = i' :: r' → ¬Conflict i i'

/-- MPI may perform the step even if it never buffers a message. -/
def TUnbuffered {X : Type} : Lab → TState X → Prop
  | .depart q t, s => s.chan q t = [] ∧ (s.task t).recvs q ≠ []
  | _, _ => True

/-- All processes are at the end of their programs, nothing is pending or under way. -/
def TFinal {X : Type} (N ns : Nat) (s : TState X) : Prop :=
  ∀ p, p < N * ns → (s.task p).rest = [] ∧
    ∀ q, (s.task p).recvs q = [] ∧ (s.task p).sends q = [] ∧ s.chan q p = [] ∧ s.chan p q = []

/-- No process is about to break the rules of MPI: its next instruction neither accesses the buffer of a receive nor writes the
buffer of a send that any process of its node has not completed, and the operands of a copy are separate. -/
def TSafe {X : Type} (N ns : Nat) (s : TState X) : Prop :=
  ∀ p, p < N * ns → ∀ i r, (s.task p).rest = i :: r → Clear ns s (p / ns) i

/-- The programs are correct if process `p` waits in its `k`-th barrier for the processes `p'` with `W p k p'`: executions
are finite, no execution gets stuck (not even if MPI never buffers a message), has a race or touches the buffer of a message that
is not complete, and every execution ends in memories with the property `post`. -/
def WCorrect {X : Type} [Add X] (N ns : Nat) (W : Nat → Nat → Nat → Prop) (prog : Nat → List Instr) (m : Nat → Mem X)
    (post : (Nat → Mem X) → Prop) : Prop :=
  ∃ bound, ∀ k s, TSteps N ns W k (startT prog m) s →
    k ≤ bound ∧ NoRace N ns s ∧ TSafe N ns s ∧
    ((TFinal N ns s ∧ post s.mem) ∨ ∃ l s', TUnbuffered l s ∧ TStep N ns W l s s')

/-- In every barrier a process waits for all processes of its node. -/
def All (_ _ _ : Nat) : Prop := True

/-- The programs are correct. -/
def TCorrect {X : Type} [Add X] (N ns : Nat) (prog : Nat → List Instr) (m : Nat → Mem X)
    (post : (Nat → Mem X) → Prop) : Prop := WCorrect N ns All prog m post

/-- The receive buffers of the processes of a node, with `len` elements, do not overlap. -/
def Apart (ns : Nat) (u : Users) (len : Nat) : Prop :=
  ∀ p p', p ≠ p' → p / ns = p' / ns → ¬overlap ⟨.recv, u.recv p⟩ len ⟨.recv, u.recv p'⟩ len

/-- Every receive buffer holds the send buffers of all processes in their order, `cnt t` elements of process `t`;
nothing else outside of the scratch buffers changes. -/
def TAllgatherMem {X : Type} (N ns : Nat) (u : Users) (cnt : Nat → Nat) (m mem : Nat → Mem X) : Prop :=
  (∀ t, t < N * ns → ∀ p i, p < N * ns → i < cnt p →
    mem (t / ns) .recv (u.recv t + (∑ k ∈ Finset.range p, cnt k + i)) = m (p / ns) .send (u.send p + i)) ∧
  (∀ a, a < N → ∀ e, (∀ t, t < N * ns → t / ns = a → ¬(u.recv t ≤ e ∧ e < u.recv t + ∑ k ∈ Finset.range (N * ns), cnt k)) →
    mem a .recv e = m a .recv e) ∧
  ∀ a, a < N → mem a .send = m a .send

end ExtMpi.TasksNode
