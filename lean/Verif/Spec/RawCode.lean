import Verif.Model.RawCode
import Mathlib.Algebra.BigOperators.Group.Finset.Basic
/-! What the generated programs promise. -/
namespace ExtMpi.RawCode

/-- MPI may perform the step even if it never buffers a message: a message leaves the sender only when the receiver
waits for it and no older one is under way. -/
def Unbuffered {X : Type} : Lab → State X → Prop
  | .depart q t, s => s.chan q t = [] ∧ (s.proc t).recvs q ≠ []
  | _, _ => True

/-- All processes are at the end of their programs, nothing is pending or under way. -/
def Final {X : Type} (N : Nat) (s : State X) : Prop :=
  ∀ t, t < N → (s.proc t).rest = [] ∧
    ∀ q, (s.proc t).recvs q = [] ∧ (s.proc t).sends q = [] ∧ s.chan q t = [] ∧ s.chan t q = []

/-- The instruction keeps the rules of MPI: the operands of a copy are separate, and nothing accesses the buffer of a receive
or writes the buffer of a send that is not complete. -/
def Allowed {X : Type} (p : Proc X) : Instr → Prop
  | .copy _ dst src n => ¬overlap dst n src n ∧ p.clearRecv dst n ∧ p.clearSend dst n ∧ p.clearRecv src n
  | .irecv buf n _ => p.clearRecv buf n ∧ p.clearSend buf n
  | .isend buf n _ => p.clearRecv buf n
  | _ => True

/-- No process is about to break the rules of MPI. -/
def Safe {X : Type} (N : Nat) (s : State X) : Prop :=
  ∀ t, t < N → ∀ i r, (s.proc t).rest = i :: r → Allowed (s.proc t) i

/-- The programs are correct: executions are finite, no execution gets stuck (not even if MPI never buffers a
message) or touches the buffer of a message that is not complete, and every execution ends in a memory with the property
`post`. -/
def Correct {X : Type} [Add X] (N : Nat) (prog : Nat → List Instr) (m : Nat → Mem X)
    (post : (Nat → Mem X) → Prop) : Prop :=
  ∃ bound, ∀ k s, Steps N k (initial prog m) s →
    k ≤ bound ∧ Safe N s ∧
    ((Final N s ∧ post fun t => (s.proc t).mem) ∨ ∃ l s', Unbuffered l s ∧ Step N l s s')

/-- Every receive buffer holds the element-wise sum of the first `len` elements of all send buffers; nothing else of
the buffers of the user changes. -/
def AllreduceMem {X : Type} [AddCommMonoid X] (N len : Nat) (m mem : Nat → Mem X) : Prop :=
  ∀ t, t < N → (∀ e, e < len → mem t .recv e = ∑ s ∈ Finset.range N, m s .send e) ∧
    (∀ e, len ≤ e → mem t .recv e = m t .recv e) ∧ mem t .send = m t .send

/-- Every receive buffer holds the send buffers of all processes in their order, `cnt s` elements of process `s`;
nothing else of the buffers of the user changes. -/
def AllgatherMem {X : Type} (N : Nat) (cnt : Nat → Nat) (m mem : Nat → Mem X) : Prop :=
  ∀ t, t < N → (∀ s i, s < N → i < cnt s → mem t .recv (∑ k ∈ Finset.range s, cnt k + i) = m s .send i) ∧
    (∀ e, ∑ k ∈ Finset.range N, cnt k ≤ e → mem t .recv e = m t .recv e) ∧ mem t .send = m t .send

/-- The receive buffer of process `t` holds the sum of the part of `cnt t` elements of all send buffers that starts after
the parts of the processes before; nothing else of the buffers of the user changes. -/
def ReduceScatterMem {X : Type} [AddCommMonoid X] (N : Nat) (cnt : Nat → Nat) (m mem : Nat → Mem X) : Prop :=
  ∀ t, t < N →
    (∀ i, i < cnt t →
      mem t .recv i = ∑ s ∈ Finset.range N, m s .send (∑ k ∈ Finset.range t, cnt k + i)) ∧
    (∀ e, cnt t ≤ e → mem t .recv e = m t .recv e) ∧ mem t .send = m t .send

end ExtMpi.RawCode
