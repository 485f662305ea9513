import Verif.Model.Requests
import Verif.Spec.RawCode
/-! What an application with several requests relies on. -/
namespace ExtMpi.Requests
open RawCode

/-- Calls that all processes make in the same order. What is put into the memory before a start differs from process to
process. -/
inductive GCall (X : Type) where
  | start (h : Nat) (fill : Nat → Hist X → Mem X → Mem X)
  | wait (h : Nat)

/-- The call of process `t`. -/
def GCall.at {X : Type} (t : Nat) : GCall X → Call X
  | .start h fill => .start h (fill t)
  | .wait h => .wait h

/-- A request is started when it is not active, waited for when it is active, and not active at the end. `A` tells the
requests that are active before. -/
def Ordered {X : Type} : (Nat → Bool) → List (GCall X) → Prop
  | A, [] => ∀ h, A h = false
  | A, .start h _ :: r => A h = false ∧ Ordered (put A h true) r
  | A, .wait h :: r => A h = true ∧ Ordered (put A h false) r

/-- What the processes receive if the operations are performed one at a time, in the order of the waits, each of them
on the memory as it was when it was started. `post h` relates the memories of request `h` before and after one
operation. -/
inductive Serial {X : Type} (post : Nat → (Nat → Mem X) → (Nat → Mem X) → Prop) :
    List (GCall X) → (Nat → Nat → Mem X) → (Nat → Hist X) → (Nat → Hist X) → Prop
  | nil {M H} : Serial post [] M H H
  | start {h fill r M H H'} : Serial post r (put M h fun t => fill t (H t) (M h t)) H H' →
      Serial post (.start h fill :: r) M H H'
  | wait {h r M H H' R} : post h (M h) R → Serial post r (put M h R) (fun t => H t ++ [(h, R t)]) H' →
      Serial post (.wait h :: r) M H H'

/-- MPI may perform the step even if it never buffers a message. -/
def MUnbuffered {X : Type} : MLab → MState X → Prop
  | .core h l, s => Unbuffered l (s.core h)
  | .user _, _ => True

/-- The application gets what `H'` tells: executions are finite, in every execution, with calls of `MPI_Test` anywhere,
every process has received a beginning of its list, and as long as not everything has been received there is a
next step, without buffering and, if `test` is not set, without a call of `MPI_Test`. -/
def Gets {X : Type} [Add X] (N : Nat) (prog : Nat → Nat → List Instr) (test : Bool) (s0 : MState X) (H' : Nat → Hist X) : Prop :=
  ∃ bound, ∀ k s, MSteps N prog true k s0 s →
    k ≤ bound ∧ (∀ t, t < N → s.hist t <+: H' t) ∧
    ((∀ t, t < N → s.calls t = [] ∧ s.hist t = H' t) ∨ ∃ l s', MUnbuffered l s ∧ MStep N prog test l s s')

end ExtMpi.Requests
