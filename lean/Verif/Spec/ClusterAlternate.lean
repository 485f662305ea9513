import Verif.Model.ClusterAlternate
import Verif.Spec.ClusterRepeat
/-! What repeated executions with alternating shared memories promise: as in `Spec/Cluster.lean`. -/
namespace ExtMpi.Cluster
open RawCode
open TasksNode (Conflict)

/-- No race, as `CNoRace`. -/
def ANoRace {X : Type} (N ns : Nat) (s : AState X) : Prop :=
  ∀ p p', p < N * ns → p' < N * ns → p ≠ p' → p / ns = p' / ns → ∀ i r i' r',
    (s.task p).rest = .op i :: r → (s.task p').rest = .op i' :: r' → ¬Conflict i i'

/-- No process is about to break the rules of MPI, as `CSafe`. -/
def ASafe {X : Type} (N ns : Nat) (s : AState X) : Prop :=
  ∀ p, p < N * ns → ∀ i r, (s.task p).rest = .op i :: r → AClear ns s (p / ns) i

/-- MPI may perform the step even if it never buffers a message. -/
def AUnbuffered {X : Type} : Lab → AState X → Prop
  | .depart q t, s => s.chan q t = [] ∧ (s.task t).recvs q ≠ []
  | _, _ => True

/-- All processes are at the end of their programs, nothing is pending or under way. -/
def AFinal {X : Type} (N ns : Nat) (s : AState X) : Prop :=
  ∀ p, p < N * ns → (s.task p).rest = [] ∧
    ∀ q, (s.task p).recvs q = [] ∧ (s.task p).sends q = [] ∧ s.chan q p = [] ∧ s.chan p q = []

/-- The programs are correct, as `CCorrect`. -/
def ACorrect {X : Type} [Add X] (N ns : Nat) (prog : Nat → List AInstr) (m : Nat → Mem X)
    (post : (Nat → Mem X) → Prop) : Prop :=
  ∃ bound, ∀ k s, ASteps N ns k (startA prog m) s →
    k ≤ bound ∧ ANoRace N ns s ∧ ASafe N ns s ∧
    ((AFinal N ns s ∧ post s.mem) ∨ ∃ l s', AUnbuffered l s ∧ AStep N ns l s s')

end ExtMpi.Cluster
