import Verif.Model.OnNode
import Mathlib.Algebra.BigOperators.Group.Finset.Basic
/-! What the programs of the processes of a node promise. -/
namespace ExtMpi.OnNode

/-- All processes are at the end of their programs. -/
def Finished {X : Type} (n : Nat) (s : State X) : Prop := ∀ p, p < n → s.rest p = []

/-- The programs are correct: whatever the order of the actions of the processes, executions are finite, none of them
gets stuck, and each of them ends in a memory with the property `post`. -/
def Correct {X : Type} [Add X] (n : Nat) (prog : Nat → List Instr) (m : Cell → X) (post : (Cell → X) → Prop) : Prop :=
  ∃ bound, ∀ k s, Steps n k (start n prog m) s →
    k ≤ bound ∧ ((Finished n s ∧ post s.mem) ∨ ∃ p s', p < n ∧ Step p s s')

/-- In the `k`-th execution every process gets the element-wise sum of the first `len` elements of the send buffers of
all `n` processes; nothing else of the buffers of the user changes. -/
def AllreduceNode {X : Type} [AddCommMonoid X] (n len k : Nat) (m mem : Cell → X) : Prop :=
  ∀ p, p < n → (∀ e, e < len → mem (.recv p k e) = ∑ q ∈ Finset.range n, m (.send q k e)) ∧
    (∀ e, len ≤ e → mem (.recv p k e) = m (.recv p k e)) ∧ ∀ e, mem (.send p k e) = m (.send p k e)

end ExtMpi.OnNode
