import Verif.Model.Sockets
import Verif.Spec.OnNode
import Verif.Spec.RawCode
/-! What the programs of several sockets on one node promise. -/
namespace ExtMpi.Sockets
open RawCode

/-- The actions of process `t`. -/
def actions (n : Nat) (prog : Nat → Option (List SInstr)) (t : Nat) : List OnNode.Act :=
  ((prog t).bind (allActs n t)).getD []

/-- The programs of `n` sockets with one process each on one node are correct: they exist and have no messages, and whatever the
order of the actions of the processes, executions are finite, none of them gets stuck, and each of them ends in a memory with
the property `post`. -/
def NodeCorrect {X : Type} [Add X] (n : Nat) (prog : Nat → Option (List SInstr)) (m : OnNode.Cell → X)
    (post : (OnNode.Cell → X) → Prop) : Prop :=
  (∀ t, t < n → ((prog t).bind (allActs n t)).isSome = true) ∧
    ∃ bound, ∀ k s, OnNode.Steps n k (start (actions n prog) m) s →
      k ≤ bound ∧ ((OnNode.Finished n s ∧ post s.mem) ∨ ∃ p s', p < n ∧ OnNode.Step p s s')

/-- The memory of the node holds the memories of the processes: their buffers, and as segments their scratch memories. -/
def Holds {X : Type} (n : Nat) (mem : Nat → Mem X) (m : OnNode.Cell → X) : Prop :=
  ∀ t, t < n → ∀ x, m (.shm t x) = mem t (.shm 0) x ∧ m (.send t 0 x) = mem t .send x ∧ m (.recv t 0 x) = mem t .recv x

/-- The messages from `q`. -/
def recvsFrom (q : Nat) : List Instr → List (Addr × Nat)
  | [] => []
  | .irecv a n p :: ls => if p = q then (a, n) :: recvsFrom q ls else recvsFrom q ls
  | _ :: ls => recvsFrom q ls

/-- A line that can be used on a node of several sockets: scratch memory is the one of the process, messages are in scratch memory
and go to other processes below `n`. -/
def LineOk (n t : Nat) : Instr → Prop
  | .copy _ d s _ => (∀ k, d.reg = .shm k → k = 0) ∧ ∀ k, s.reg = .shm k → k = 0
  | .irecv a _ q => a.reg = .shm 0 ∧ q < n ∧ q ≠ t
  | .isend a _ q => a.reg = .shm 0 ∧ q < n ∧ q ≠ t
  | _ => True

/-- The programs of `n` processes with `rounds` waits: every message is received and sent before the same wait, there is at most
one message from one process to another before a wait, and none after the last wait. -/
structure Regular (n rounds : Nat) (prog : Nat → List Instr) : Prop where
  lines : ∀ t, t < n → ∀ i, i ∈ prog t → LineOk n t i
  waits : ∀ t, t < n → (splitWaits (prog t)).1.length = rounds
  matched : ∀ t q r, t < n → q < n → r < rounds →
    (sendsTo t (part prog q r)).map Prod.snd = (recvsFrom q (part prog t r)).map Prod.snd ∧
    (recvsFrom q (part prog t r)).length ≤ 1
  last : ∀ t, t < n → ∀ i, i ∈ (splitWaits (prog t)).2 → i = .barrier ∨ ∃ r d s k, i = .copy r d s k

/-- The lines between the barriers of the node. -/
def phases : List SInstr → List (List Instr)
  | [] => [[]]
  | .node :: ls => [] :: phases ls
  | .ins i :: ls =>
    match phases ls with
    | b :: bs => (i :: b) :: bs
    | [] => [[i]]

/-- The interval of shared memory of socket `u` is the target of a message that process `u` waits for. -/
def receiving (ls : List Instr) (o n : Nat) : Prop :=
  ∃ a k q, Instr.irecv a k q ∈ ls ∧ a.reg = .shm 0 ∧ a.off < o + n ∧ o < a.off + k

/-- No process reads the memory of another process of its node while that process receives a message into it: there is a
barrier of the node between the two. `prog t` are the lines of process `t`, `ns` sockets per node. -/
def Orderly (ns N : Nat) (prog : Nat → List SInstr) : Prop :=
  ∀ (t u r : Nat) (red : Bool) (d : Addr) (k o n : Nat), t < N → u < N → t / ns = u / ns → (t + ns - k) % ns = u % ns → 0 < k → k < ns →
    Instr.copy red d ⟨.shm k, o⟩ n ∈ ((phases (prog t))[r]?).getD [] → ¬receiving (((phases (prog u))[r]?).getD []) o n

/-- With messages, the programs are correct if each of them is started after all processes have completed the one before. -/
def CorrectSeq {X : Type} [Add X] (n : Nat) : List (Nat → List Instr) → (Nat → Mem X) → ((Nat → Mem X) → Prop) → Prop
  | [], m, post => post m
  | prog :: ps, m, post => Correct n prog m fun m' => CorrectSeq n ps m' post

end ExtMpi.Sockets
