import Verif.Model.TasksNode
/-!
# Execution by several processes per node

The execution by `/repo/src/mpi/ext_mpi_native_exec.c` of the programs of `Model/TasksNode.lean`: the processes of a node share
its memory, processes of different nodes exchange messages.

Simplifications: as in `Model/RawCode.lean`; a copy or reduction is one step (`Spec/TasksRun.lean` asks for the absence of
races, so its parts cannot be observed); the memory of a node contains the scratch buffers of its processes and the buffers
of the users; the barrier of a node is what `Barrier` proves about it: nobody leaves before everybody has entered.
-/
namespace ExtMpi.TasksNode
open RawCode

/-- Addresses of the user buffers of the processes of the nodes: process `t` has its send buffer at `send t` and its
receive buffer at `recv t`. -/
structure Users where
  send : Nat → Nat
  recv : Nat → Nat

/-- Address of an operand of process `t` in the memory of the node (`esendbufp`, `erecvbufp`: pointers of the process;
`eshmemo`: shared memory, the same for all). -/
def place (u : Users) (t : Nat) (a : Addr) : Addr :=
  match a.reg with
  | .send => ⟨.send, u.send t + a.off⟩
  | .recv => ⟨.recv, u.recv t + a.off⟩
  | .shm k => ⟨.shm k, a.off⟩

/-- An instruction with its addresses. -/
def placed (u : Users) (t : Nat) : Instr → Instr
  | .copy red dst src n => .copy red (place u t dst) (place u t src) n
  | .irecv a n q => .irecv (place u t a) n q
  | .isend a n q => .isend (place u t a) n q
  | .waitall => .waitall
  | .barrier => .barrier

/-- A process: the rest of its program, per partner the posted receives and sends that are not complete, oldest first,
the number of barriers it has entered and whether it is inside of one. -/
structure Task where
  rest : List Instr
  recvs : Nat → List (Addr × Nat)
  sends : Nat → List (Addr × Nat)
  entered : Nat
  waiting : Bool

/-- All processes, the memory of the nodes and the messages under way. -/
structure TState (X : Type) where
  task : Nat → Task
  mem : Nat → Mem X
  chan : Nat → Nat → List (List X)

/-- What an instruction writes. -/
def writes : Instr → List (Addr × Nat)
  | .copy _ dst _ n => [(dst, n)]
  | .irecv a n _ => [(a, n)]
  | _ => []

/-- What an instruction reads. -/
def reads : Instr → List (Addr × Nat)
  | .copy _ _ src n => [(src, n)]
  | .isend a n _ => [(a, n)]
  | _ => []

/-- The operands are not in use by an incomplete message of the node; the operands of a copy do not overlap. -/
def Clear {X : Type} (ns : Nat) (s : TState X) (node : Nat) (i : Instr) : Prop :=
  (∀ p, p / ns = node → ∀ q x, x ∈ (s.task p).recvs q → ∀ y, y ∈ writes i ++ reads i → ¬overlap x.1 x.2 y.1 y.2) ∧
  (∀ p, p / ns = node → ∀ q x, x ∈ (s.task p).sends q → ∀ y, y ∈ writes i → ¬overlap x.1 x.2 y.1 y.2) ∧
  (∀ x, x ∈ writes i → ∀ y, y ∈ reads i → ¬overlap x.1 x.2 y.1 y.2)

/-- Effect on the memory (`ext_mpi_native_exec.c`, `OPCODE_MEMCPY`, `OPCODE_REDUCE`). -/
def memAfter {X : Type} [Add X] (i : Instr) (m : Mem X) : Mem X :=
  match i with
  | .copy red dst src n => copyMem red dst src n m
  | _ => m

/-- Effect on the process. -/
def taskAfter (i : Instr) (rest : List Instr) (t : Task) : Task :=
  match i with
  | .irecv a n q => { t with rest := rest, recvs := push t.recvs q (a, n) }
  | .isend a n q => { t with rest := rest, sends := push t.sends q (a, n) }
  | _ => { t with rest := rest }

/-- Replace a value. -/
def put {Y : Type} (f : Nat → Y) (k : Nat) (y : Y) : Nat → Y := fun j => if j = k then y else f j

/-- One step of `N` nodes with `ns` processes each; process `p` belongs to node `p / ns`. The labels are those of
`RawCode.Lab` with the numbers of processes. `W p k p'`: in its `k`-th barrier process `p` waits for process `p'`. -/
inductive TStep {X : Type} [Add X] (N ns : Nat) (W : Nat → Nat → Nat → Prop) : Lab → TState X → TState X → Prop
  | instr {s p i rest} : p < N * ns → (s.task p).rest = i :: rest → i ≠ .barrier → Clear ns s (p / ns) i →
      (i = .waitall → ∀ q, (s.task p).recvs q = [] ∧ (s.task p).sends q = []) →
      TStep N ns W (.loc p) s
        ⟨put s.task p (taskAfter i rest (s.task p)), put s.mem (p / ns) (memAfter i (s.mem (p / ns))), s.chan⟩
  | enter {s p rest} : p < N * ns → (s.task p).rest = .barrier :: rest → (s.task p).waiting = false →
      TStep N ns W (.loc p) s
        ⟨put s.task p { s.task p with entered := (s.task p).entered + 1, waiting := true }, s.mem, s.chan⟩
  | leave {s p rest} : p < N * ns → (s.task p).rest = .barrier :: rest → (s.task p).waiting = true →
      (∀ p', p' < N * ns → p' / ns = p / ns → W p (s.task p).entered p' → (s.task p).entered ≤ (s.task p').entered) →
      TStep N ns W (.loc p) s ⟨put s.task p { s.task p with rest := rest, waiting := false }, s.mem, s.chan⟩
  | depart {s q t a n r} : q < N * ns → t < N * ns → q ≠ t → (s.task q).sends t = (a, n) :: r →
      TStep N ns W (.depart q t) s
        ⟨put s.task q { s.task q with sends := pop (s.task q).sends t }, s.mem,
          setChan s.chan q t (s.chan q t ++ [readMem (s.mem (q / ns)) a n])⟩
  | arrive {s q t a n r msg ms} : q < N * ns → t < N * ns → q ≠ t → s.chan q t = msg :: ms →
      (s.task t).recvs q = (a, n) :: r → msg.length = n →
      TStep N ns W (.arrive q t) s
        ⟨put s.task t { s.task t with recvs := pop (s.task t).recvs q },
          put s.mem (t / ns) (writeMem (s.mem (t / ns)) a msg), setChan s.chan q t ms⟩

/-- Executions of `k` steps. -/
inductive TSteps {X : Type} [Add X] (N ns : Nat) (W : Nat → Nat → Nat → Prop) : Nat → TState X → TState X → Prop
  | refl {s} : TSteps N ns W 0 s s
  | step {k l s s1 s2} : TStep N ns W l s s1 → TSteps N ns W k s1 s2 → TSteps N ns W (k + 1) s s2

/-- Start: nothing posted, nothing under way, nobody in a barrier. -/
def startT {X : Type} (prog : Nat → List Instr) (m : Nat → Mem X) : TState X :=
  ⟨fun p => ⟨prog p, fun _ => [], fun _ => [], 0, false⟩, m, fun _ _ => []⟩

end ExtMpi.TasksNode
