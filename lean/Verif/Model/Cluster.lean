import Verif.Model.TasksRun
import Verif.Model.OnNode
/-!
# Execution by several processes on each of several nodes

The programs that the processes of several nodes execute, with the barriers of the nodes down to the flags in shared
memory: reductions (`/repo/src/core/reduce_copyin.c`, `/repo/src/core/raw_code_tasks_node.c`, `/repo/src/core/raw_code.c`,
`/repo/src/core/reduce_copyout.c`) and gather operations (`Model/TasksNode.lean`), and their execution by
`/repo/src/mpi/ext_mpi_native_exec.c`.

Simplifications: as in `Model/TasksNode.lean` and `Model/OnNode.lean`; one socket per node, more than one node, no
GPU; the program before the passes on the generated code (`/repo/src/mpi/ext_mpi_native.c:1069-1085`). The flags and counters
of the barriers are unbounded (`Model/Barrier.lean` treats the wrap-around). The memory of a node is sequentially
consistent; copies and reductions access one element at a time.
-/
namespace ExtMpi.Cluster
open RawCode Schedule
open TasksNode (Users place placed put)

/-- Instructions of a process: copy or reduction of one element or communication (`op`), store of the counter of the
barrier to flag `r` of the node, spinning on flag `r` (`src/mpi/ext_mpi_native_exec.c:48-78`). -/
inductive CInstr where
  | op (i : Instr)
  | set (r : Int)
  | wait (r : Int)
  deriving DecidableEq, Repr

/-- `socket_barrier` of process `rank` of a node with `ns` processes (`src/mpi/ext_mpi_native_exec.c:48-56`). -/
def rounds (ns rank : Nat) : List CInstr :=
  (List.range (Nat.clog 2 ns)).flatMap fun k => [.set rank, .wait ((rank + 2 ^ k) % ns : Nat)]

instance (a : Addr) (n : Nat) (b : Addr) (m : Nat) : Decidable (overlap a n b m) := by
  unfold overlap; infer_instance

/-- Address of element `e` of an interval. -/
def shift (a : Addr) (e : Nat) : Addr := ⟨a.reg, a.off + e⟩

/-- Instruction of process `t` (`src/mpi/ext_mpi_native_exec.c`, `OPCODE_MEMCPY`, `OPCODE_REDUCE`,
`OPCODE_SOCKETBARRIER`). `memcpy` with overlapping operands is undefined: there is no flag with the number `-1`. -/
def expand (ns : Nat) (u : Users) (t : Nat) : Instr → List CInstr
  | .copy red dst src n =>
    if red = false ∧ overlap (place u t dst) n (place u t src) n then [.wait (-1)]
    else (List.range n).map fun e => .op (.copy red (shift (place u t dst) e) (shift (place u t src) e) 1)
  | .barrier => rounds ns (t % ns)
  | i => [.op (placed u t i)]

/-- Address of a cell of `Model/OnNode.lean` in the memory of `node`; the memory of the small messages is not used on
several nodes. -/
def cellAddr (ns : Nat) (u : Users) (node : Nat) : OnNode.Cell → Addr
  | .send r _ x => ⟨.send, u.send (node * ns + r) + x⟩
  | .recv r _ x => ⟨.recv, u.recv (node * ns + r) + x⟩
  | .shm b x => ⟨.shm b, x⟩
  | .fast b x => ⟨.shm b, x⟩

/-- Action of the copy-in of a process of `node`; its copies go from the send buffer to the shared memory, so that the
operands do not overlap. -/
def fromAct (ns : Nat) (u : Users) (node : Nat) : OnNode.Act → CInstr
  | .elem red d s => .op (.copy red (cellAddr ns u node d) (cellAddr ns u node s) 1)
  | .set _ r => .set r
  | .wait _ r => .wait r

/-- Copy-in of a reduction on several nodes, where no message is a small one (`src/core/reduce_copyin.c:485`, `515-560`). -/
def copyInC (P : OnNode.Par) (sz : Nat → Nat) (b : Block) (rank : Nat) : Option (List OnNode.Instr) :=
  (OnNode.copyInWith false 1 ⟨.shm 0, P.len, 0⟩ P sz b 0 0 rank).map fun c => .barrier 0 :: .barrier 0 :: c

/-- Copy-out of a reduce_scatter: the part of the process in the message of the node, which starts at the first line that
sends anywhere (`src/core/reduce_copyout.c:174-197`). -/
def copyOutPart (ns : Nat) (cnt : Nat → Nat) (node rank : Nat) (b : Block) : List Instr :=
  copyIf false ⟨.recv, 0⟩
    ⟨.shm 0, TasksNode.iodispl ns cnt node rank + off (TasksNode.coarse ns cnt) b (b.findIdx fun l => !l.sendto.isEmpty)⟩
    (cnt (node * ns + rank))

/-- Program of process `rank` of `node` for a reduction with the message sizes `sz` of the nodes and the copy-out `out`
of the last block. `none`: as in `RawCode.program`, or undefined behaviour of the generator of the copy-in. -/
def reduceProgram (N ns : Nat) (P : OnNode.Par) (sz : Nat → Nat) (out : Block → List Instr) (perm : List Nat) (u : Users)
    (sched : List Block) (node rank : Nat) : Option (List CInstr) :=
  (TasksNode.tasks N ns perm node rank sched).bind fun a =>
  match a, a.getLast? with
  | b0 :: bs, some bl =>
    if bs.all TasksNode.inside && (b0 ++ bl).all fun l => decide (l.frac < N) then
      (copyInC P sz b0 rank).map fun c =>
        (c.flatMap (OnNode.Instr.acts ns rank)).map (fromAct ns u node) ++
          (TasksNode.code (TasksNode.blocksLines N ns (mmsize N sz) node rank true bs) ++ out bl).flatMap
            (expand ns u (node * ns + rank))
    else none
  | _, _ => none

/-- Program for an allreduce (`src/core/reduce_copyout.c:129-173`). -/
def allreduceProgram (N ns : Nat) (P : OnNode.Par) (sz : Nat → Nat) (perm : List Nat) (u : Users) (sched : List Block)
    (node rank : Nat) : Option (List CInstr) :=
  reduceProgram N ns P sz (copyOutAll sz (moffset sz N) 0) perm u sched node rank

/-- Program for a reduce_scatter with `cnt t` elements for process `t`. -/
def reduceScatterProgram (N ns : Nat) (P : OnNode.Par) (cnt : Nat → Nat) (perm : List Nat) (u : Users)
    (sched : List Block) (node rank : Nat) : Option (List CInstr) :=
  reduceProgram N ns P (TasksNode.coarse ns cnt) (copyOutPart ns cnt node rank) perm u sched node rank

/-- Program for an allgather with `cnt t` elements of process `t`. -/
def allgatherProgram (N ns : Nat) (cnt : Nat → Nat) (perm : List Nat) (u : Users) (sched : List Block) (node rank : Nat) :
    Option (List CInstr) :=
  (TasksNode.gatherProgram N ns cnt perm sched node rank).map fun l => l.flatMap (expand ns u (node * ns + rank))

/-! ## Execution -/

/-- A process: the rest of its program, per partner the posted receives and sends that are not complete, oldest first,
and the counter of the barrier (`barrier_count`). -/
structure CTask where
  rest : List CInstr
  recvs : Nat → List (Addr × Nat)
  sends : Nat → List (Addr × Nat)
  count : Nat

/-- All processes, the flags and the memory of the nodes, and the messages under way. -/
structure CState (X : Type) where
  task : Nat → CTask
  flag : Nat → Nat → Nat
  mem : Nat → Mem X
  chan : Nat → Nat → List (List X)

/-- The operands are not in use by an incomplete message of the node; the operands of a copy do not overlap. -/
def CClear {X : Type} (ns : Nat) (s : CState X) (node : Nat) (i : Instr) : Prop :=
  (∀ p, p / ns = node → ∀ q x, x ∈ (s.task p).recvs q → ∀ y, y ∈ TasksNode.writes i ++ TasksNode.reads i →
    ¬overlap x.1 x.2 y.1 y.2) ∧
  (∀ p, p / ns = node → ∀ q x, x ∈ (s.task p).sends q → ∀ y, y ∈ TasksNode.writes i → ¬overlap x.1 x.2 y.1 y.2) ∧
  (∀ x, x ∈ TasksNode.writes i → ∀ y, y ∈ TasksNode.reads i → ¬overlap x.1 x.2 y.1 y.2)

/-- Effect of an instruction on the process. -/
def cAfter (i : Instr) (rest : List CInstr) (t : CTask) : CTask :=
  match i with
  | .irecv a n q => { t with rest := rest, recvs := push t.recvs q (a, n) }
  | .isend a n q => { t with rest := rest, sends := push t.sends q (a, n) }
  | _ => { t with rest := rest }

/-- One step of `N` nodes with `ns` processes each; process `p` belongs to node `p / ns`. The labels are those of
`RawCode.Lab` with the numbers of processes. -/
inductive CStep {X : Type} [Add X] (N ns : Nat) : Lab → CState X → CState X → Prop
  | op {s p i rest} : p < N * ns → (s.task p).rest = .op i :: rest → i ≠ .barrier → CClear ns s (p / ns) i →
      (i = .waitall → ∀ q, (s.task p).recvs q = [] ∧ (s.task p).sends q = []) →
      CStep N ns (.loc p) s { s with
        task := put s.task p (cAfter i rest (s.task p)),
        mem := put s.mem (p / ns) (TasksNode.memAfter i (s.mem (p / ns))) }
  | set {s p rest} {r : Nat} : p < N * ns → (s.task p).rest = .set r :: rest →
      CStep N ns (.loc p) s { s with
        task := put s.task p { s.task p with rest := rest },
        flag := put s.flag (p / ns) (put (s.flag (p / ns)) r (s.task p).count) }
  | wait {s p rest} {r : Nat} : p < N * ns → (s.task p).rest = .wait r :: rest → (s.task p).count ≤ s.flag (p / ns) r →
      CStep N ns (.loc p) s { s with
        task := put s.task p { s.task p with rest := rest, count := (s.task p).count + 1 } }
  | depart {s q t a n r} : q < N * ns → t < N * ns → q ≠ t → (s.task q).sends t = (a, n) :: r →
      CStep N ns (.depart q t) s { s with
        task := put s.task q { s.task q with sends := pop (s.task q).sends t },
        chan := setChan s.chan q t (s.chan q t ++ [readMem (s.mem (q / ns)) a n]) }
  | arrive {s q t a n r msg ms} : q < N * ns → t < N * ns → q ≠ t → s.chan q t = msg :: ms →
      (s.task t).recvs q = (a, n) :: r → msg.length = n →
      CStep N ns (.arrive q t) s { s with
        task := put s.task t { s.task t with recvs := pop (s.task t).recvs q },
        mem := put s.mem (t / ns) (writeMem (s.mem (t / ns)) a msg),
        chan := setChan s.chan q t ms }

/-- Executions of `k` steps. -/
inductive CSteps {X : Type} [Add X] (N ns : Nat) : Nat → CState X → CState X → Prop
  | refl {s} : CSteps N ns 0 s s
  | step {k l s s1 s2} : CStep N ns l s s1 → CSteps N ns k s1 s2 → CSteps N ns (k + 1) s s2

/-- Start: nothing posted, nothing under way, counters 1, flags 0 (`src/mpi/ext_mpi_native.c`, initialisation of
`barrier_count` and of the shared memory). -/
def startC {X : Type} (prog : Nat → List CInstr) (m : Nat → Mem X) : CState X :=
  ⟨fun p => ⟨prog p, fun _ => [], fun _ => [], 1⟩, fun _ _ => 0, m, fun _ _ => []⟩

end ExtMpi.Cluster
