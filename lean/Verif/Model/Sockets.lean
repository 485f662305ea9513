import Verif.Model.Optimise
import Verif.Model.OnNode
/-!
# Several sockets per node

`/repo/src/mpi/messages_shared_memory.c` and `/repo/src/core/optimise_multi_socket.c` with the passes after them
(`/repo/src/mpi/ext_mpi_native.c:812-855`) for one process per socket: messages between sockets of a node become copies
between the segments of shared memory, `ns` sockets per node, process `t` is socket `t`.

In this file `Reg.shm k` with `k > 0` is a segment of another socket, `shmem[k]`, which is the one of socket `t - k`
modulo `ns` of the node of `t` (property C105).

Simplifications: as in `Optimise`; the counts in the lines `waitall` are not modelled; descriptions of the messages, which
the processes exchange while they generate the code (`src/mpi/messages_shared_memory.c:204-221`), are found by looking at the
lines of the partner between the same two waits, since the processes meet in a collective operation at every wait
(`src/mpi/messages_shared_memory.c:171`).
-/
namespace ExtMpi.Sockets
open RawCode

/-- A line: one of `RawCode`, or `enode_barrier`. -/
inductive SInstr where
  | ins (i : Instr)
  | node
  deriving DecidableEq, Repr

/-! ## Messages inside of a node -/

/-- The lines between the waits and those after the last wait. The lines of every part are kept in
`lines_listed_org` until they are written (`src/mpi/messages_shared_memory.c:128-195`). -/
def splitWaits : List Instr → List (List Instr) × List Instr
  | [] => ([], [])
  | .waitall :: ls => ([] :: (splitWaits ls).1, (splitWaits ls).2)
  | i :: ls =>
    match (splitWaits ls).1 with
    | b :: bs => ((i :: b) :: bs, (splitWaits ls).2)
    | [] => ([], i :: (splitWaits ls).2)

/-- The lines of process `q` before its wait number `r`, without those of earlier waits. -/
def part (prog : Nat → List Instr) (q r : Nat) : List Instr := ((splitWaits (prog q)).1)[r]?.getD []

/-- The messages to `t` (`src/mpi/messages_shared_memory.c:198-208`). -/
def sendsTo (t : Nat) : List Instr → List (Addr × Nat)
  | [] => []
  | .isend a n q :: ls => if q = t then (a, n) :: sendsTo t ls else sendsTo t ls
  | _ :: ls => sendsTo t ls

/-- Buffer of the sender as seen by the receiver: only the number is replaced (`src/mpi/messages_shared_memory.c:151-157`). -/
def segment (k : Nat) (a : Addr) : Addr :=
  match a.reg with
  | .shm _ => ⟨.shm k, a.off⟩
  | _ => a

/-- The copies of process `t` for the receives before a wait, `other q` are the lines of process `q` before the same
wait. The receives are kept in a list with the last one in front (`src/mpi/messages_shared_memory.c:139-169`, `209-221`). `seen`: the partners of
the receives before. `none`: the partner does not send, `MPI_Wait` does not return. -/
def copies (ns t : Nat) (other : Nat → List Instr) (seen : List Nat) : List Instr → Option (List SInstr)
  | [] => some []
  | .irecv a _ q :: ls => do
    let s ← (sendsTo t (other q))[seen.count q]?
    let r ← copies ns t other (q :: seen) ls
    if q / ns = t / ns then return r ++ [.ins (.copy false a (segment ((ns + t - q) % ns) s.1) s.2)] else return r
  | _ :: ls => copies ns t other seen ls

/-- A message inside of the node (`src/mpi/messages_shared_memory.c:79-81`). -/
def inner (ns t : Nat) : Instr → Bool
  | .irecv _ _ q => q / ns == t / ns
  | .isend _ _ q => q / ns == t / ns
  | _ => false

/-- There is a receive from the node (`flag`, `src/mpi/messages_shared_memory.c:158-163`). -/
def receives (ns t : Nat) (ls : List Instr) : Bool :=
  ls.any fun i => match i with
    | .irecv _ _ q => q / ns == t / ns
    | _ => false

/-- `flag2`: a process has such a receive (`src/mpi/messages_shared_memory.c:171`). -/
def anyReceives (ns N : Nat) (prog : Nat → List Instr) (r : Nat) : Bool :=
  (List.range N).any fun t => receives ns t (part prog t r)

/-- Lines up to a wait and what is written after them (`src/mpi/messages_shared_memory.c:131-195`, `delete_from_list`, `60-92`). -/
def sharePart (ns N : Nat) (prog : Nat → List Instr) (t r : Nat) (ls : List Instr) : Option (List SInstr) := do
  let cs ← copies ns t (fun q => part prog q r) [] ls
  let flag := receives ns t ls
  return (ls.filter fun i => !inner ns t i).map .ins ++ [.ins .waitall] ++
    (if flag then [.ins .barrier, .node] ++ cs else []) ++
    (if anyReceives ns N prog r then (if flag then [] else [.node, .ins .barrier]) ++ [.node, .ins .barrier] else [])

/-- The parts from number `r` on. -/
def shareParts (ns N : Nat) (prog : Nat → List Instr) (t : Nat) : Nat → List (List Instr) → Option (List SInstr)
  | _, [] => some []
  | r, b :: bs => do
    let x ← sharePart ns N prog t r b
    let y ← shareParts ns N prog t (r + 1) bs
    return x ++ y

/-- `ext_mpi_messages_shared_memory` (`src/mpi/messages_shared_memory.c:110-234`) in process `t` of `N`. -/
def share (ns N : Nat) (prog : Nat → List Instr) (t : Nat) : Option (List SInstr) := do
  let x ← shareParts ns N prog t 0 (splitWaits (prog t)).1
  return x ++ (splitWaits (prog t)).2.map .ins

/-! ## Reducing from the other segment -/

/-- A copy, as `struct line_memcpy_reduce` has it. -/
structure Copy where
  red : Bool
  dst : Addr
  src : Addr
  size : Nat
  deriving DecidableEq, Repr

/-- The search after a copy `c` (`src/core/optimise_multi_socket.c:26-48`): if the first reduction reads what was copied, then its destination
and the number of lines after it. -/
def fusible (c : Copy) : List SInstr → Option (Nat × Nat)
  | [] => none
  | .ins (.copy true d s n) :: ls =>
    if Optimise.isShm d.reg && Optimise.isShm s.reg && c.dst.off == s.off && c.size == n && Optimise.isShm c.dst.reg &&
        Optimise.isShm c.src.reg then some (d.off, ls.length) else none
  | _ :: ls => fusible c ls

/-- `buffer_number2 > 0`. -/
def foreign (a : Addr) : Bool :=
  match a.reg with
  | .shm k => decide (0 < k)
  | _ => false

/-- Main loop (`src/core/optimise_multi_socket.c:17-59`): `c` is `data_memcpy_reduce`, into which every copy is read, and `at_`
the number of lines after the line that is replaced (`line2_new`). -/
def fuseF (c : Option Copy) (at_ : Option Nat) : List SInstr → List SInstr
  | [] => []
  | .ins (.copy false d s n) :: ls =>
    if foreign s then
      match fusible ⟨false, d, s, n⟩ ls with
      | some (o, k) => fuseF (some ⟨true, ⟨d.reg, o⟩, s, n⟩) (some k) ls
      | none => .ins (.copy false d s n) :: fuseF (some ⟨false, d, s, n⟩) at_ ls
    else .ins (.copy false d s n) :: fuseF (some ⟨false, d, s, n⟩) at_ ls
  | l :: ls =>
    match c, decide (at_ = some ls.length) with
    | some x, true => .ins (.copy x.red x.dst x.src x.size) :: fuseF c at_ ls
    | _, _ => l :: fuseF c at_ ls

/-- `ext_mpi_generate_optimise_multi_socket` (`src/core/optimise_multi_socket.c:7-63`). -/
def fuse (ls : List SInstr) : List SInstr := fuseF none none ls

/-! ## The passes after them -/

/-- The lines of `RawCode` at the start and the lines from the first barrier of the node on. -/
def untilNode : List SInstr → List Instr × List SInstr
  | [] => ([], [])
  | .node :: ls => ([], .node :: ls)
  | .ins i :: ls => (i :: (untilNode ls).1, (untilNode ls).2)

/-- A pass on the lines between the barriers of the node: `enode_barrier` is copied and ends the search for copies that can be
joined (`src/core/raw_code_merge.c:26-27`, `47-49`); the first argument bounds the number of lines. -/
def eachF (f : List Instr → List Instr) : Nat → List SInstr → List SInstr
  | 0, ls => ls
  | _ + 1, [] => []
  | k + 1, .node :: ls => .node :: eachF f k ls
  | k + 1, ls => (f (untilNode ls).1).map .ins ++ eachF f k (untilNode ls).2

/-- See `eachF`. -/
def each (f : List Instr → List Instr) (ls : List SInstr) : List SInstr := eachF f (ls.length + 1) ls

/-- The programs after `optimise_buffers2` (`src/mpi/ext_mpi_native.c:803-811`). -/
def unshared (C N : Nat) (sz : Nat → Nat) (sched : Nat → List Schedule.Block) (t : Nat) : Option (List Instr) := do
  let p ← program N sz .allreduce (sched t) t
  Optimise.optimiseRecvs (Optimise.optimiseSends (Optimise.flatten C p))

/-- Allreduce with one process per socket (`src/mpi/ext_mpi_native.c:803-855`) in process `t` of `N`, `ns` sockets per node; `big` as in
`Optimise`, `direct`: the recursive algorithm, for which `use_sendbuf_recvbuf` is called. -/
def program (C N ns : Nat) (sz : Nat → Nat) (direct big : Bool) (sched : Nat → List Schedule.Block) (t : Nat) :
    Option (List SInstr) := do
  let ps ← (List.range N).mapM (unshared C N sz sched)
  let p ← share ns N (fun q => ps.getD q []) t
  let p := each (fun l => Optimise.noBarriers (Optimise.join l)) (fuse p)
  return if direct then each (Optimise.useSendRecv (moffset sz N) big) p else p

/-- Ports and groups on a single node if the user has set the number of sockets to 2 or 4 (`src/mpi/num_ports_factors.c:38-65`, called at
`src/mpi/num_ports_factors.c:119`); none for other numbers. The size of the groups is the number of sockets, so that the recursive
algorithm is chosen (`src/mpi/num_ports_factors.c:67-80`, `src/mpi/ext_mpi.c:663`). If the number of sockets comes from a measurement, the ports are the
same (`src/mpi/ext_mpi.c:682-684`), but the cyclic algorithm has been chosen before, since the size of the groups is 0 then (`Measure`). The access out of
bounds before the call (`PortChoice.numPortsFactors`) is not modelled here; the user can also give these ports. -/
def singleNodePorts : Nat → Option (List Int × List Int)
  | 2 => some ([-1, 1], [-2, -2])
  | 4 => some ([-1, -1, 1, 1], [-2, -2, -2, -2])
  | _ => none

/-! ## Execution on one node -/

/-- Element `i` of an operand of process `t`; segments are numbered by their sockets. The buffers of the user are those of the first
execution (`OnNode.Cell`). -/
def cell (ns t : Nat) (a : Addr) (i : Nat) : OnNode.Cell :=
  match a.reg with
  | .send => .send t 0 (a.off + i)
  | .recv => .recv t 0 (a.off + i)
  | .shm k => .shm ((t + ns - k) % ns) (a.off + i)

/-- Actions of a line of process `t` on a node of `ns` sockets: copies element by element, `node_barrier`
(`src/mpi/ext_mpi_native_exec.c:26-35`). A barrier of the single process of a socket does nothing, a wait without messages
neither. `none`: a message, which is not possible on a single node. -/
def acts (ns t : Nat) : SInstr → Option (List OnNode.Act)
  | .ins (.copy red d s n) => some ((List.range n).map fun i => .elem red (cell ns t d i) (cell ns t s i))
  | .ins .waitall => some []
  | .ins .barrier => some []
  | .ins _ => none
  | .node => some ((List.range (Nat.clog 2 ns)).flatMap fun k => [.set 0 t, .wait 0 ((t + ns - 2 ^ k) % ns : Nat)])

/-- All actions of a program. -/
def allActs (ns t : Nat) : List SInstr → Option (List OnNode.Act)
  | [] => some []
  | l :: ls => do
    let x ← acts ns t l
    let y ← allActs ns t ls
    return x ++ y

/-- Start of the programs on a single node, see `OnNode.start`. -/
def start {X : Type} (rest : Nat → List OnNode.Act) (m : OnNode.Cell → X) : OnNode.State X where
  rest := rest
  cnt := fun _ _ => 1
  flag := fun _ _ => 0
  mem := m

/-- The programs of process `t`, one after the other; nothing is executed between them (`src/mpi/ext_mpi_native_exec.c:343-358`
is the only place where processes of different sockets wait for each other). The flags of the barrier are kept from one execution to
the next one (`header->barrier_counter_node`). Programs of different requests have flags of their own; here they use the same
ones. -/
def inTurn (n t : Nat) : List (Nat → List Instr) → Option (List SInstr)
  | [] => some []
  | prog :: ps => (share n n prog t).bind fun x => (inTurn n t ps).map fun y => x ++ y

end ExtMpi.Sockets
