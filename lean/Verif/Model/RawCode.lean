import Verif.Model.Schedule
/-!
# Generated programs and their execution

The program of one node as emitted by `/repo/src/core/reduce_copyin.c`, `/repo/src/core/raw_code.c` and
`/repo/src/core/reduce_copyout.c` from a schedule, and its execution by
`/repo/src/mpi/ext_mpi_native_exec.c` on top of non-blocking MPI.

Simplifications: one process per node (`node_size = 1`, `node_rank = 0`, `counts_max = 1`), more than one
node, no GPU; sizes and offsets are numbers of elements; the entries `-10 - q` that the backward interpreter
leaves for dropped messages do not occur (`covered`). Scratch memory consists of disjoint buffers numbered by
`offset_number` (`Model/BufferOffset.lean` places them); buffer 0 also holds the shared memory lines without
offset, which start at the same address. The passes between this program and the byte code are not part of
this file.
-/
namespace ExtMpi.RawCode
open Schedule

/-- Memory regions of a process: send buffer, receive buffer, scratch buffers (`esendbufp`, `erecvbufp`,
`eshmemo` with `offset_number` in `include/core/constants.h`). -/
inductive Reg where
  | send
  | recv
  | shm (k : Nat)
  deriving DecidableEq, Repr

/-- Start of an interval of memory. -/
structure Addr where
  reg : Reg
  off : Nat
  deriving DecidableEq, Repr

/-- Instructions: `ememcpy` and `ereduce` (`copy`), `eirecv`, `eisend`, `ewaitall`, `esocket_barrier`
(`include/core/read_write.h`). -/
inductive Instr where
  | copy (red : Bool) (dst src : Addr) (size : Nat)
  | irecv (buf : Addr) (size partner : Nat)
  | isend (buf : Addr) (size partner : Nat)
  | waitall
  | barrier
  deriving DecidableEq, Repr

/-! ## Emission -/

/-- What the model covers: no entries of dropped messages, and the sums over the lines before a reduced line stay
inside of the block (`src/core/raw_code.c:86`, `152`, `275`, `302`). -/
def covered (b : Block) : Bool :=
  b.all fun l => ((l.sendto ++ l.recvfrom).all fun e => decide (-10 < e.1)) &&
    (l.reducefrom ++ l.copyreducefrom).all fun r => decide (r ≤ b.length)

/-- `mmsizes` (`src/core/raw_code.c:8-17`) for `N` nodes with message sizes `sz`. -/
def mmsize (N : Nat) (sz : Nat → Nat) (frac : Nat) : Nat := sz (frac % N)

/-- Size of line `n`. -/
def lineSize (sz : Nat → Nat) (b : Block) (n : Nat) : Nat :=
  match b[n]? with
  | some l => sz l.frac
  | none => 0

/-- Offset of line `n`: the running sums `add`, `add2` and `j` over the lines before
(`src/core/raw_code.c:175`, `238-240`, `274-276`, `294`, `301-303`, `329`). -/
def off (sz : Nat → Nat) (b : Block) (n : Nat) : Nat := ((List.range n).map (lineSize sz b)).sum

/-- Sum of the sizes of some lines (`src/core/raw_code.c:81`, `149`, `230`). -/
def total (sz : Nat → Nat) (b : Block) (ns : List Nat) : Nat := (ns.map (lineSize sz b)).sum

/-- Copies and reductions of size 0 are not emitted or have no effect (`src/core/raw_code.c:127`, `289`,
`317`, `323`). -/
def copyIf (red : Bool) (dst src : Addr) (size : Nat) : List Instr :=
  if size = 0 then [] else [.copy red dst src size]

/-- The receives; `k` is `buffer_counter` (`src/core/raw_code.c:73-120`). -/
def posts (sz : Nat → Nat) (b : Block) (t : Nat) : Nat → List Nat → List Instr
  | _, [] => []
  | k, q :: qs =>
    if q ≠ t ∧ total sz b (recvIdx b q) ≠ 0 then
      .irecv ⟨.shm k, 0⟩ (total sz b (recvIdx b q)) q :: posts sz b t (k + 1) qs
    else posts sz b t k qs

/-- `buffer_counter` after the receives (`src/core/raw_code.c:103`). -/
def postsEnd (sz : Nat → Nat) (b : Block) (t : Nat) : Nat → List Nat → Nat
  | k, [] => k
  | k, q :: qs =>
    if q ≠ t ∧ total sz b (recvIdx b q) ≠ 0 then postsEnd sz b t (k + 1) qs else postsEnd sz b t k qs

/-- Packing of the lines `ns` into buffer `k` from position `add` (`src/core/raw_code.c:122-150`). -/
def pack (sz : Nat → Nat) (b : Block) (k : Nat) : Nat → List Nat → List Instr
  | _, [] => []
  | add, n :: ns =>
    copyIf false ⟨.shm k, add⟩ ⟨.shm 0, off sz b n⟩ (lineSize sz b n) ++
      pack sz b k (add + lineSize sz b n) ns

/-- Packing and sending (`src/core/raw_code.c:121-211`). -/
def sends (sz : Nat → Nat) (b : Block) (t : Nat) : Nat → List Nat → List Instr
  | _, [] => []
  | k, q :: qs =>
    if q ≠ t ∧ total sz b (sendIdx b q) ≠ 0 then
      pack sz b k 0 (sendIdx b q) ++ [.barrier, .isend ⟨.shm k, 0⟩ (total sz b (sendIdx b q)) q] ++
        sends sz b t (k + 1) qs
    else sends sz b t k qs

/-- Unpacking (`src/core/raw_code.c:221-269`). -/
def unpack (sz : Nat → Nat) (b : Block) (t : Nat) : Nat → List Nat → List Instr
  | _, [] => []
  | k, q :: qs =>
    if q ≠ t ∧ total sz b (recvIdx b q) ≠ 0 then
      (match recvIdx b q with
        | [] => []
        | n0 :: _ => [.copy (reduces b t q) ⟨.shm 0, off sz b n0⟩ ⟨.shm k, 0⟩ (total sz b (recvIdx b q))]) ++
        unpack sz b t (k + 1) qs
    else unpack sz b t k qs

/-- Local reductions (`src/core/raw_code.c:271-295`). -/
def reductions (sz : Nat → Nat) (b : Block) : List Instr :=
  b.zipIdx.flatMap fun x => x.1.reducefrom.flatMap fun r =>
    copyIf true ⟨.shm 0, off sz b x.2⟩ ⟨.shm 0, off sz b r⟩ (sz x.1.frac)

/-- Local copies followed by reductions (`src/core/raw_code.c:296-330`). -/
def copyReductions (sz : Nat → Nat) (b : Block) : List Instr :=
  b.zipIdx.flatMap fun x => x.1.copyreducefrom.zipIdx.flatMap fun r =>
    copyIf (r.2 != 0) ⟨.shm 0, off sz b x.2⟩ ⟨.shm 0, off sz b r.1⟩ (sz x.1.frac)

/-- Order of the receives (`src/core/raw_code.c:74-75`, `222-223`). -/
def recvOrder (N t : Nat) : List Nat := (List.range N).map fun o => (N + t - o) % N

/-- Order of the sends (`src/core/raw_code.c:121-122`). -/
def sendOrder (N t : Nat) : List Nat := (List.range N).map fun o => (t + o) % N

/-- One block (`src/core/raw_code.c:68-331`), without the barrier in front. -/
def blockCode (N : Nat) (sz : Nat → Nat) (b : Block) (t : Nat) : List Instr :=
  posts sz b t 1 (recvOrder N t) ++ sends sz b t (postsEnd sz b t 1 (recvOrder N t)) (sendOrder N t) ++
    [.waitall, .barrier] ++ unpack sz b t 1 (recvOrder N t) ++ [.barrier] ++ reductions sz b ++
    copyReductions sz b

/-- The blocks after block 0, separated by barriers, and the barrier at the end
(`src/core/raw_code.c:68-72`, `332`). -/
def blocksCode (N : Nat) (sz : Nat → Nat) (t : Nat) : Bool → List Block → List Instr
  | _, [] => [.barrier]
  | first, b :: bs => (if first then [] else [.barrier]) ++ blockCode N sz b t ++ blocksCode N sz t false bs

/-- `moffsets` (`src/core/reduce_copyin.c:481-484`, `src/core/reduce_copyout.c:124-127`). -/
def moffset (sz : Nat → Nat) (f : Nat) : Nat := ((List.range f).map sz).sum

/-- Copy-in of a reduction, one process per node: the interval of the line is cut at the length of the vector
(`src/core/reduce_copyin.c:62-135` with `num_ranks = 1`, `i = 0`, `n = 0`). `b` is the rest of block 0, `add` the
offset of its first line. -/
def copyInReduce (sz : Nat → Nat) (len : Nat) : Nat → Block → List Instr
  | _, [] => []
  | add, l :: ls =>
    let size := sz l.frac
    let appl := if len ≤ add ∨ add + size ≤ 0 then 0 else if add + size < add + (len - add) then size else len - add
    copyIf false ⟨.shm 0, (len + add) % len⟩ ⟨.send, (len + moffset sz l.frac) % len⟩ appl ++
      copyInReduce sz len (add + size) ls

/-- Copy-in of a gather operation: the own message to the first line that receives from the user
(`src/core/reduce_copyin.c:562-589`). -/
def copyInGather (sz : Nat → Nat) (b : Block) (own : Nat) : List Instr :=
  copyIf false ⟨.shm 0, off sz b (b.findIdx fun l => l.recvfrom.any fun e => e.1 == -1)⟩ ⟨.send, 0⟩ own

/-- `overlapp` (`src/core/reduce_copyout.c:8-24`): start and length of the common part of two intervals. -/
def overlapp (ds de ss se : Nat) : Nat × Nat :=
  let start := if ss > ds then ss else ds
  let stop := if se < de then se else de
  (start, stop - start)

/-- Copy-out of the lines that send to the user (`src/core/reduce_copyout.c:129-173`, `counts[0]` is `len`). `b` is
the rest of the last block, `add2` the offset of its first line. -/
def copyOutAll (sz : Nat → Nat) (len : Nat) : Nat → Block → List Instr
  | _, [] => []
  | add2, l :: ls =>
    (if l.sendto.any fun e => e.1 == -1 then
      let o := overlapp 0 len (moffset sz l.frac) (moffset sz (l.frac + 1))
      copyIf false ⟨.recv, o.1⟩ ⟨.shm 0, add2⟩ o.2
    else []) ++ copyOutAll sz len (add2 + sz l.frac) ls

/-- Copy-out of a reduce_scatter: `own` elements from the first line that sends anywhere
(`src/core/reduce_copyout.c:174-197`). -/
def copyOutOwn (sz : Nat → Nat) (b : Block) (own : Nat) : List Instr :=
  copyIf false ⟨.recv, 0⟩ ⟨.shm 0, off sz b (b.findIdx fun l => !l.sendto.isEmpty)⟩ own

/-- Kinds of collectives as distinguished by the copy-in and copy-out. -/
inductive Kind where
  | allreduce
  | allgather
  | reduceScatter
  deriving DecidableEq, Repr

/-- Copy-in part of the program (`src/core/reduce_copyin.c:485`, `532`,
`548-590`); `reduce_copies` adds the barrier at its end only (`267`). -/
def copyInCode (N : Nat) (sz : Nat → Nat) (kind : Kind) (b : Block) (t : Nat) : List Instr :=
  match kind with
  | .allgather => .barrier :: (copyInGather sz b (sz t) ++ [.barrier])
  | _ => .barrier :: .barrier :: (copyInReduce sz (moffset sz N) 0 b ++ [.barrier])

/-- Copy-out part of the program (`src/core/reduce_copyout.c:128-198`). -/
def copyOutCode (N : Nat) (sz : Nat → Nat) (kind : Kind) (b : Block) (t : Nat) : List Instr :=
  match kind with
  | .reduceScatter => copyOutOwn sz b (sz t)
  | _ => copyOutAll sz (moffset sz N) 0 b

/-- Program of node `t` (`src/mpi/ext_mpi_native.c:782-792`: copy-in, code of the blocks, copy-out). `none`: there is no block
to copy in from or out of, a block is not covered by the model, or the message sizes are read outside of their array
(`mcounts[frac]`). -/
def program (N : Nat) (sz : Nat → Nat) (kind : Kind) (sched : List Block) (t : Nat) : Option (List Instr) :=
  match sched, sched.getLast? with
  | b0 :: bs, some bl =>
    if bs.all covered && (b0 ++ bl).all fun l => decide (l.frac < N) then
      some (copyInCode N sz kind b0 t ++ blocksCode N (mmsize N sz) t true bs ++ copyOutCode N sz kind bl t)
    else none
  | _, _ => none

/-! ## Execution -/

/-- Memory of a process. -/
abbrev Mem (X : Type) := Reg → Nat → X

/-- Two intervals have a common element. -/
def overlap (a : Addr) (n : Nat) (b : Addr) (m : Nat) : Prop :=
  a.reg = b.reg ∧ a.off < b.off + m ∧ b.off < a.off + n

/-- A process: the rest of its program, its memory, and per partner the posted receives and sends that are
not complete, oldest first. -/
structure Proc (X : Type) where
  rest : List Instr
  mem : Mem X
  recvs : Nat → List (Addr × Nat)
  sends : Nat → List (Addr × Nat)

/-- The interval is not the target of an incomplete receive. -/
def Proc.clearRecv {X : Type} (p : Proc X) (a : Addr) (n : Nat) : Prop :=
  ∀ q x, x ∈ p.recvs q → ¬overlap x.1 x.2 a n

/-- The interval is not the source of an incomplete send. -/
def Proc.clearSend {X : Type} (p : Proc X) (a : Addr) (n : Nat) : Prop :=
  ∀ q x, x ∈ p.sends q → ¬overlap x.1 x.2 a n

/-- Effect of a copy or reduction (`ext_mpi_native_exec.c`, `OPCODE_MEMCPY`, `OPCODE_REDUCE`). -/
def copyMem {X : Type} [Add X] (red : Bool) (dst src : Addr) (n : Nat) (m : Mem X) : Mem X := fun r i =>
  if r = dst.reg ∧ dst.off ≤ i ∧ i < dst.off + n then
    let x := m src.reg (src.off + (i - dst.off))
    if red then m r i + x else x
  else m r i

/-- Data of a message. -/
def readMem {X : Type} (m : Mem X) (a : Addr) (n : Nat) : List X := (List.range n).map fun i => m a.reg (a.off + i)

/-- Arrival of a message. -/
def writeMem {X : Type} (m : Mem X) (a : Addr) (msg : List X) : Mem X := fun r i =>
  if r = a.reg ∧ a.off ≤ i then
    match msg[i - a.off]? with
    | some x => x
    | none => m r i
  else m r i

/-- Append to the queue of a partner. -/
def push (f : Nat → List (Addr × Nat)) (q : Nat) (x : Addr × Nat) : Nat → List (Addr × Nat) := fun k =>
  if k = q then f k ++ [x] else f k

/-- Remove the oldest entry of a partner. -/
def pop (f : Nat → List (Addr × Nat)) (q : Nat) : Nat → List (Addr × Nat) := fun k =>
  if k = q then (f k).tail else f k

/-- One instruction of a process (`ext_mpi_native_exec.c`). A copy with overlapping operands, an access to the buffer of
a pending message (erroneous in MPI) and a wait before all messages are complete are not possible. A barrier of
a single process does nothing. -/
inductive LStep {X : Type} [Add X] : Proc X → Proc X → Prop
  | copy {p red dst src n rest} : p.rest = .copy red dst src n :: rest → ¬overlap dst n src n →
      p.clearRecv dst n → p.clearSend dst n → p.clearRecv src n →
      LStep p { p with rest := rest, mem := copyMem red dst src n p.mem }
  | irecv {p buf n q rest} : p.rest = .irecv buf n q :: rest → p.clearRecv buf n → p.clearSend buf n →
      LStep p { p with rest := rest, recvs := push p.recvs q (buf, n) }
  | isend {p buf n q rest} : p.rest = .isend buf n q :: rest → p.clearRecv buf n →
      LStep p { p with rest := rest, sends := push p.sends q (buf, n) }
  | waitall {p rest} : p.rest = .waitall :: rest → (∀ q, p.recvs q = [] ∧ p.sends q = []) →
      LStep p { p with rest := rest }
  | barrier {p rest} : p.rest = .barrier :: rest → LStep p { p with rest := rest }

/-- All processes and the messages that have left the sender, per sender and receiver, oldest first. -/
structure State (X : Type) where
  proc : Nat → Proc X
  chan : Nat → Nat → List (List X)

/-- What happens in a step: an instruction of process `t`, or MPI takes the oldest message from `q` to `t` out of the
send buffer, or puts it into the receive buffer. -/
inductive Lab where
  | loc (t : Nat)
  | depart (q t : Nat)
  | arrive (q t : Nat)
  deriving DecidableEq, Repr

/-- Replace one process. -/
def setProc {X : Type} (f : Nat → Proc X) (t : Nat) (p : Proc X) : Nat → Proc X := fun k => if k = t then p else f k

/-- Replace one channel. -/
def setChan {X : Type} (f : Nat → Nat → List (List X)) (q t : Nat) (c : List (List X)) : Nat → Nat → List (List X) :=
  fun k l => if k = q ∧ l = t then c else f k l

/-- One step of `N` processes. All messages have the same tag (`ext_mpi_native_exec.c`, `header->tag`), so messages
between two processes match in the order in which they were posted. A message that does not have the size of
the receive does not arrive. -/
inductive Step {X : Type} [Add X] (N : Nat) : Lab → State X → State X → Prop
  | loc {s t p} : t < N → LStep (s.proc t) p → Step N (.loc t) s ⟨setProc s.proc t p, s.chan⟩
  | depart {s q t a n r} : q < N → t < N → q ≠ t → (s.proc q).sends t = (a, n) :: r →
      Step N (.depart q t) s
        ⟨setProc s.proc q { s.proc q with sends := pop (s.proc q).sends t },
          setChan s.chan q t (s.chan q t ++ [readMem (s.proc q).mem a n])⟩
  | arrive {s q t a n r msg ms} : q < N → t < N → q ≠ t → s.chan q t = msg :: ms →
      (s.proc t).recvs q = (a, n) :: r → msg.length = n →
      Step N (.arrive q t) s
        ⟨setProc s.proc t { s.proc t with mem := writeMem (s.proc t).mem a msg, recvs := pop (s.proc t).recvs q },
          setChan s.chan q t ms⟩

/-- Executions of `k` steps. -/
inductive Steps {X : Type} [Add X] (N : Nat) : Nat → State X → State X → Prop
  | refl {s} : Steps N 0 s s
  | step {k l s s1 s2} : Step N l s s1 → Steps N k s1 s2 → Steps N (k + 1) s s2

/-- Start: nothing posted, nothing under way. -/
def initial {X : Type} (prog : Nat → List Instr) (m : Nat → Mem X) : State X :=
  ⟨fun t => ⟨prog t, m t, fun _ => [], fun _ => []⟩, fun _ _ => []⟩

end ExtMpi.RawCode
