import Verif.Model.OnNode
import Verif.Model.Rooted
/-!
# Collectives on a single node

The programs of the processes of a single node for the collectives other than allreduce: reduce and broadcast
(`/repo/src/mpi/ext_mpi_native.c:640-900`), allgatherv and gatherv (`960-1150`), scatterv (`1162-1375`) and
reduce_scatter (`1440-1632`). Their parts come from `/repo/src/core/reduce_copyin.c`, `/repo/src/core/reduce_copyout.c` and
`/repo/src/core/reduce_scatter_single_node.c`. The programs are executed by the machine of `Model/OnNode.lean`.

Simplifications: those of `Model/OnNode.lean`; in addition the programs are those of two or more processes (with one
process the barriers are removed and buffers are merged). The passes `buffer_offset.c`, `no_offset.c`, `optimise_buffers.c`,
`optimise_buffers2.c`, `parallel_memcpy.c` and `raw_code_merge.c` are left out: they change copies inside of the shared memory
and messages only, and these programs have neither.
-/
namespace ExtMpi.SingleNode
open Schedule OnNode
open RawCode (moffset)

/-- Lines `esocket_barrier`. -/
def barriers (k b : Nat) : List Instr := List.replicate k (.barrier b)

/-- Copies of size 0 are not emitted, or have no effect (`src/core/reduce_copyin.c:578`, `src/core/reduce_copyout.c:143`,
`184`). -/
def copyIf (dst src : Addr) (size : Nat) : List Instr := if size = 0 then [] else [.copy false dst src size]

/-- Barriers at the start of an execution: the one of `src/core/reduce_copyin.c:485` or
`src/core/reduce_scatter_single_node.c:34`, which `src/core/no_first_barrier.c` removes with alternating shared memories. -/
def firstBarriers (alternate : Bool) : Nat := if alternate then 0 else 1

/-- Copy-out of a message of `len` elements (`src/core/reduce_copyout.c:57-59`, `129-173`): from the memory behind the flags if
the message has at most 56 bytes. -/
def copyOutAll (ts len b k : Nat) : List Instr := copyOut ⟨0, ts, len, [], 0⟩ b k

/-! ## Broadcast -/

/-- Broadcast of `len` elements (`EXT_MPI_Bcast_init_native`: `root` of the parameters is `-10 - root`). The root copies
(`src/core/reduce_copyin.c:487-514`), the others copy out (`src/core/reduce_copyout.c:130-139`). There is no other code
between the two if there is one node (`src/mpi/ext_mpi_native.c:784-791`). The buffer of the user is the send buffer for the root and
the receive buffer for the others. -/
def bcast (ts len root lead b k own : Nat) : List Instr :=
  barriers lead b ++ (if own = root then [.copy false ⟨.shm b, 0⟩ ⟨.send k, 0⟩ len] else []) ++ [.barrier b] ++
    if own = root then [] else copyOutAll ts len b k

/-! ## Scatter -/

/-- Scatter of `n` parts of `cnt q` elements. Copy-in of the root as for a broadcast; copy-out of the own part
(`src/core/reduce_copyout.c:174-200`; the line of the last block has an entry `sendto`). `mid` barriers are emitted by
`src/core/reduce_copyin.c:513` and `src/core/raw_code.c:68-332` and left over by `src/mpi/clean_barriers.c`. -/
def scatter (n : Nat) (cnt : Nat → Nat) (root lead mid b k own : Nat) : List Instr :=
  barriers lead b ++ (if own = root then [.copy false ⟨.shm b, 0⟩ ⟨.send k, 0⟩ (moffset cnt n)] else []) ++
    barriers mid b ++ copyIf ⟨.recv k, 0⟩ ⟨.shm b, moffset cnt own⟩ (cnt own)

/-! ## Gather -/

/-- Last block of the schedule of a single node. -/
def lastBlock : Block := [{ frac := 0, sendto := [(-1, 0)] }]

/-- Block of a step of the schedule of a single node: there is nothing to send. -/
def stepBlock : Block := [{ frac := 0 }]

/-- Rows of the schedule of a single node after block 0, with `steps` steps (`Cyclic.allgather 1`). -/
def tailRows (steps : Nat) : List Rooted.Row := List.replicate steps (fun _ => stepBlock) ++ [fun _ => lastBlock]

/-- Schedule of a single node. -/
def rows (steps : Nat) : List Rooted.Row := (fun _ => singleBlock) :: tailRows steps

/-- Block 0 of the schedule, for a gather after `ext_mpi_generate_backward_interpreter`
(`src/mpi/ext_mpi_native.c:1063-1069`). -/
def block0 (steps : Nat) : Option Nat → Block
  | none => singleBlock
  | some root =>
    match Rooted.prune 1 root true (rows steps) with
    | some (r :: _, _) => r 0
    | _ => []

/-- Start of the part of process `own` in the shared memory (`src/core/reduce_copyin.c:562-576`): lines before the first one
that copies in are skipped. -/
def gatherStart (n : Nat) (cnt : Nat → Nat) (blk : Block) (own : Nat) : Nat :=
  moffset cnt own +
    RawCode.off (fun _ => moffset cnt n) blk (blk.findIdx fun l => l.recvfrom.any fun e => e.1 == -1)

/-- Gather to a root, or to all (`root = none`), of `cnt q` elements of process `q`. `mid` as in `scatter`. -/
def gather (n ts : Nat) (cnt : Nat → Nat) (steps : Nat) (root : Option Nat) (lead mid b k own : Nat) : List Instr :=
  barriers lead b ++ copyIf ⟨.shm b, gatherStart n cnt (block0 steps root) own⟩ ⟨.send k, 0⟩ (cnt own) ++ barriers mid b ++
    if root = none ∨ root = some own then copyOutAll ts (moffset cnt n) b k else []

/-! ## Reduce_scatter -/

/-- `ext_mpi_generate_reduce_scatter_single_node` (`src/core/reduce_scatter_single_node.c:29-83`). The line `ememcp_` only
enlarges the shared memory. -/
def reduceScatter (n : Nat) (cnt : Nat → Nat) (lead b k own : Nat) : List Instr :=
  barriers lead b ++ [.copy false ⟨.shm b, moffset cnt n * own⟩ ⟨.send k, 0⟩ (moffset cnt n), .barrier b,
    .copy false ⟨.recv k, 0⟩ ⟨.shm b, moffset cnt own⟩ (cnt own)] ++
    (List.range (n - 1)).map fun i =>
      .copy true ⟨.recv k, 0⟩ ⟨.shm b, moffset cnt n * (i + 1) + moffset cnt own⟩ (cnt own)

/-! ## Reduce -/

/-- Reduce to a root: the allreduce of `Model/OnNode.lean` without the copy-out of the others
(`src/core/reduce_copyout.c:130-139`). `ext_mpi_generate_backward_interpreter` is not called for one node
(`src/mpi/ext_mpi_native.c:753-764`). -/
def reduce (P : Par) (root lead b k own : Nat) : Option (List Instr) :=
  (copyIn P P.sz singleBlock b k own).map fun c =>
    List.replicate lead (.barrier b) ++ c ++ if own = root then copyOut P b k else []

end ExtMpi.SingleNode
