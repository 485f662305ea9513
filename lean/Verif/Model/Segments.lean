import Mathlib.Data.List.Basic
import Mathlib.Data.Finset.Lattice.Fold
import Mathlib.Order.Interval.Finset.Nat
import Mathlib.Logic.Function.Basic
import Verif.Model.Numeric
/-!
# Set-up of the segments of shared memory

`/repo/src/mpi/shmem.c` without GPU.

Simplifications: a process is given by its ranks in `comm_row` and `comm_column`; without `comm_column` all column ranks are 0 and
`my_cores_per_node_column` is 1. The collective calls of MPI are performed by all processes at once, as they end only if all
processes take part. The operating system of a machine is a function that gives the identifier of the segment a process creates.
-/
namespace ExtMpi.Segments

/-- Row rank and column rank. -/
abbrev Proc := Nat × Nat

/-- Arguments of `ext_mpi_setup_shared_memory` (`src/mpi/shmem.c:87-94`): `my_cores_per_node_row`, `my_cores_per_node_column`,
`num_segments`. -/
structure Grid where
  cores : Nat
  columns : Nat
  segs : Nat
deriving DecidableEq, Repr

/-- Memory at an address: none yet, memory of the process itself (`malloc`), or a segment of the system of a machine, attached
for reading only or for writing as well. -/
inductive Seg where
  | none
  | heap (p : Proc)
  | shm (machine : Nat) (id : Int) (write : Bool)
deriving DecidableEq, Repr

/-- The arrays `shmemid` and `shmem` of all processes. -/
structure Arrays where
  id : Proc → Nat → Int
  mem : Proc → Nat → Seg

/-- `single_task` (`src/mpi/shmem.c:102`). -/
def single (g : Grid) : Bool := g.cores * g.columns == 1 && g.segs == 1

/-- `ii` (`src/mpi/shmem.c:130`). -/
def index (g : Grid) (p : Proc) (i : Nat) : Nat := (g.segs - i + p.1 / g.cores) % g.segs

/-- The process that creates segment `i` of its node (`src/mpi/shmem.c:135-136`). -/
def creates (g : Grid) (p : Proc) (i : Nat) : Bool := p.1 % (g.cores * g.segs) == i * g.cores && p.2 % g.columns == 0

/-- Process `j` of the communicator of the node and row of `p` (`src/mpi/shmem.c:118-119`). -/
def inRow (g : Grid) (p : Proc) (j : Nat) : Proc := (p.1 / (g.cores * g.segs) * (g.cores * g.segs) + j, p.2)

/-- Process `j` of the communicator of the node and column of `p` (`src/mpi/shmem.c:121-123`). -/
def inColumn (g : Grid) (p : Proc) (j : Nat) : Proc := (p.1, p.2 / g.columns * g.columns + j)

/-- The identifier at first (`src/mpi/shmem.c:132`, `135-142`); `get` is `shmget`. -/
def created (g : Grid) (get : Proc → Nat → Int) (i : Nat) (p : Proc) : Int :=
  if creates g p i then if single g then -2 else get p i else -1

/-- The identifier after both `MPI_Bcast` (`src/mpi/shmem.c:144-147`). -/
def received (g : Grid) (get : Proc → Nat → Int) (i : Nat) (p : Proc) : Int :=
  let row := fun q => created g get i (inRow g q (i * g.cores))
  row (inColumn g p 0)

/-- Attaching (`src/mpi/shmem.c:149-161`). -/
def attach (g : Grid) (machine : Proc → Nat) (get : Proc → Nat → Int) (i : Nat) (p : Proc) : Seg :=
  if single g then .heap p
  else .shm (machine p) (received g get i p) (p.1 % (g.cores * g.segs) / g.cores == i)

/-- One iteration of the loop (`src/mpi/shmem.c:129-168`). -/
def iteration (g : Grid) (machine : Proc → Nat) (get : Proc → Nat → Int) (a : Arrays) (i : Nat) : Arrays where
  id := fun p => Function.update (a.id p) (index g p i) (received g get i p)
  mem := fun p => Function.update (a.mem p) (index g p i) (attach g machine get i p)

/-- `ext_mpi_setup_shared_memory` (`src/mpi/shmem.c:87-211`), if the system provides the memory. -/
def setup (g : Grid) (machine : Proc → Nat) (get : Proc → Nat → Int) : Arrays :=
  (List.range g.segs).foldl (iteration g machine get) ⟨fun _ _ => -1, fun _ _ => .none⟩

/-- `*size_shared` after the call on `rows` times `columns` processes (`src/mpi/shmem.c:106-117`); `size` are the arguments,
`line` is `CACHE_LINE_SIZE`. -/
def sharedSize (rows columns line : Nat) (size : Proc → Nat) (p : Proc) : Nat :=
  let row := fun q : Proc => (Finset.range rows).sup fun r => size (r, q.2)
  let s := (Finset.range columns).sup fun c => row (p.1, c)
  if 0 < s then ((s - 1) / line + 1) * line else s

/-- The segment from which a message of a process in socket `sender` is copied by one in socket `socket` of the same node
(`src/mpi/messages_shared_memory.c:157`); the sockets of all nodes are numbered, and `%` is that of C. -/
def messageSegment (segs : Nat) (sender socket : Nat) : Int := Int.tmod ((segs : Int) - sender + socket) segs

/-- `all_num_cores` (`src/mpi/ext_mpi.c:195-204`): the numbers of processes on the machines of the ranks. -/
def machineSizes (n : Nat) (machine : Nat → Nat) : List Nat :=
  (List.range n).map fun r => ((Finset.range n).filter fun s => machine s = machine r).card

/-- The processes that share the segments of rank `r` (`src/mpi/shmem.c:118`, `src/mpi/ext_mpi.c:247-248`), if the user gives no
number of processes. `none`: there is no number of processes per socket. -/
def sharing (n : Nat) (machine : Nat → Nat) (sockets : Nat) (r : Nat) : Option Nat :=
  (Numeric.tasksPerSocket (machineSizes n machine) sockets).map fun c => r / (c * sockets)

end ExtMpi.Segments
