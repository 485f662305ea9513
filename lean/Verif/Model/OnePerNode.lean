import Verif.Model.Optimise
import Verif.Model.RankPerm
import Verif.Model.Recursive
/-!
# The chain of passes for one process per node

From the counts of the user to the optimised program, with the recursive algorithm: `EXT_MPI_Allgatherv_init_native`,
`EXT_MPI_Reduce_scatter_init_native` and the buffers of the user in `EXT_MPI_Allreduce_init_general`.

Simplifications: those of the passes; `ext_mpi_generate_raw_code_tasks_node` leaves the schedule of a single process as it is and is
left out.
-/
namespace ExtMpi.OnePerNode
open RawCode Optimise

/-- Message sizes as a function of the node. -/
def size (cnt : List Nat) (k : Nat) : Nat := cnt.getD k 0

/-- `EXT_MPI_Allgatherv_init_native` with one process per node (`src/mpi/ext_mpi_native.c:1037-1134`): relabelling, schedule of the new
label, labels turned back, program for the counts of the user. `displs` is an argument of the function and is not used in it
(`src/mpi/ext_mpi_native.c:901`). -/
def allgatherv (sort : List RankPerm.Sum → List RankPerm.Sum) (C : Nat) (ports : List Nat) (cnt _displs : List Nat) (t : Nat) :
    Option (List Instr) := do
  let q ← RankPerm.forward sort ⟨t, cnt.map fun (n : Nat) => (n : Int), []⟩
  let sched ← Recursive.generate true (ports.map fun (p : Nat) => (p : Int)) q.socket
  let sched ← RankPerm.relabel q.perm sched
  let b ← RankPerm.backward q
  gatherProgram C cnt.length (fun k => (b.sizes.getD k 0).toNat) (ports.headD 0) sched b.socket

/-- `EXT_MPI_Reduce_scatter_init_native` with one process per node (`src/mpi/ext_mpi_native.c:1530-1615`): the result of the backward
permutation is in `buffer2`, which the copy-in overwrites (`1544`, `1559`), so that all passes work with the label and the permuted
sizes. The number of elements of the result (`iocounts`) is that of the process. -/
def reduceScatter (sort : List RankPerm.Sum → List RankPerm.Sum) (C : Nat) (ports : List Nat) (cnt : List Nat) (t : Nat) :
    Option (List Instr) := do
  let q ← RankPerm.forward sort ⟨t, cnt.map fun (n : Nat) => (n : Int), []⟩
  let sched ← Recursive.generate false (ports.map fun (p : Nat) => -(p : Int)) q.socket
  let _ ← RankPerm.backward q
  if q.sizes.getD q.socket 0 = size cnt t then
    userProgram C cnt.length (fun k => (q.sizes.getD k 0).toNat) .reduceScatter
      (bigRecvbuf (ports.map fun (p : Nat) => -(p : Int))) sched q.socket
  else none

/-- The send buffer is the receive buffer (`src/mpi/ext_mpi.c:639-641`: `MPI_IN_PLACE`). -/
def inRecv (a : Addr) : Addr := if a.reg = .send then ⟨.recv, a.off⟩ else a

/-- A program that is run with both buffers being the same. -/
def inPlace (p : List Instr) : List Instr := p.map (mapAddr fun a _ => inRecv a)

end ExtMpi.OnePerNode
