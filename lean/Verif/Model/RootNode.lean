import Verif.Model.Forward
/-!
# Rooted collectives with several processes per node

With `ns` processes per node (`socket_row_size`) the root of a collective is a process: the parameter `root` is its rank
(`/repo/src/mpi/ext_mpi_native.c`, `root` of `EXT_MPI_Reduce_init_native` and the others). The copy-in and the copy-out compare it
with `socket * socket_row_size + socket_rank` (`/repo/src/core/reduce_copyin.c:490-495`,
`/repo/src/core/reduce_copyout.c:130-139`), the passes on the schedules compare it with `socket`, the number of the node.

Simplifications: those of `Model/Rooted.lean` and `Model/Forward.lean`: what the nodes send to each other and which data a node has,
not the work of the processes of a node.
-/
namespace ExtMpi.RootNode
open Schedule Rooted Forward

/-- Schedule of a gather or reduce to the process `rank` (`src/mpi/backward_interpreter.c:54-61`: `parameters->socket ==
parameters->root`). The result is copied out by a process of the node `rank / ns`. -/
def toRank (N rank : Nat) (rows : List Row) : Option (List Row) := (prune N rank true rows).map Prod.fst

/-- Schedule of a broadcast or scatter from the process `rank` (`src/mpi/forward_interpreter.c:51-54`). The data is copied in by a
process of the node `rank / ns` (`Forward.ExecF`). -/
def fromRank (N rank : Nat) (rows : List Row) : Option (List Row) := (forward N rank rows).map Prod.fst

end ExtMpi.RootNode
