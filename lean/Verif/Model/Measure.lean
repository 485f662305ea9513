import Verif.Model.PortChoice
import Verif.Model.Groups
import Verif.Model.RootNode
/-!
# Number of sockets chosen by a measurement

`EXT_MPI_Allreduce_measurement` (`/repo/src/mpi/cost_copyin_measurement.c:153-217`) and what allreduce, reduce and reduce_scatter do with its result
(`/repo/src/mpi/ext_mpi.c:457-495`, `648-684`, `742-795`). Simplifications: one column; the times are not modelled, the outcome of every
comparison is arbitrary; all ranks get the outcome of rank 0 (broadcasts, lines 182, 194).
-/
namespace ExtMpi.Measure
open PortChoice

/-- `ext_mpi_set_ports_single_node` (`src/mpi/num_ports_factors.c:38-65`): ports and groups before the terminating 0. -/
def setPorts (sockets : Nat) (p : List Int × List Int) : List Int × List Int :=
  if p.2 = [-1] then
    if sockets = 1 then ([-1], [-1])
    else if sockets = 2 then ([-1, 1], [-2, -2])
    else if sockets = 4 then ([-1, -1, 1, 1], [-2, -2, -2, -2])
    else p
  else p

/-- The numbers of sockets that are tried (`src/mpi/cost_copyin_measurement.c:177-179`). -/
def tried (size cores sockets : Nat) (oneOnly : Bool) : List Nat :=
  (if cores = size ∧ oneOnly = false then [2, 4] else []).filter fun j => decide (sockets = 1 ∧ cores % j = 0)

/-- `num_sockets_per_node_min` (`src/mpi/cost_copyin_measurement.c:176-193`); `faster j`: the time with `j` sockets is less than all before. -/
def best (faster : Nat → Bool) (js : List Nat) : Nat := js.foldl (fun b j => if faster j then j else b) 1

/-- `EXT_MPI_Allreduce_measurement` (`src/mpi/cost_copyin_measurement.c:153-217`): the number of sockets and the processes per
socket. `oneOnly`: the number of sockets is -1, as in blocking collectives. -/
def measure (size cores sockets : Nat) (oneOnly : Bool) (faster : Nat → Bool) : Nat × Nat :=
  if cores = 1 then (sockets, cores)
  else if sockets = 1 then
    (best faster (tried size cores sockets oneOnly), cores / best faster (tried size cores sockets oneOnly))
  else (sockets, cores)

/-- The arguments that the generator gets. -/
structure Setup where
  notRec : Bool
  sockets : Nat
  cores : Nat
  ports : List Int
  groups : List Int
  deriving DecidableEq, Repr

/-- Allreduce (`src/mpi/ext_mpi.c:663-684`) with the ports `p` from the environment or from `ext_mpi_num_ports_factors`. -/
def allreduceSetup (size cores sockets : Nat) (p : List Int × List Int) (faster : Nat → Bool) : Setup :=
  let m := measure size cores sockets false faster
  let q := if sockets = 1 then setPorts m.1 p else p
  ⟨notRecursive (size / cores) p.1, m.1, m.2, q.1, q.2⟩

/-- Reduce (`src/mpi/ext_mpi.c:757-774`, `791-795`): as allreduce, but the ports are not changed. -/
def reduceSetup (size cores sockets : Nat) (p : List Int × List Int) (faster : Nat → Bool) : Setup :=
  let m := measure size cores sockets false faster
  ⟨notRecursive (size / cores) p.1, m.1, m.2, p.1, p.2⟩

/-- Reduce_scatter (`src/mpi/ext_mpi.c:463-495`): the ports are reversed before. -/
def reduceScatterSetup (size cores sockets : Nat) (p : List Int × List Int) (faster : Nat → Bool) : Setup :=
  let m := measure size cores sockets false faster
  let q := if sockets = 1 then setPorts m.1 (reversePorts p.1, p.2) else (reversePorts p.1, p.2)
  ⟨notRecursive (size / cores) p.1, m.1, m.2, q.1, q.2⟩

end ExtMpi.Measure
