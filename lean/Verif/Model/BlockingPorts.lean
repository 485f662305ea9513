import Verif.Model.PortChoice
/-!
# The preparation of the blocking collectives

`EXT_MPI_Init_blocking_comm` of `/repo/src/mpi/ext_mpi_blocking.c`: the choice of the port counts and of the generator for the
allreduce, reduce_scatter and allgather of a communicator, `ext_mpi_cost_simple_recursive` of
`/repo/src/core/cost_simple_recursive.c` and `ext_mpi_revert_num_ports` of `/repo/src/mpi/ext_mpi.c`. `none` stands for undefined
behaviour. Simplifications: one socket per node (the default); the eight sizes of messages are prepared alike, a size only enters
through the estimated times, which are arbitrary; no failing `malloc`; the measurement of the copy-in is not modelled.
-/
namespace ExtMpi.BlockingPorts
open PortChoice

/-- The three bounds on the number of ports of a step (`src/core/cost_simple_recursive.c:11-19`): `nports` is the largest number of
ports in the table of times. -/
def portBound (N nports fac portMax : Nat) : Nat := max 1 (min (min portMax nports) ((N - 1) / fac + 1))

/-- The comparison `T < T_min` and what it keeps (`src/core/cost_simple_recursive.c:10`, `57-66`); `limit` is `1e60`. -/
def keep {α : Type} [LinearOrder α] (limit : α) (best cand : Option (α × List Nat)) : Option (α × List Nat) :=
  match cand, best with
  | none, best => best
  | some c, none => if c.1 < limit then some c else none
  | some c, some b => if c.1 < b.1 then some c else some b

/-- `cost_simple_recursive_rec` (`src/core/cost_simple_recursive.c:7-69`) with one socket: the least time and the factors that have
it. `cost fac r` is the time of a step with factor `r` after steps with product `fac` (lines 26-50). The first argument bounds the depth
of the recursion. `none`: no time below `1e60`; a sum with such a time is not below it either, as times are not negative. -/
def simpleRec {α : Type} [LinearOrder α] [Add α] (N nports : Nat) (limit : α) (cost : Nat → Nat → α) :
    Nat → Nat → Nat → Option (α × List Nat)
  | 0, _, _ => none
  | f + 1, fac, portMax =>
    (List.range (portBound N nports fac portMax)).foldl (fun best i =>
      keep limit best
        (if fac * (i + 2) < N then
          (simpleRec N nports limit cost f (fac * (i + 2)) (portBound N nports fac portMax)).map fun x =>
            (cost fac (i + 2) + x.1, (i + 2) :: x.2)
        else some (cost fac (i + 2), [i + 2]))) none

/-- `ext_mpi_cost_simple_recursive` (`src/core/cost_simple_recursive.c:71-90`) with one socket: ports and groups. `none` if no times are
below `1e60`: `num_ports` is not initialised. -/
def costSimple {α : Type} [LinearOrder α] [Add α] (N portMax nports : Nat) (limit : α) (cost : Nat → Nat → α) :
    Option (List Int × List Int) :=
  (simpleRec N nports limit cost (N + 1) 1 portMax).map fun x =>
    (x.2.map fun r : Nat => (r : Int) - 1, groupsOf N x.2.length)

/-- The last loop of `ext_mpi_revert_num_ports` and the statement after it (`src/mpi/ext_mpi.c:416-422`); the first entry is the one
before the index of the loop. -/
def shiftSigns : List Int → List Int
  | [] => []
  | [g] => [-(g.natAbs : Int)]
  | g :: h :: t =>
    if h < 0 then -(g.natAbs : Int) :: shiftSigns ((h.natAbs : Int) :: t) else g :: shiftSigns (h :: t)
  termination_by l => l.length

/-- The groups of `ext_mpi_revert_num_ports` (`src/mpi/ext_mpi.c:407-422`). -/
def revertGroups (groups : List Int) : List Int :=
  match groups.reverse with
  | [] => []
  | g :: t => shiftSigns ((g.natAbs : Int) :: t)

/-- The ports of `ext_mpi_revert_num_ports` (`src/mpi/ext_mpi.c:404-411`). -/
def revertPorts (ports : List Int) : List Int := (ports.map (- ·)).reverse

/-- `ext_mpi_set_ports_single_node` (`src/mpi/num_ports_factors.c:38-65`) with one socket. -/
def setPortsSingleNode (p : List Int × List Int) : List Int × List Int := if p.2 = [-1] then ([-1], [-1]) else p

/-- The list with the least time (`src/mpi/ext_mpi_blocking.c:72-90`, `325-343`). Unlike in `ext_mpi_num_ports_factors` no candidates are
cancelled. -/
def fastestPorts {α : Type} [LinearOrder α] (N : Nat) (allgather : Bool) (cost : List Int → Option α) : Option (List Int × List Int) :=
  match candidates N allgather with
  | none => none
  | some ls =>
    match minCost cost none ls with
    | none => none
    | some (fs, _) => some (fs.map portOf, groupsOf N fs.length)

/-- Room for the ports and the terminating 0 (`src/mpi/ext_mpi_blocking.c:59-64`, `217-222`, `313-318`). -/
def room (n : Nat) (p : List Int × List Int) : Option (List Int × List Int) := if p.1.length < n then some p else none

/-- Ports of the allreduce (`src/mpi/ext_mpi_blocking.c:65-176`) for `size` processes, `cores` on each node. `fixed` are the ports given by
the user, `minimum` is `ext_mpi_minimum_computation`. On a single node the ports stay empty: `groups[0]` is 0, not -1. -/
def allreducePorts {α : Type} [LinearOrder α] (size cores : Nat) (fixed : Option (List Int × List Int)) (minimum : Bool)
    (cost : List Int → Option α) : Option (List Int × List Int) :=
  (match fixed with
  | some p => some p
  | none =>
    if size = cores then some (setPortsSingleNode ([], []))
    else if minimum then
      let n := halvings (size / cores)
      some (List.replicate n (-1) ++ List.replicate n 1, groupsOf (size / cores) n ++ groupsOf (size / cores) n)
    else fastestPorts (size / cores) false cost).bind fun p => (room (2 * size + 1) p).map setPortsSingleNode

/-- Ports of the reduce_scatter (`src/mpi/ext_mpi_blocking.c:223-282`). -/
def reduceScatterPorts {α : Type} [LinearOrder α] [Add α] (size cores nports : Nat) (fixed : Option (List Int × List Int)) (minimum : Bool)
    (limit : α) (cost : Nat → Nat → α) : Option (List Int × List Int) :=
  (match fixed with
  | some p => some p
  | none =>
    if minimum then
      let n := halvings (size / cores)
      some (List.replicate n (-1), groupsOf (size / cores) n)
    else
      (costSimple (size / cores) (if 1 < cores then cores else 12) nports limit cost).map fun p : List Int × List Int =>
        (revertPorts p.1, revertGroups p.2)).bind
    fun p => (room (size + 1) p).map setPortsSingleNode

/-- Ports of the allgather (`src/mpi/ext_mpi_blocking.c:319-395`). On a single node, without ports of the user and without minimal
computation, the last branch dereferences `ext_mpi_fixed_factors_ports`, which is `NULL`. -/
def allgatherPorts {α : Type} [LinearOrder α] (size cores : Nat) (fixed : Option (List Int × List Int)) (minimum : Bool)
    (cost : List Int → Option α) : Option (List Int × List Int) :=
  (match fixed with
  | some p => some p
  | none =>
    if 1 < size / cores ∧ minimum = false then fastestPorts (size / cores) true cost
    else if minimum then
      let n := halvings (size / cores)
      some (List.replicate n (-1), groupsOf (size / cores) n)
    else none).bind (room (size + 1))

/-- `EXT_MPI_Init_blocking_comm` (`src/mpi/ext_mpi_blocking.c:409-414`): the ports of the three collectives. -/
def initBlockingComm {α : Type} [LinearOrder α] [Add α] (size cores nports : Nat) (fixed : Option (List Int × List Int)) (minimum : Bool)
    (limit : α) (cost1 cost3 : List Int → Option α) (cost2 : Nat → Nat → α) :
    Option ((List Int × List Int) × (List Int × List Int) × (List Int × List Int)) :=
  match allreducePorts size cores fixed minimum cost1, reduceScatterPorts size cores nports fixed minimum limit cost2,
      allgatherPorts size cores fixed minimum cost3 with
  | some a, some b, some c => some (a, b, c)
  | _, _, _ => none

/-- `group_size` (`src/mpi/ext_mpi_blocking.c:147-156`, `255-262`, `372-379`): the allreduce only counts positive ports. -/
def groupSizeB (N : Nat) (allreduce : Bool) (ports : List Int) : Nat :=
  ((if allreduce then ports.filter (0 < ·) else ports).map fun p => p.natAbs + 1).foldl (· * ·) (if 1 < N then 1 else 0)

/-- The argument `arecursive` of `EXT_MPI_Add_blocking_native` (`src/mpi/ext_mpi_blocking.c:177`, `283`, `396`). `notRec` is
`ext_mpi_not_recursive`: -1, or 1 if the user sets it (`src/mpi/ext_mpi.c:35`, `58-65`). -/
def arecursive (N : Nat) (allreduce : Bool) (ports : List Int) (notRec : Int) : Bool := groupSizeB N allreduce ports = N && notRec == 0

/-- The generator of a blocking collective (`src/mpi/ext_mpi_native_blocking.c:208`, `226`, `242`): `arecursive` is passed where the
functions expect `not_recursive` (`src/mpi/ext_mpi_native.c:880`, `1155`, `1380`). -/
def generateB (allgatherv allreduce : Bool) (N : Nat) (ports groups : List Int) (notRec : Int) (task : Nat) : Option (List Schedule.Block) :=
  generate allgatherv (arecursive N allreduce ports notRec) N ports groups task

end ExtMpi.BlockingPorts
