import Verif.Model.Numeric
import Mathlib.Tactic.Common
/-!
# Settings

`/repo/src/mpi/ext_mpi.c`: the environment is read by process 0 and broadcast (`read_env`), the lists are freed (`delete_env`).
`/repo/src/mpi/num_ports_factors.c`: look-up of parameters.

Not modelled: the texts printed, failing `malloc`. `ext_mpi_scan_ports_groups` and `ext_mpi_scan_copyin` are taken as
given here (see `Model/Text`): the environment contains their results.
-/
namespace ExtMpi.Settings

/-- What `sscanf(c, "%d", &var)` finds: nothing (`EOF`), no number (0), a number (1)
(`src/mpi/ext_mpi.c:52`, `77`, `107`; `src/mpi/num_ports_factors.c:18`). -/
inductive Scan
  | eof
  | noMatch
  | value (v : Int)
  deriving DecidableEq

/-- The environment of process 0 (`src/mpi/ext_mpi.c:50`, `59`, `67`, `75`, `87`, `105`, `114`, `146`): `none` if the variable is not set. Of
`EXT_MPI_ALTERNATING` the first character. Lists without the final 0. -/
structure Env where
  sockets : Option Scan := none
  notRecursive : Bool := false
  verbose : Bool := false
  debug : Option Scan := none
  alternating : Option Char := none
  tasks : Option Scan := none
  ports : Option (List Int × List Int) := none
  copyin : Option (Int × List Int) := none

/-- Global variables of a process (`src/mpi/ext_mpi.c:26-40`). -/
structure Settings where
  sockets : Int := -1
  notRecursive : Int := -1
  verbose : Int := 0
  debug : Int := 1
  alternating : Int := -1
  tasks : Int := -1
  ports : Option (List Int × List Int) := none
  copyinMethod : Int := -1
  copyin : Option (List Int) := none
  deriving DecidableEq

/-- Only process 0 does something (`if (mpi_comm_rank == 0)`, `src/mpi/ext_mpi.c:49`). -/
def at0 (f : Settings → Settings) (s : Nat → Settings) : Nat → Settings := fun r => if r = 0 then f (s 0) else s r

/-- `MPI_Bcast` of a variable from process 0 (`src/mpi/ext_mpi.c:57`). -/
def bcast {α : Type} (get : Settings → α) (set : Settings → α → Settings) (s : Nat → Settings) : Nat → Settings :=
  fun r => set (s r) (get (s 0))

/-- A variable that has to be a number (`src/mpi/ext_mpi.c:52-54`). -/
def number (old : Int) : Option Scan → Int
  | some (.value v) => v
  | _ => old

/-- `EXT_MPI_DEBUG` (`src/mpi/ext_mpi.c:77-79`). -/
def debugOf (old : Int) : Option Scan → Int
  | some .noMatch => 0
  | _ => old

/-- `EXT_MPI_ALTERNATING` (`src/mpi/ext_mpi.c:89-100`). -/
def alternatingOf (old : Int) : Option Char → Int
  | some c => if c = '1' then 1 else if c = '0' then 0 else old
  | none => old

/-- `while (i < mpi_comm_size) { j++; i *= 2; }` (`src/mpi/ext_mpi.c:125-128`, `157-160`). `fuel`: a bound of the number of steps,
the size is enough. -/
def levels (size : Nat) : Nat → Nat → Nat → Nat
  | 0, _, j => j
  | fuel + 1, i, j => if i < size then levels size fuel (2 * i) (j + 1) else j

/-- Number of ints of the arrays of processes other than 0 (`src/mpi/ext_mpi.c:123-134`, `166`). -/
def capacity (size : Nat) : Nat := 2 * levels size size 1 2 + 1

/-- Length of a list up to its first 0, and that 0 (`src/mpi/ext_mpi.c:131-132`, `163-164`). -/
def lengthWith0 (l : List Int) : Nat := (l.takeWhile (· ≠ 0)).length + 1

/-- The part of `read_env` with the scalar variables (`src/mpi/ext_mpi.c:49-112`). Line 85 broadcasts `ext_mpi_verbose` once more. -/
def readScalars (env : Env) (s : Nat → Settings) : Nat → Settings :=
  let s := bcast (·.sockets) (fun t v => { t with sockets := v }) (at0 (fun t => { t with sockets := number t.sockets env.sockets }) s)
  let s := bcast (·.notRecursive) (fun t v => { t with notRecursive := v })
    (at0 (fun t => { t with notRecursive := if env.notRecursive then 1 else t.notRecursive }) s)
  let s := bcast (·.verbose) (fun t v => { t with verbose := v }) (at0 (fun t => { t with verbose := if env.verbose then 1 else t.verbose }) s)
  let s := bcast (·.verbose) (fun t v => { t with verbose := v }) (at0 (fun t => { t with debug := debugOf t.debug env.debug }) s)
  let s := bcast (·.alternating) (fun t v => { t with alternating := v })
    (at0 (fun t => { t with alternating := alternatingOf t.alternating env.alternating }) s)
  bcast (·.tasks) (fun t v => { t with tasks := v }) (at0 (fun t => { t with tasks := number t.tasks env.tasks }) s)

/-- `EXT_MPI_NUM_PORTS` (`src/mpi/ext_mpi.c:113-144`); `none`: a process receives more than fits in its array. -/
def readPorts (size : Nat) (env : Env) (s : Nat → Settings) : Option (Nat → Settings) :=
  match env.ports with
  | none => some s
  | some (p, g) =>
    if 1 < size ∧ capacity size < lengthWith0 p then none
    else some fun r =>
      { s r with ports := some (if r = 0 then (p, g) else (p.take (lengthWith0 p - 1), g.take (lengthWith0 p - 1))) }

/-- `EXT_MPI_COPYIN` (`src/mpi/ext_mpi.c:145-173`). -/
def readCopyin (size : Nat) (env : Env) (s : Nat → Settings) : Option (Nat → Settings) :=
  match env.copyin with
  | none => some s
  | some (m, l) =>
    if 1 < size ∧ capacity size < lengthWith0 l then none
    else some fun r => { s r with copyinMethod := m, copyin := if r = 0 then some l else some (l.take (lengthWith0 l - 1)) }

/-- `read_env` (`src/mpi/ext_mpi.c:44-174`) on all processes of `MPI_COMM_WORLD`. -/
def readEnv (size : Nat) (env : Env) (s : Nat → Settings) : Option (Nat → Settings) :=
  (readPorts size env (readScalars env s)).bind (readCopyin size env)

/-- Start values (`src/mpi/ext_mpi.c:26-40`). -/
def initial : Nat → Settings := fun _ => {}

/-- `ext_mpi_num_ports_factors_env` (`src/mpi/num_ports_factors.c:82-95`): copy of the list with its final 0 to an array of `cap` ints. `none`: a
write behind the end. -/
def copyFixed (cap : Nat) (l : List Int) : Option (List Int) :=
  if lengthWith0 l ≤ cap then some (l.takeWhile (· ≠ 0) ++ [0]) else none

/-- Size of the arrays in the initialisations of allgatherv, gatherv, reduce_scatter and scatterv (`src/mpi/ext_mpi.c:251`, `323`, `444`, `550`). -/
def capGather (commSize : Nat) : Nat := commSize + 1

/-- Size of the arrays in those of allreduce, reduce and bcast (`src/mpi/ext_mpi.c:643`, `740`, `827`). -/
def capReduce (commSize : Nat) : Nat := 2 * commSize + 1

/-- `ext_mpi_get_param` (`src/mpi/num_ports_factors.c:9-23`). `info`: value of the key in the info object, `none` if there is no object or no
such key. The result `none` is that of an uninitialised variable. -/
def getParam (param : Int) (info : Option Scan) (de : Int) : Option Int :=
  if param ≥ 0 then some param
  else match info with
    | some (.value v) => some v
    | some _ => none
    | none => some de

/-- Collective calls of MPI of an initialisation (`src/mpi/ext_mpi.c:239-244`, `src/mpi/debug_persistent.c:76-77`): the test calls MPI for the
reference `ref` and the initialisation itself, whose calls are `general`. -/
def calls {α : Type} (debug : Int) (ref : α) (general : List α) : List α :=
  if debug ≠ 0 then ref :: (general ++ general) else general

/-- Pointers. -/
inductive Ptr
  | null
  | live
  | freed
  deriving DecidableEq

/-- `free`; `none`: memory is freed twice. -/
def Ptr.free : Ptr → Option Unit
  | .freed => none
  | _ => some ()

/-- The lists of ports and groups of process 0, which are always allocated together. -/
structure Ptrs where
  ports : Ptr := .null
  groups : Ptr := .null
  deriving DecidableEq

/-- `EXT_MPI_Init` (`src/mpi/ext_mpi.c:1013-1018`) with `EXT_MPI_NUM_PORTS` set or not (`113-144`): the effect on the pointers. -/
def init (set : Bool) (p : Ptrs) : Option Ptrs :=
  if set then
    if p.ports ≠ .null then
      p.ports.free.bind fun _ => p.groups.free.bind fun _ => some { ports := .live, groups := .live }
    else some { ports := .live, groups := .live }
  else some p

/-- `free(p)` leaves the variable as it is (`src/mpi/ext_mpi.c:182-183`). -/
def Ptr.afterFree : Ptr → Ptr
  | .null => .null
  | _ => .freed

/-- `delete_env` (`src/mpi/ext_mpi.c:181-185`), called by `EXT_MPI_Finalize` (`1025-1030`). -/
def finalize (p : Ptrs) : Option Ptrs :=
  p.groups.free.bind fun _ => p.ports.free.bind fun _ => some { ports := p.ports.afterFree, groups := p.groups.afterFree }

/-- Pairs of `EXT_MPI_Init` and `EXT_MPI_Finalize`, each with the variable set or not. -/
def cycles : List Bool → Ptrs → Option Ptrs
  | [], p => some p
  | b :: bs, p => (init b p).bind fun p => (finalize p).bind (cycles bs)

/-- `ext_mpi_get_num_tasks_per_socket` (`src/mpi/ext_mpi.c:187-217`) with the setting `tasks` of the user (`190-192`) and the division by the
number of sockets (`209`); the search is `Numeric.tasksPerSocket`. `cores`: for every process the number of processes of its
node. `none`: -1 or a division by zero. -/
def tasksPerSocket (tasks : Int) (cores : List Nat) (sockets : Nat) : Option Nat :=
  if tasks > 0 then some tasks.toNat
  else if sockets = 0 then none
  else Numeric.tasksPerSocket cores sockets

end ExtMpi.Settings
