import Verif.Model.Cluster
import Verif.Model.BarrierPasses
/-!
# Removal of barriers from the programs of several processes on each of several nodes

The programs of `Model/Cluster.lean` as lines of text, and `/repo/src/mpi/clean_barriers.c` on them: the last pass before the byte
code is generated (`/repo/src/mpi/ext_mpi_native.c:836`, `1119`, `1601`), performed by all processes of a node together.

Simplifications: as in `Model/Cluster.lean` and `Model/BarrierPasses.lean`.
-/
namespace ExtMpi.Cluster
open RawCode Schedule
open TasksNode (Users)

/-- A line: a barrier of the node, or anything else with the actions of the process; a line without actions is one of those
that the byte code ignores (`ememcp_`, `ereduc_`, `eisen_`, `eirec_`, `src/mpi/ext_mpi_native.c`) or sends nothing. -/
abbrev PLine := BarrierPasses.Line (List CInstr)

/-- Actions of a line. -/
def lineCode (ns rank : Nat) : PLine → List CInstr
  | .barrier _ => rounds ns rank
  | .work l => l
  | _ => []

/-- Line of the copy-in (`src/core/reduce_copyin.c`). -/
def inLine (ns : Nat) (u : Users) (node rank : Nat) : OnNode.Instr → PLine
  | .barrier b => .barrier b
  | i => .work ((OnNode.Instr.acts ns rank i).map (fromAct ns u node))

/-- Line of the other parts of the program (`src/core/raw_code.c`, `src/core/reduce_copyout.c`). -/
def outLine (ns : Nat) (u : Users) (t : Nat) : Instr → PLine
  | .barrier => .barrier 0
  | i => .work (expand ns u t i)

/-- Lines of `reduceProgram`. -/
def reduceLines (N ns : Nat) (P : OnNode.Par) (sz : Nat → Nat) (out : Block → List Instr) (perm : List Nat) (u : Users)
    (sched : List Block) (node rank : Nat) : Option (List PLine) :=
  (TasksNode.tasks N ns perm node rank sched).bind fun a =>
  match a, a.getLast? with
  | b0 :: bs, some bl =>
    if bs.all TasksNode.inside && (b0 ++ bl).all fun l => decide (l.frac < N) then
      (copyInC P sz b0 rank).map fun c =>
        c.map (inLine ns u node rank) ++
          (TasksNode.code (TasksNode.blocksLines N ns (mmsize N sz) node rank true bs) ++ out bl).map
            (outLine ns u (node * ns + rank))
    else none
  | _, _ => none

/-- Lines of `allreduceProgram`. -/
def allreduceLines (N ns : Nat) (P : OnNode.Par) (sz : Nat → Nat) (perm : List Nat) (u : Users) (sched : List Block)
    (node rank : Nat) : Option (List PLine) :=
  reduceLines N ns P sz (copyOutAll sz (moffset sz N) 0) perm u sched node rank

/-- Lines of `reduceScatterProgram`. -/
def reduceScatterLines (N ns : Nat) (P : OnNode.Par) (cnt : Nat → Nat) (perm : List Nat) (u : Users)
    (sched : List Block) (node rank : Nat) : Option (List PLine) :=
  reduceLines N ns P (TasksNode.coarse ns cnt) (copyOutPart ns cnt node rank) perm u sched node rank

/-- Lines of `allgatherProgram`. -/
def allgatherLines (N ns : Nat) (cnt : Nat → Nat) (perm : List Nat) (u : Users) (sched : List Block) (node rank : Nat) :
    Option (List PLine) :=
  (TasksNode.gatherProgram N ns cnt perm sched node rank).map fun l => l.map (outLine ns u (node * ns + rank))

/-- What remains of the lines without those that have no effect; `none` is a barrier. -/
def shape (l : List PLine) : List (Option (List CInstr)) :=
  l.filterMap fun x => match x with
    | .barrier _ => some none
    | .work (i :: r) => some (some (i :: r))
    | _ => none

/-- `ext_mpi_clean_barriers` (`src/mpi/clean_barriers.c:17-82`) on the processes of node `a`, which form a row: the lines after
it. `none`: the pass does not end. -/
def cleanLines (ns : Nat) (lines : Nat → List PLine) (a : Nat) : Option (Nat → List PLine) :=
  (BarrierPasses.cleanBarriers ((lines (a * ns)).length + 1) fun p : Fin ns × Fin 1 => lines (a * ns + p.1.val)).map fun out r =>
    if h : r < ns then out (⟨r, h⟩, 0) else []

/-- The lines after the last passes. `alt`: two alternating programs, of which the first barrier is removed
(`src/core/no_first_barrier.c`). `early`: `ext_mpi_clean_barriers` precedes it, as in `EXT_MPI_Reduce_init_native`
(`src/mpi/ext_mpi_native.c:836-844`), which also prepares an allreduce; otherwise it follows, as for allgather and reduce_scatter (`1112-1120`, `1594-1602`). -/
def finishLines (early alt : Bool) (ns : Nat) (lines : Nat → List PLine) (a : Nat) : Option (Nat → List PLine) :=
  let first := fun l : List PLine => if alt then BarrierPasses.noFirst true l else l
  if early then (cleanLines ns lines a).map fun out r => first (out r)
  else cleanLines ns (fun p => first (lines p)) a

/-- The programs after them. -/
def finish (early alt : Bool) (ns : Nat) (lines : Nat → List PLine) (a : Nat) : Option (Nat → List CInstr) :=
  (finishLines early alt ns lines a).map fun out r => (out r).flatMap (lineCode ns r)

/-- The programs after `ext_mpi_clean_barriers` only. -/
def cleanNode (ns : Nat) (lines : Nat → List PLine) (a : Nat) : Option (Nat → List CInstr) :=
  (cleanLines ns lines a).map fun out r => (out r).flatMap (lineCode ns r)

end ExtMpi.Cluster
