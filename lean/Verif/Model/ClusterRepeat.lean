import Verif.Model.Cluster
/-!
# Repeated executions by several processes on each of several nodes

A persistent request is started any number of times (`/repo/src/mpi/ext_mpi_native.c:233-281`). Between two executions a
process changes its own buffers, as soon as its own execution is at the end; it does not wait for the other processes. The
counters and the flags of the barriers keep their values from one execution to the next one
(`/repo/src/mpi/ext_mpi_native_exec.c:48-56`, `barrier_count` in the header of the byte code).

Simplification: as in `Model/Cluster.lean`; `alternating` is not set, so that all executions use the same program and the
same shared memory (`ext_mpi_native.c:235-242`, `497-538`).
-/
namespace ExtMpi.Cluster
open RawCode

/-- A change of the application: element `fst` is overwritten by element `snd`, which is anywhere in memory. -/
abbrev Change := Addr × Addr

/-- The change as an instruction. -/
def Change.instr (x : Change) : Instr := .copy false x.1 x.2 1

/-- `K` executions of `prog`, the first one has the number `s`; `fills i p` are the changes that process `p` makes before
execution `i`. -/
def repeatFrom (fills : Nat → Nat → List Change) (prog : Nat → List CInstr) : Nat → Nat → Nat → List CInstr
  | _, 0, _ => []
  | s, K + 1, p => (fills s p).map (fun x => .op x.instr) ++ (prog p ++ repeatFrom fills prog (s + 1) K p)

/-- `K` executions by the processes of `N` nodes with `ns` processes each. -/
def repeated (N ns : Nat) (fills : Nat → Nat → List Change) (prog : Nat → List CInstr) (K p : Nat) : List CInstr :=
  if p < N * ns then repeatFrom fills prog 0 K p else []

end ExtMpi.Cluster
