import Verif.Model.ClusterRepeat
/-!
# Repeated executions with alternating shared memories

With `alt` a request has two programs, which use two shared memories (`/repo/src/mpi/ext_mpi_native.c:497-538`); every start
exchanges them (`ext_mpi_native.c:235-242`). This is the default for several processes on a node and messages of less than
10000000 bytes (`/repo/src/mpi/ext_mpi.c:273`, `347`, `573`, `662`, `843`). The programs have no barrier at the start
(`ext_mpi_native.c:1112-1114`, `1594-1596`). Each program has its own counter of the barrier, and the flags are part of its
shared memory (`/repo/src/mpi/ext_mpi_native_exec.c:48-78`).

Simplifications: as in `Model/Cluster.lean` and `Model/ClusterRepeat.lean`.
-/
namespace ExtMpi.Cluster
open RawCode
open TasksNode (Users put)

/-- Buffers of program `b` (0 or 1): the programs have different shared memories (`src/mpi/ext_mpi_native.c:501-511`) but the
same send and receive buffers (`530-535`). -/
def bank (b : Nat) : Reg → Reg
  | .shm k => .shm (2 * k + b)
  | r => r

/-- Address in program `b`. -/
def bankA (b : Nat) (a : Addr) : Addr := ⟨bank b a.reg, a.off⟩

/-- Instruction of program `b`. -/
def bankI (b : Nat) : Instr → Instr
  | .copy red d s n => .copy red (bankA b d) (bankA b s) n
  | .irecv a n q => .irecv (bankA b a) n q
  | .isend a n q => .isend (bankA b a) n q
  | i => i

/-- Instructions of a process, as `CInstr` with the number of the program whose flags and counter are used. -/
inductive AInstr where
  | op (i : Instr)
  | set (b : Nat) (r : Int)
  | wait (b : Nat) (r : Int)
  deriving DecidableEq, Repr

/-- Instruction of program `b`. -/
def inBank (b : Nat) : CInstr → AInstr
  | .op i => .op (bankI b i)
  | .set r => .set b r
  | .wait r => .wait b r

/-- The program without the `j` barriers at its start. `src/core/no_first_barrier.c:7-32` removes the first one. The
programs of reductions start with two (`src/core/reduce_copyin.c:485`, `535`), of which `src/mpi/clean_barriers.c` removes the
second one before that (`src/mpi/ext_mpi_native.c:836-841`). Every barrier consists of `clog 2 ns` rounds of two actions. -/
def withoutFirst (ns j : Nat) (l : List CInstr) : List CInstr := l.drop (2 * Nat.clog 2 ns * j)

/-- `K` executions, the first one has the number `s`. `EXT_MPI_Start_native` exchanges the programs before it starts, so
that the first execution uses program 1 (`src/mpi/ext_mpi_native.c:235-242`). -/
def alternateFrom (fills : Nat → Nat → List Change) (prog : Nat → List CInstr) : Nat → Nat → Nat → List AInstr
  | _, 0, _ => []
  | s, K + 1, p => (fills s p).map (fun x => .op x.instr) ++
      ((prog p).map (inBank ((s + 1) % 2)) ++ alternateFrom fills prog (s + 1) K p)

/-- `K` executions by the processes of `N` nodes with `ns` processes each. -/
def alternating (N ns : Nat) (fills : Nat → Nat → List Change) (prog : Nat → List CInstr) (K p : Nat) : List AInstr :=
  if p < N * ns then alternateFrom fills prog 0 K p else []

/-! ## Execution -/

/-- A process, as `CTask` with one counter per program (`barrier_count` in the header of the byte code). -/
structure ATask where
  rest : List AInstr
  recvs : Nat → List (Addr × Nat)
  sends : Nat → List (Addr × Nat)
  count : Nat → Nat

/-- All processes, the flags of the programs and the memory of the nodes, and the messages under way. -/
structure AState (X : Type) where
  task : Nat → ATask
  flag : Nat → Nat → Nat → Nat
  mem : Nat → Mem X
  chan : Nat → Nat → List (List X)

/-- As `CClear`. -/
def AClear {X : Type} (ns : Nat) (s : AState X) (node : Nat) (i : Instr) : Prop :=
  (∀ p, p / ns = node → ∀ q x, x ∈ (s.task p).recvs q → ∀ y, y ∈ TasksNode.writes i ++ TasksNode.reads i →
    ¬overlap x.1 x.2 y.1 y.2) ∧
  (∀ p, p / ns = node → ∀ q x, x ∈ (s.task p).sends q → ∀ y, y ∈ TasksNode.writes i → ¬overlap x.1 x.2 y.1 y.2) ∧
  (∀ x, x ∈ TasksNode.writes i → ∀ y, y ∈ TasksNode.reads i → ¬overlap x.1 x.2 y.1 y.2)

/-- Effect of an instruction on the process. -/
def aAfter (i : Instr) (rest : List AInstr) (t : ATask) : ATask :=
  match i with
  | .irecv a n q => { t with rest := rest, recvs := push t.recvs q (a, n) }
  | .isend a n q => { t with rest := rest, sends := push t.sends q (a, n) }
  | _ => { t with rest := rest }

/-- One step, as `CStep`. -/
inductive AStep {X : Type} [Add X] (N ns : Nat) : Lab → AState X → AState X → Prop
  | op {s p i rest} : p < N * ns → (s.task p).rest = .op i :: rest → i ≠ .barrier → AClear ns s (p / ns) i →
      (i = .waitall → ∀ q, (s.task p).recvs q = [] ∧ (s.task p).sends q = []) →
      AStep N ns (.loc p) s { s with
        task := put s.task p (aAfter i rest (s.task p)),
        mem := put s.mem (p / ns) (TasksNode.memAfter i (s.mem (p / ns))) }
  | set {s p b rest} {r : Nat} : p < N * ns → (s.task p).rest = .set b r :: rest →
      AStep N ns (.loc p) s { s with
        task := put s.task p { s.task p with rest := rest },
        flag := put s.flag (p / ns) (put (s.flag (p / ns)) b (put (s.flag (p / ns) b) r ((s.task p).count b))) }
  | wait {s p b rest} {r : Nat} : p < N * ns → (s.task p).rest = .wait b r :: rest →
      (s.task p).count b ≤ s.flag (p / ns) b r →
      AStep N ns (.loc p) s { s with
        task := put s.task p { s.task p with rest := rest, count := put (s.task p).count b ((s.task p).count b + 1) } }
  | depart {s q t a n r} : q < N * ns → t < N * ns → q ≠ t → (s.task q).sends t = (a, n) :: r →
      AStep N ns (.depart q t) s { s with
        task := put s.task q { s.task q with sends := pop (s.task q).sends t },
        chan := setChan s.chan q t (s.chan q t ++ [readMem (s.mem (q / ns)) a n]) }
  | arrive {s q t a n r msg ms} : q < N * ns → t < N * ns → q ≠ t → s.chan q t = msg :: ms →
      (s.task t).recvs q = (a, n) :: r → msg.length = n →
      AStep N ns (.arrive q t) s { s with
        task := put s.task t { s.task t with recvs := pop (s.task t).recvs q },
        mem := put s.mem (t / ns) (writeMem (s.mem (t / ns)) a msg),
        chan := setChan s.chan q t ms }

/-- Executions of `k` steps. -/
inductive ASteps {X : Type} [Add X] (N ns : Nat) : Nat → AState X → AState X → Prop
  | refl {s} : ASteps N ns 0 s s
  | step {k l s s1 s2} : AStep N ns l s s1 → ASteps N ns k s1 s2 → ASteps N ns (k + 1) s s2

/-- Start: nothing posted, nothing under way, counters 1, flags 0. -/
def startA {X : Type} (prog : Nat → List AInstr) (m : Nat → Mem X) : AState X :=
  ⟨fun p => ⟨prog p, fun _ => [], fun _ => [], fun _ => 1⟩, fun _ _ _ => 0, m, fun _ _ => []⟩

end ExtMpi.Cluster
