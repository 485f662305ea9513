/-!
# On-node barriers

Model of `socket_barrier`, `node_barrier` and their `_test` variants in
`/repo/src/mpi/ext_mpi_native_exec.c` and of the way the interpreter
`ext_mpi_exec_native` uses them.

One transition of the concurrent system is one access to shared memory (or one
purely local control transfer) of one process.  Memory is sequentially
consistent (trusted base, see DESIGN.md).
-/
namespace ExtMpi.Barrier

/-- `INT_MAX` of a 32-bit `int`. -/
def INT_MAX : Nat := 2147483647

/-- The spin condition
`(unsigned int)(slot - *barrier_count) > INT_MAX`
of `src/mpi/ext_mpi_native_exec.c:30,52,75` (`int` subtraction modelled with
two's complement wrap-around). -/
def behind (slot count : BitVec 32) : Bool := decide ((slot - count).toNat > INT_MAX)

/-- Slot read by `socket_barrier` in the round with distance `step`
(`(socket_rank + step) % num_cores`, `src/mpi/ext_mpi_native_exec.c:52`). -/
def socketPartner (n r step : Nat) : Nat := (r + step) % n

/-- Slot read by `node_barrier` in the round with distance `step`.
`shmem[step]` (`src/mpi/ext_mpi_native_exec.c:30`) is the segment of the socket
`i` with `step = (num_segments - i + own) % num_segments`
(`src/mpi/shmem.c:130`), i.e. of socket `own - step` modulo the number of
sockets. -/
def nodePartner (n r step : Nat) : Nat := (r + n - step) % n

/-- Program point of one process.
`out`: outside of the barrier (executing other instructions);
`loop step`: at the head of `for (step = 1; step < n; step <<= 1)`;
`spin step`: in the `while` loop (`src/mpi/ext_mpi_native_exec.c:48-56`). -/
inductive PC where
  | out
  | loop (step : Nat)
  | spin (step : Nat)
  deriving DecidableEq, Repr

/-- One process.  `count` is `*barrier_count`
(`header->barrier_counter_socket`, started at 1 in `src/core/byte_code.c:332`).
`done` is a ghost variable: the number of barriers this process has left. -/
structure Proc where
  pc : PC
  count : BitVec 32
  done : Nat

/-- Shared slots and all processes. -/
structure State where
  slot : Nat → BitVec 32
  proc : Nat → Proc

/-- Functional update. -/
def upd {α : Type} (f : Nat → α) (i : Nat) (v : α) : Nat → α :=
  fun j => if j = i then v else f j

/-- Slots zeroed (`memset` in `src/mpi/shmem.c:167`, `fill = 0` passed by
`src/mpi/ext_mpi_native.c:447`), counters 1 (`src/core/byte_code.c:332-333`). -/
def init : State := { slot := fun _ => 0, proc := fun _ => ⟨.out, 1, 0⟩ }

/-- One step of process `r` of `n` (`src/mpi/ext_mpi_native_exec.c:26-34,48-56`).
`step` is unbounded here; the C `int` does not overflow for `n ≤ 2^30`. -/
def step (partner : Nat → Nat → Nat → Nat) (n : Nat) (s : State) (r : Nat) : State :=
  let p := s.proc r
  match p.pc with
  | .out => { s with proc := upd s.proc r { p with pc := .loop 1 } }
  | .loop st =>
    if st < n then
      { slot := upd s.slot r p.count, proc := upd s.proc r { p with pc := .spin st } }
    else
      { s with proc := upd s.proc r { p with pc := .out, done := p.done + 1 } }
  | .spin st =>
    if behind (s.slot (partner n r st)) p.count then s
    else { s with proc := upd s.proc r { p with pc := .loop (st * 2), count := p.count + 1 } }

/-- Execution of a schedule: the list of the processes that take the successive steps. -/
def run (partner : Nat → Nat → Nat → Nat) (n : Nat) (sched : List Nat) : State :=
  sched.foldl (step partner n) init

/-- Number of barriers process `r` has left. -/
def State.left (s : State) (r : Nat) : Nat := (s.proc r).done

/-- Number of barriers process `r` has entered. -/
def State.entered (s : State) (r : Nat) : Nat :=
  (s.proc r).done + (if (s.proc r).pc = .out then 0 else 1)

/-! ### The `_test` variants and the interpreter under `EXT_MPI_Test` -/

/-- The loop of `socket_barrier_test` / `node_barrier_test`
(`src/mpi/ext_mpi_native_exec.c:36-46,58-68`): returns the C return value and
the new slots.  `fuel` bounds the number of rounds; `n` rounds always suffice
because `step` doubles. -/
def barrierTestLoop (partner : Nat → Nat → Nat → Nat) (n r : Nat) :
    Nat → Nat → (Nat → BitVec 32) → BitVec 32 → Int × (Nat → BitVec 32)
  | 0, _, slot, _ => (0, slot)
  | fuel + 1, st, slot, count =>
    if st < n then
      let slot' := upd slot r count
      if behind (slot' (partner n r st)) count then (1, slot')
      else barrierTestLoop partner n r fuel (st * 2) slot' (count + 1)
    else (0, slot)

/-- `socket_barrier_test` (`src/mpi/ext_mpi_native_exec.c:58-68`) and, with the
other partner function, `node_barrier_test` (`:36-46`). -/
def barrierTest (partner : Nat → Nat → Nat → Nat) (n r : Nat)
    (slot : Nat → BitVec 32) (count : BitVec 32) : Int × (Nat → BitVec 32) :=
  barrierTestLoop partner n r n 1 slot count

/-- What the interpreter does at a barrier instruction. -/
inductive Outcome where
  /-- returns to the caller; the instruction will be executed again -/
  | yield
  /-- calls the blocking barrier function -/
  | block
  deriving DecidableEq, Repr

/-- `OPCODE_SOCKETBARRIER` / `OPCODE_NODEBARRIER` in `ext_mpi_exec_native`
(`src/mpi/ext_mpi_native_exec.c:328-357`): with `active_wait & 2` the blocking
barrier is called at once, otherwise `if (!test) return 0; else barrier(...)`. -/
def execBarrier (partner : Nat → Nat → Nat → Nat) (n r : Nat) (activeWait : Nat)
    (slot : Nat → BitVec 32) (count : BitVec 32) : Outcome × (Nat → BitVec 32) :=
  if activeWait &&& 2 ≠ 0 then (.block, slot)
  else
    let t := barrierTest partner n r slot count
    if t.1 = 0 then (.yield, t.2) else (.block, t.2)

end ExtMpi.Barrier
