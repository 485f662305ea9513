import Mathlib.Tactic.Common
/-!
# The self-test of persistent collectives

`/repo/src/mpi/debug_persistent.c`: before a persistent collective is initialised it is run once with test data, and the result is
compared with that of MPI. The test is on unless it is switched off (`/repo/src/mpi/ext_mpi.c:40`).

Memory consists of bytes. The test of one process is a list of accesses to three buffers: the send buffer of the test, the buffer
for the result of MPI and the receive buffer of the user. What MPI and the library deliver is given by functions from positions to
bytes. Simplifications: no failing `malloc`, no GPU, the contents of longs are bytes of their value in little-endian order,
sizes do not overflow.
-/
namespace ExtMpi.SelfTest

/-- `sendbuf_h` (`buffer_org` of a broadcast), `recvbuf_ref` (`buffer_ref`), `recvbuf` (`buffer`)
(`src/mpi/debug_persistent.c:15`, `698`). -/
inductive Buf
  | send | ref | recv
  deriving DecidableEq

/-- Accesses of the test (`src/mpi/debug_persistent.c`): bytes are written, read, or compared between the result of MPI and the
receive buffer of the user. -/
inductive Op
  | write (b : Buf) (lo len : Nat) (f : Nat → Nat)
  | read (b : Buf) (lo len : Nat)
  | cmp (lo len : Nat)
  | copy (src dst : Buf) (len : Nat)

/-- Memory and the variable `j` or `k` that tells of a difference (`src/mpi/debug_persistent.c:517-527`). -/
structure State where
  mem : Buf → Nat → Nat
  bad : Bool

/-- The access is inside of the buffers, whose sizes are `size`. -/
def Op.inside (size : Buf → Nat) : Op → Bool
  | .write b lo len _ => decide (len = 0 ∨ lo + len ≤ size b)
  | .read b lo len => decide (len = 0 ∨ lo + len ≤ size b)
  | .cmp lo len => decide (len = 0 ∨ (lo + len ≤ size .ref ∧ lo + len ≤ size .recv))
  | .copy s d len => decide (len ≤ size s ∧ len ≤ size d)

/-- Effect of an access. -/
def exec (s : State) : Op → State
  | .write b lo len f => { s with mem := fun c x => if c = b ∧ lo ≤ x ∧ x < lo + len then f x else s.mem c x }
  | .read _ _ _ => s
  | .cmp lo len => { s with bad := s.bad || (List.range len).any fun i => s.mem .recv (lo + i) != s.mem .ref (lo + i) }
  | .copy a d len => { s with mem := fun c x => if c = d ∧ x < len then s.mem a x else s.mem c x }

/-- Execution; `none`: an access outside of a buffer. -/
def run (size : Buf → Nat) : List Op → State → Option State
  | [], s => some s
  | op :: ops, s => if op.inside size then run size ops (exec s op) else none

/-- Byte `k` of a number. -/
def byteOf (v k : Nat) : Nat := v / 256 ^ k % 256

/-- `((long int *)buf)[i] = v` with `buf` at position `lo` (`src/mpi/debug_persistent.c:71`, `355`, `487`). -/
def setLong (b : Buf) (lo i v : Nat) : Op := .write b (lo + 8 * i) 8 fun x => byteOf v (x - (lo + 8 * i))

/-- `((int *)buf)[i] = v` (`src/mpi/debug_persistent.c:491`). -/
def setInt (b : Buf) (i v : Nat) : Op := .write b (4 * i) 4 fun x => byteOf v (x - 4 * i)

/-- Comparison of the longs from number `start` on (`src/mpi/debug_persistent.c:518-522`). -/
def cmpLongs (start n : Nat) : List Op := (List.range n).map fun i => .cmp (8 * (start + i)) 8

/-- Size of the type used in the test: `MPI_LONG` for types of 8 bytes, `MPI_INT` for others
(`src/mpi/debug_persistent.c:502-510`). -/
def elem (ts : Nat) : Nat := if ts = 8 then 8 else 4

/-- `ext_mpi_allreduce_init_debug` (`src/mpi/debug_persistent.c:479-531`) on the process `rank` for `count` elements of `ts` bytes. `R` is
the result of MPI, `L` that of the library. -/
def allreduce (rank count ts : Nat) (inPlace : Bool) (R L : Nat → Nat) : List Op :=
  let n := count * ts
  (if inPlace then
    ((List.range (n / 8)).flatMap fun i => [setLong .ref 0 i (rank * count + i), setLong .recv 0 i (rank * count + i)]) ++
      (if n % 8 ≠ 0 then [setInt .ref (count - 1) (rank * count + count - 1), setInt .recv (count - 1) (rank * count + count - 1)] else [])
  else
    ((List.range (n / 8)).flatMap fun i => [setLong .send 0 i (rank * count + i), setLong .recv 0 i (2 ^ 64 - 1)]) ++
      (if n % 8 ≠ 0 then [setInt .send (count - 1) (rank * count + count - 1)] else [])) ++
  [.read (if inPlace then .ref else .send) 0 (count * elem ts), .write .ref 0 (count * elem ts) R,
    .read (if inPlace then .recv else .send) 0 (count * elem ts), .write .recv 0 (count * elem ts) L] ++
  (cmpLongs 0 (n / 8) ++ if n % 8 ≠ 0 then [.cmp (4 * (count - 1)) 4] else [])

/-- Sizes of the buffers of this test (`src/mpi/debug_persistent.c:479`, `483`); the buffer of the user has `count` elements. -/
def allreduceSize (count ts : Nat) : Buf → Nat := fun _ => count * ts

/-- `ext_mpi_reduce_init_debug` (`src/mpi/debug_persistent.c:622-663`): only for sums of `MPI_LONG`, otherwise nothing is done
(`577`). Only the root has a result. -/
def reduce (rank count : Nat) (isRoot : Bool) (R L : Nat → Nat) : List Op :=
  let n := count * 8
  ((List.range (n / 8)).map fun i => setLong .send 0 i (rank * count + i)) ++
  [.read .send 0 n] ++ (if isRoot then [.write .ref 0 n R] else []) ++ [.read .send 0 n] ++
  (if isRoot then .write .recv 0 n L :: cmpLongs 0 (n / 8) else [])

/-- `ext_mpi_reduce_scatter_init_debug` (`src/mpi/debug_persistent.c:222-326`): only for sums of `MPI_LONG`. `total` is the number of all
elements, `mine` that of the elements of this process. -/
def reduceScatter (rank total mine : Nat) (R L : Nat → Nat) : List Op :=
  ((List.range (total * 8 / 8)).map fun i => setLong .send 0 i (rank * total + i)) ++
  [.read .send 0 (total * 8), .write .ref 0 (mine * 8) R, .read .send 0 (total * 8), .write .recv 0 (mine * 8) L] ++
  cmpLongs 0 (mine * 8 / 8)

/-- Sizes of its buffers (`src/mpi/debug_persistent.c:250-253`). -/
def reduceScatterSize (total mine : Nat) : Buf → Nat
  | .send => total * 8
  | _ => mine * 8

/-- `ext_mpi_bcast_init_debug` (`src/mpi/debug_persistent.c:738-766`). The buffer of the user is saved and restored. -/
def bcast (rank count ts : Nat) (R L : Nat → Nat) : List Op :=
  let n := count * ts
  [.copy .recv .send n] ++
  ((List.range (n / 8)).flatMap fun i => [setLong .recv 0 i (rank * count + i + 1073), setLong .ref 0 i (rank * count + i + 1073)]) ++
  [.read .ref 0 n, .write .ref 0 n R, .read .recv 0 n, .write .recv 0 n L] ++
  (cmpLongs 0 (n / 8) ++ [.copy .send .recv n])

/-- Blocks of a result with `P` parts (`MPI_Allgatherv`). -/
def parts (b : Buf) (P ts : Nat) (counts displs : Nat → Nat) (f : Nat → Nat) : List Op :=
  (List.range P).map fun j => .write b (displs j * ts) (counts j * ts) f

/-- Comparison of the parts (`src/mpi/debug_persistent.c:106-118`, `188-198`). -/
def cmpParts (P ts : Nat) (counts displs : Nat → Nat) : List Op :=
  (List.range P).flatMap fun j => cmpLongs (displs j * ts / 8) (counts j * ts / 8)

/-- Largest of the values of `f` and 0 (`src/mpi/debug_persistent.c:24-31`; there the first count is the start value of the counts). -/
def maxOf (P : Nat) (f : Nat → Nat) : Nat := (List.range P).foldl (fun m i => if f i > m then f i else m) 0

/-- `ext_mpi_allgatherv_init_debug` (`src/mpi/debug_persistent.c:20-140`) on the process `me` of `P`; the sent data are `counts me`
elements. `rank` is the number of the process in `MPI_COMM_WORLD`. -/
def allgatherv (rank me P ts : Nat) (counts displs : Nat → Nat) (R L : Nat → Nat) : List Op :=
  ((List.range (counts me * ts / 8)).map fun i => setLong .send 0 i (rank * maxOf P counts + i)) ++
  ([.read .send 0 (counts me * ts)] ++ parts .ref P ts counts displs R ++ [.read .send 0 (counts me * ts)] ++
    parts .recv P ts counts displs L) ++
  cmpParts P ts counts displs

/-- `ext_mpi_gatherv_init_debug` (`src/mpi/debug_persistent.c:155-206`): as before, but only the root has a result. -/
def gatherv (rank me P ts : Nat) (isRoot : Bool) (counts displs : Nat → Nat) (R L : Nat → Nat) : List Op :=
  ((List.range (counts me * ts / 8)).map fun i => setLong .send 0 i (rank * maxOf P counts + i)) ++
  ([.read .send 0 (counts me * ts)] ++ (if isRoot then parts .ref P ts counts displs R else []) ++ [.read .send 0 (counts me * ts)] ++
    (if isRoot then parts .recv P ts counts displs L else [])) ++
  (if isRoot then cmpParts P ts counts displs else [])

/-- Sizes of the buffers (`src/mpi/debug_persistent.c:32`, `64`, `67`, `168`, `171`). The buffer of the user has `user` bytes. -/
def allgathervSize (me P ts user : Nat) (counts displs : Nat → Nat) : Buf → Nat
  | .send => counts me * ts
  | .ref => (maxOf P displs + maxOf P counts) * ts
  | .recv => user

/-- `ext_mpi_scatterv_init_debug` (`src/mpi/debug_persistent.c:340-383`) on the process `me` of `P` with `count` elements to receive. The
call of MPI uses elements of 8 bytes whatever the type is. -/
def scatterv (rank me P ts count : Nat) (isRoot : Bool) (counts displs : Nat → Nat) (R L : Nat → Nat) : List Op :=
  let total := (displs (P - 1) + counts (P - 1)) * ts
  ((List.range P).flatMap fun i => (List.range (counts i * ts / 8)).map fun j =>
    setLong .send (displs i * ts) j (rank * (total / 8) + ((List.range i).map fun k => counts k * ts / 8).sum + j)) ++
  ((if isRoot then (List.range P).map fun i => Op.read .send (displs i * 8) (counts i * 8) else []) ++ [.write .ref 0 (count * 8) R] ++
    (if isRoot then (List.range P).map fun i => Op.read .send (displs i * ts) (counts i * ts) else []) ++ [.write .recv 0 (count * ts) L]) ++
  cmpLongs 0 (count * ts / 8)

/-- Sizes of the buffers (`src/mpi/debug_persistent.c:344-348`). -/
def scattervSize (P ts count : Nat) (counts displs : Nat → Nat) : Buf → Nat
  | .send => (displs (P - 1) + counts (P - 1)) * ts
  | .ref => count * ts
  | .recv => count * ts

/-- Start of every `ext_mpi_*_init_general` (`src/mpi/ext_mpi.c:239-244`, `624-629`): the test is run if `ext_mpi_debug` is not 0. The
result: memory after it, `none` if the test accesses memory outside of its buffers or ends the program because of a difference
(`src/mpi/debug_persistent.c:535-538`). -/
def initGeneral (debug : Int) (size : Buf → Nat) (test : List Op) (mem : Buf → Nat → Nat) : Option (Buf → Nat → Nat) :=
  if debug ≠ 0 then
    match run size test ⟨mem, false⟩ with
    | some s => if s.bad then none else some s.mem
    | none => none
  else some mem

end ExtMpi.SelfTest
