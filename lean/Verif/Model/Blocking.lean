import Verif.Model.Numeric
/-!
# Blocking collectives

`/repo/src/mpi/ext_mpi_native_blocking.c` and the functions for blocking programs of
`/repo/src/mpi/ext_mpi_native_exec.c`, without GPU and NCCL.

A program is prepared once, for a vector of `MPI_LONG` at the fictitious addresses `0x80000000` (send
buffer), `0x90000000` (receive buffer) and `i << 28` (shared memory segment `i`). All its addresses and
sizes are divided by a unit. A call multiplies them by the unit of its own vector.

Addresses, sizes and counts are natural numbers; the 32 bit arithmetic of sizes is assumed not to
overflow.
-/
namespace ExtMpi.Blocking

/-- Size of the address range of a buffer, `1 << 28`. -/
abbrev seg : Nat := 268435456

/-- Buffers of a process. -/
inductive Region where
  | send
  | recv
  | shm (i : Nat)
  deriving DecidableEq, Repr

/-- Buffer of an address from its upper bits (`src/mpi/ext_mpi_native_exec.c:463-486`); the constants are
`src/mpi/ext_mpi_native_exec.c:14-16`. -/
def regionOf (tag : Nat) : Region :=
  if tag = 8 then .send else if tag = 9 then .recv else .shm tag

/-- `normalize_address` (`src/mpi/ext_mpi_native_exec.c:456-460`). -/
def normAddr (count p : Nat) : Nat := p % seg / count + p / seg * seg

/-- `recalculate_address_io` (`src/mpi/ext_mpi_native_exec.c:462-488`): buffer, offset in it, and size. A
difference that would be negative becomes 0, as in the code. -/
def recalc (count sizeIo p size : Nat) : Region × Nat × Nat :=
  let off := p % seg * count
  (regionOf (p / seg), off,
    match regionOf (p / seg) with
    | .shm _ => size
    | _ => if off + size > sizeIo then sizeIo - off else size)

/-- Steps of an execution of all processes, in the order in which they take effect: `memcpy` and `reduce` of
process `p`, and a message from process `q` to process `p` (`irecv` and `isend` with their sizes).
`seen`: the sender knows the address of the receive buffer, see `seenFlags`. -/
inductive Item where
  | copy (p dst src size : Nat)
  | reduce (p dst src n : Nat)
  | message (p dst rsize q src ssize : Nat) (seen : Bool)
  deriving Repr

/-- `ext_mpi_normalize_blocking` (`src/mpi/ext_mpi_native_exec.c:594-703`) for programs of `MPI_LONG`, 8
bytes. -/
def normItem (count : Nat) : Item → Item
  | .copy p d s n => .copy p (normAddr count d) (normAddr count s) (n / count)
  | .reduce p d s n => .reduce p (normAddr count d) (normAddr count s) (n / (count / 8))
  | .message p d rn q s sn b => .message p (normAddr count d) (rn / count) q (normAddr count s) (sn / count) b

/-- Access to memory: `n` bytes of buffer `sr` of process `sp` are copied or added. -/
structure Act where
  add : Bool
  dp : Nat
  dr : Region
  doff : Nat
  sp : Nat
  sr : Region
  soff : Nat
  n : Nat
  deriving Repr

/-- A step of the prepared program at its own addresses (`ext_mpi_exec_native`,
`src/mpi/ext_mpi_native_exec.c:262-441`). `none`: the message is longer than the receive buffer. -/
def prepAct : Item → Option Act
  | .copy p d s n => some ⟨false, p, regionOf (d / seg), d % seg, p, regionOf (s / seg), s % seg, n⟩
  | .reduce p d s n => some ⟨true, p, regionOf (d / seg), d % seg, p, regionOf (s / seg), s % seg, n * 8⟩
  | .message p d rn q s sn _ =>
    if sn > rn then none
    else some ⟨false, p, regionOf (d / seg), d % seg, q, regionOf (s / seg), s % seg, sn⟩

/-- A step of `ext_mpi_exec_blocking` (`src/mpi/ext_mpi_native_exec.c:749-845`) for a vector of `sizeIo` bytes
with elements of `ts` bytes. A message is shortened at the end of the sender's buffer and, if known,
at the end of the receiver's. -/
def blockAct (ts count sizeIo : Nat) : Item → Option Act
  | .copy p d s n =>
    let a := recalc count sizeIo d (n * count)
    let b := recalc count sizeIo s a.2.2
    some ⟨false, p, a.1, a.2.1, p, b.1, b.2.1, b.2.2⟩
  | .reduce p d s n =>
    let a := recalc count sizeIo d (n * count)
    let b := recalc count sizeIo s a.2.2
    some ⟨true, p, a.1, a.2.1, p, b.1, b.2.1, b.2.2 / ts * ts⟩
  | .message p d rn q s sn seen =>
    let r := recalc count sizeIo d (rn * count)
    let a := recalc count sizeIo s (sn * count)
    let len := if seen then (recalc count sizeIo d a.2.2).2.2 else a.2.2
    if len > r.2.2 then none else some ⟨false, p, r.1, r.2.1, q, a.1, a.2.1, len⟩

/-- Which sends know their receive buffer (`src/mpi/ext_mpi_native_exec.c:775-780`): `ptrs` are the addresses
received from the partners (`src/mpi/ext_mpi_native_exec.c:617-641`) in the order of the sends, `k` is
`send_pointer`. It is not advanced at a null pointer. -/
def seenFlags (ptrs : List Nat) : Nat → Nat → List Bool
  | _, 0 => []
  | k, n + 1 =>
    if ptrs.getD k 0 ≠ 0 then true :: seenFlags ptrs (k + 1) n
    else false :: seenFlags ptrs k n

/-- Search for a program (`src/mpi/ext_mpi_native_blocking.c:346`): `caps` are the capacities in bytes of the
prepared programs; from index `i` on. -/
def pick (ccount : Nat) : List Nat → Nat → Nat
  | [], i => i
  | [_], i => i
  | c :: cs, i => if c < ccount then pick ccount cs (i + 1) else i

/-- Unit of a call (`src/mpi/ext_mpi_native_blocking.c:347`): `c` elements of `ts` bytes in `units` units; the
division of C truncates. -/
def unitOf (c units ts : Nat) : Nat := (((c : Int) - 1).tdiv units + 1).toNat * ts

/-- `exec_padding_address` (`src/mpi/ext_mpi_native_exec.c:879-902`) as called, with `shmem = NULL`. -/
def paddingAddr (p : Nat) : Nat :=
  if p / seg = 8 ∨ p / seg = 9 then p % seg else p

/-- `ext_mpi_exec_padding` (`src/mpi/ext_mpi_native_exec.c:904-984`) for the steps of one process. Sizes of
`reduce` are counted in elements, all others in bytes. -/
def paddingNumbers : List Item → List Nat
  | [] => []
  | .copy _ d s n :: is => [n, paddingAddr d, paddingAddr s].filter (0 < ·) ++ paddingNumbers is
  | .reduce _ d s n :: is => n :: [paddingAddr d, paddingAddr s].filter (0 < ·) ++ paddingNumbers is
  | .message _ d rn _ s sn _ :: is =>
    [rn, paddingAddr d, sn, paddingAddr s].filter (0 < ·) ++ paddingNumbers is

/-- Factor by which the prepared program is divided, besides the size of an element
(`src/mpi/ext_mpi_native_blocking.c:209-212`). The numbers of all processes are taken together, which
gives the same result as combining the factors of the processes (`ext_mpi_padding_factor`). -/
def paddingOf (is : List Item) : Option Nat := Numeric.primeFactorPadding (paddingNumbers is)

end ExtMpi.Blocking
