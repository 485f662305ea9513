import Verif.Model.RawCode
/-!
# The passes after code generation for one process per node

`/repo/src/core/buffer_offset.c` with `/repo/src/core/no_offset.c`, `/repo/src/core/optimise_buffers.c`,
`/repo/src/core/optimise_buffers2.c`, `/repo/src/core/raw_code_merge.c`, `/repo/src/core/no_socket_barriers.c`,
`/repo/src/core/use_sendbuf_recvbuf.c`, `/repo/src/core/use_recvbuf.c` and `/repo/src/core/swap_copyin.c` on the programs of
`Model/RawCode.lean`, in the order of `/repo/src/mpi/ext_mpi_native.c`.

Simplifications: offsets and sizes are numbers of elements, a cache line is `C` elements; reading and writing of
the lines is the subject of `Codec`; `parallel_memcpy.c` rewrites the lines of a single process to themselves and is
left out; `clean_barriers.c` and `no_first_barrier.c` only remove barriers, which all are removed afterwards; the
optional `waitany` pass is left out. Lines of size 0 have been left out by `RawCode`.
-/
namespace ExtMpi.Optimise
open RawCode

/-- `eshmemo` (`include/core/constants.h`). -/
def isShm : Reg → Bool
  | .shm _ => true
  | _ => false

/-! ## Placement of the scratch buffers -/

/-- Elements used of scratch buffer `k`, as far as `buffer_offset` sees them: the copies and reductions of `raw_code`. The
lines of the copy-in and copy-out have `is_offset = 0` and do not count (`src/core/buffer_offset.c:51-66`,
`src/core/reduce_copyin.c:501-505`, `581-585`, `src/core/reduce_copyout.c:155-191`). -/
def used (p : List Instr) (k : Nat) : Nat :=
  p.foldl (fun m i => match i with
    | .copy _ d s n =>
      if isShm d.reg && isShm s.reg then
        let m := if d.reg = .shm k then max m (d.off + n) else m
        if s.reg = .shm k then max m (s.off + n) else m
      else m
    | _ => m) 0

/-- Start of buffer `k` (`src/core/buffer_offset.c:75-82`). -/
def start (C : Nat) (p : List Instr) : Nat → Nat
  | 0 => 0
  | k + 1 => start C p k + max (used p k) C

/-- An operand after `no_offset` (`src/core/no_offset.c:42-57`). -/
def place (C : Nat) (p : List Instr) (a : Addr) : Addr :=
  match a.reg with
  | .shm k => ⟨.shm 0, start C p k + a.off⟩
  | _ => a

/-- A line with other operands; `g` gets operand and size. -/
def mapAddr (g : Addr → Nat → Addr) : Instr → Instr
  | .copy r d s n => .copy r (g d n) (g s n) n
  | .irecv a n q => .irecv (g a n) n q
  | .isend a n q => .isend (g a n) n q
  | i => i

/-- `ext_mpi_generate_buffer_offset` and `ext_mpi_generate_no_offset` (`src/core/no_offset.c:20-64`). -/
def flatten (C : Nat) (p : List Instr) : List Instr := p.map (mapAddr fun a _ => place C p a)

/-! ## Sending without packing -/

/-- The search after a copy (`src/core/optimise_buffers.c:26-66`): following contiguous copies are joined with it, after a
barrier a send of exactly the copied interval is expected. Result: the send from the source and the lines after it. -/
def sendFrom (d s : Addr) (n : Nat) : List Instr → Option (Instr × List Instr)
  | .copy false d' s' n' :: ls =>
    if isShm d'.reg && isShm s'.reg && d.off + n == d'.off && s.off + n == s'.off then sendFrom d s (n + n') ls
    else none
  | .barrier :: .isend a m q :: ls =>
    if isShm a.reg && d.off == a.off && n == m then some (.isend ⟨a.reg, s.off⟩ m q, ls) else none
  | _ => none

/-- Main loop (`src/core/optimise_buffers.c:18-75`); the first argument bounds the number of lines. -/
def unpackedF : Nat → List Instr → List Instr
  | 0, ls => ls
  | _ + 1, [] => []
  | f + 1, .copy false d s n :: ls =>
    match sendFrom d s n ls with
    | some (i, ls') => i :: unpackedF f ls'
    | none => .copy false d s n :: unpackedF f ls
  | f + 1, l :: ls => l :: unpackedF f ls

/-- `ext_mpi_generate_optimise_buffers` (`src/core/optimise_buffers.c:7-79`). -/
def optimiseSends (ls : List Instr) : List Instr := unpackedF ls.length ls

/-! ## Receiving without unpacking -/

/-- The search after a receive into `a` (`src/core/optimise_buffers2.c:54-82`): the destination of the first copy of exactly the
received interval after a wait. `w`: a wait was seen (`flag2 == 2`); `r`: the last copy read goes to the receive buffer. -/
def recvInto (a : Addr) (n : Nat) : Bool → Bool → List Instr → Option Addr
  | _, _, [] => none
  | _, r, .waitall :: ls => recvInto a n true r ls
  | _, _, .copy true _ _ _ :: _ => none
  | w, r, .copy false d s m :: ls =>
    if r then none
    else if w then
      if a.off == s.off && n == m && isShm d.reg && isShm s.reg then some d
      else recvInto a n w (d.reg == .recv) ls
    else recvInto a n w r ls
  | w, r, _ :: ls => if r then none else recvInto a n w r ls

/-- The lines up to the copy that became superfluous, and the lines after it (`src/core/optimise_buffers2.c:86-107`): the first copy to
the new address is removed, and receives into the old one. -/
def dropCopy (new old : Addr) (n : Nat) : List Instr → List Instr × List Instr
  | [] => ([], [])
  | .copy false d s m :: ls =>
    if d == new && m == n then ([], ls)
    else let r := dropCopy new old n ls; (.copy false d s m :: r.1, r.2)
  | .irecv a m q :: ls =>
    let r := dropCopy new old n ls
    if isShm a.reg && a.off == old.off && m == n then r else (.irecv a m q :: r.1, r.2)
  | l :: ls => let r := dropCopy new old n ls; (l :: r.1, r.2)

/-- One round and whether it changed anything (`src/core/optimise_buffers2.c:43-109`); the first argument bounds the number of
lines. -/
def redirectRound : Nat → List Instr → List Instr × Bool
  | 0, ls => (ls, false)
  | _ + 1, [] => ([], false)
  | f + 1, .irecv a n q :: ls =>
    match recvInto a n false false ls with
    | some d =>
      let r := dropCopy d a n ls
      (.irecv d n q :: (r.1 ++ (redirectRound f r.2).1), true)
    | none => let r := redirectRound f ls; (.irecv a n q :: r.1, r.2)
  | f + 1, l :: ls => let r := redirectRound f ls; (l :: r.1, r.2)

/-- The rounds (`src/core/optimise_buffers2.c:25-113`). `none`: not finished after the given number of rounds. -/
def redirectRounds : Nat → List Instr → Option (List Instr)
  | 0, _ => none
  | f + 1, ls =>
    let r := redirectRound ls.length ls
    if r.2 then redirectRounds f r.1 else some r.1

/-- `ext_mpi_generate_optimise_buffers2` (`src/core/optimise_buffers2.c:8-136`). -/
def optimiseRecvs (ls : List Instr) : Option (List Instr) := redirectRounds (ls.length + 1) ls

/-! ## Joining of adjacent copies -/

/-- `buffer_number`: -1 for the buffers of the user (`src/core/read_write.c`, `ext_mpi_read_memcpy_reduce`). -/
def number : Reg → Int
  | .shm k => k
  | _ => -1

/-- The fields compared before joining (`src/core/raw_code_merge.c:31-33`); the kind of the buffer is not among them. -/
def sameKey (r : Bool) (d s : Addr) (r' : Bool) (d' s' : Addr) : Bool :=
  r == r' && number d.reg == number d'.reg && number s.reg == number s'.reg

/-- Forward loop (`src/core/raw_code_merge.c:31-46`): joined size and remaining lines. -/
def joinFwd (r : Bool) (d s : Addr) (n : Nat) : List Instr → Nat × List Instr
  | .copy r' d' s' n' :: ls =>
    if sameKey r d s r' d' s' && d.off + n == d'.off && s.off + n == s'.off && d.off != s'.off then
      joinFwd r d s (n + n') ls
    else (n, .copy r' d' s' n' :: ls)
  | ls => (n, ls)

/-- Backward loop (`src/core/raw_code_merge.c:51-67`): joined size, offsets of the last line, remaining lines. -/
def joinBwd (r : Bool) (d s : Addr) (n : Nat) (o : Nat × Nat) : List Instr → Nat × (Nat × Nat) × List Instr
  | .copy r' d' s' n' :: ls =>
    if sameKey r d s r' d' s' && d'.off + n == d.off && s'.off + n == s.off then
      joinBwd r d s (n + n') (d'.off, s'.off) ls
    else (n, o, .copy r' d' s' n' :: ls)
  | ls => (n, o, ls)

/-- Main loop (`src/core/raw_code_merge.c:18-86`); the first argument bounds the number of lines. -/
def joinF : Nat → List Instr → List Instr
  | 0, ls => ls
  | _ + 1, [] => []
  | f + 1, .copy r d s n :: ls =>
    let x := joinFwd r d s n ls
    if x.2.length < ls.length then .copy r d s x.1 :: joinF f x.2
    else
      let y := joinBwd r d s n (d.off, s.off) ls
      if y.2.2.length < ls.length then .copy r ⟨d.reg, y.2.1.1⟩ ⟨s.reg, y.2.1.2⟩ y.1 :: joinF f y.2.2
      else .copy r d s n :: joinF f ls
  | f + 1, l :: ls => l :: joinF f ls

/-- `ext_mpi_generate_raw_code_merge` (`src/core/raw_code_merge.c:8-93`). -/
def join (ls : List Instr) : List Instr := joinF ls.length ls

/-- `ext_mpi_generate_no_socket_barriers` (`src/core/no_socket_barriers.c:7-41`). -/
def noBarriers (ls : List Instr) : List Instr := ls.filter fun i => i != .barrier

/-! ## Working in the buffers of the user -/

/-- Operand in `use_sendbuf_recvbuf` (`src/core/use_sendbuf_recvbuf.c:33-56`, `65-78`); `L` is `buffer_in_size`. -/
def toUser (L : Nat) (big : Bool) (a : Addr) (n : Nat) : Addr :=
  if isShm a.reg && decide (a.off + n ≤ L) then ⟨.send, a.off⟩
  else if isShm a.reg && decide (a.off + n ≤ 2 * L) then ⟨.recv, if big then a.off - L else 0⟩
  else a

/-- `ext_mpi_generate_use_sendbuf_recvbuf` (`src/core/use_sendbuf_recvbuf.c:7-91`): copies from and to the user are removed. -/
def useSendRecv (L : Nat) (big : Bool) (ls : List Instr) : List Instr :=
  (ls.filter fun i => match i with
    | .copy _ d s _ => isShm d.reg && isShm s.reg
    | _ => true).map (mapAddr (toUser L big))

/-- `buffer_out_size` (`src/core/use_recvbuf.c:17-34`). -/
def outSize (ls : List Instr) : Nat :=
  ls.foldl (fun m i => match i with
    | .copy false d _ n => if d.reg = .recv then max m (d.off + n) else m
    | _ => m) 0

/-- Operand in `use_recvbuf` (`src/core/use_recvbuf.c:46-53`, `62-66`). -/
def toRecv (L : Nat) (a : Addr) (n : Nat) : Addr :=
  if isShm a.reg && decide (a.off + n ≤ L) then ⟨.recv, a.off⟩ else a

/-- `ext_mpi_generate_use_recvbuf` (`src/core/use_recvbuf.c:7-79`) without `in_place`. -/
def useRecv (ls : List Instr) : List Instr :=
  (ls.filter fun i => match i with
    | .copy _ d _ _ => d.reg != .recv
    | _ => true).map (mapAddr (toRecv (outSize ls)))

/-- A line that is taken for a send (`src/core/swap_copyin.c:32-38`). `none`: any other line; `data_irecv_isend` is
used as an earlier line left it, or unset if this is the first of the sends. Neither is modelled further. -/
def fromSendbuf : Instr → Option Instr
  | .isend _ n q => some (.isend ⟨.send, 0⟩ n q)
  | .irecv _ n q => some (.irecv ⟨.send, 0⟩ n q)
  | _ => none

/-- `ext_mpi_generate_swap_copyin` (`src/core/swap_copyin.c:7-58`): the first line is taken for the copy-in, the next `p` lines for the
receives and `p` more for the sends of the first step, `p` is the first port count. `none`: there are not enough lines, or a
line is not what it is taken for. -/
def swapCopyin (p : Nat) : List Instr → Option (List Instr)
  | [] => none
  | l :: ls =>
    if ls.length < 2 * p then none
    else (((ls.drop p).take p).mapM fromSendbuf).map fun ss => ls.take p ++ ss ++ l :: ls.drop (2 * p)

/-! ## Programs -/

/-- The common passes (`src/mpi/ext_mpi_native.c:803-812`, `829-832`, `1086-1101`, `1577-1592`). -/
def common (C : Nat) (p : List Instr) : Option (List Instr) := (optimiseRecvs (optimiseSends (flatten C p))).map join

/-- `big_recvbuf` (`src/core/use_sendbuf_recvbuf.c:19-21`). The code reads before the start of the array if there are no
ports; the generators have failed by then. -/
def bigRecvbuf (ports : List Int) : Bool :=
  match ports.getLast? with
  | some p => decide (0 < p)
  | none => false

/-- Allreduce with the recursive algorithm (`src/mpi/ext_mpi_native.c:803-855`) for `N` processes with message sizes `sz`; `big`
(`src/core/use_sendbuf_recvbuf.c:19-21`): the last port count is positive. -/
def userProgram (C N : Nat) (sz : Nat → Nat) (kind : Kind) (big : Bool) (sched : List Schedule.Block) (t : Nat) :
    Option (List Instr) := do
  let p ← program N sz kind sched t
  let p ← common C p
  return useSendRecv (moffset sz N) big (noBarriers p)

/-- Allgather with the recursive algorithm (`src/mpi/ext_mpi_native.c:1086-1134`); `port` is the first port count. -/
def gatherProgram (C N : Nat) (sz : Nat → Nat) (port : Nat) (sched : List Schedule.Block) (t : Nat) : Option (List Instr) := do
  let p ← program N sz .allgather sched t
  let p ← common C p
  swapCopyin port (noBarriers (useRecv p))

/-- Cyclic algorithm: no pass that uses the buffers of the user directly (`src/mpi/ext_mpi_native.c:848`, `1103`, `1126`, `1610`). -/
def cyclicProgram (C N : Nat) (sz : Nat → Nat) (kind : Kind) (sched : List Schedule.Block) (t : Nat) : Option (List Instr) := do
  let p ← program N sz kind sched t
  let p ← common C p
  return noBarriers p

end ExtMpi.Optimise
