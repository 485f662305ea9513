import Verif.Model.Codec
/-!
# Generation and reading of the byte code

`ext_mpi_generate_byte_code` (`/repo/src/core/byte_code.c`) and the instruction fetch of
`ext_mpi_exec_native` and `exec_waitany` (`/repo/src/mpi/ext_mpi_native_exec.c`), without GPU and NCCL.
The lines of the program are given in parsed form; reading them is the subject of `Verif.Model.Codec` and
`Verif.Model.CodecLines`. Integers have 32 bits, pointers 64 bits, little-endian.
-/
namespace ExtMpi.ByteCode
open Codec (Byte Word putWord getWord val)

abbrev Ptr := BitVec 64

/-- Buffers an operand may name (`src/core/byte_code.c:476-488`). -/
inductive Buf where
  | send
  | recv
  | shmem (number : Nat)
  deriving DecidableEq, Repr

/-- Operand: buffer and offset. -/
structure Opd where
  buf : Buf
  offset : Word
  deriving DecidableEq, Repr

/-- Lines of the program as far as they produce code; `other` stands for all other lines
(`nop`, lines with a trailing underscore, `stage`). -/
inductive Ln where
  | ret
  | setBarrier (entry : Word)
  | waitBarrier (entry : Word)
  | waitall (n : Word)
  | waitany (n k : Word)
  | attached
  | isend (o : Opd) (size : Word) (partner : Nat) (tag : Word)
  | irecv (o : Opd) (size : Word) (partner : Nat) (tag : Word)
  | nodeBarrier
  | socketBarrier
  | memcpy (o1 o2 : Opd) (size : Word)
  | reduce (o1 o2 : Opd) (size : Word)
  | other
  deriving DecidableEq, Repr

/-- Arguments of `ext_mpi_generate_byte_code` that matter for the code
(`src/core/byte_code.c:284-292`). `header` are the bytes of `struct header_byte_code`, `commRow` and
`commColumn` the two blocks of `size_comm` bytes at the end. -/
structure Args where
  shmem : Option (List Ptr)
  sendbuf : Ptr
  recvbuf : Ptr
  locmem : Ptr
  op : Byte
  globalRanks : List Word
  numCores : Nat
  sizeRequest : Nat
  header : List Byte
  commRow : List Byte
  commColumn : List Byte

/-- The output: position and, unless this is a dry run, the memory behind `code_out`. -/
structure Out where
  ip : Nat
  mem : Option (List Byte)
  deriving DecidableEq, Repr

/-- Replace the bytes at position `i`. -/
def overwrite (mem : List Byte) (i : Nat) (bs : List Byte) : List Byte :=
  mem.take i ++ bs ++ mem.drop (i + bs.length)

/-- `code_put_char`, `code_put_int` and `code_put_pointer` for the bytes of the value
(`include/core/constants.h:43-59`). `none`: write beyond the allocated memory. -/
def put (bs : List Byte) (o : Out) : Option Out :=
  match o.mem with
  | none => some ⟨o.ip + bs.length, none⟩
  | some mem =>
    if o.ip + bs.length ≤ mem.length then some ⟨o.ip + bs.length, some (overwrite mem o.ip bs)⟩
    else none

/-- Bytes of a pointer. -/
def ptrBytes (p : Ptr) : List Byte :=
  putWord (BitVec.ofNat 32 p.toNat) ++ putWord (BitVec.ofNat 32 (p.toNat / 2 ^ 32))

/-- `code_put_char`. -/
def putChar (c : Byte) : Out → Option Out := put [c]
/-- `code_put_int`. -/
def putInt (w : Word) : Out → Option Out := put (putWord w)
/-- `code_put_pointer`. -/
def putPtr (p : Ptr) : Out → Option Out := put (ptrBytes p)

/-- Address of an operand (`src/core/byte_code.c:476-488`, `560-586`); without shared memory the offset
itself. `none`: read outside of `shmem`. -/
def addr (a : Args) (o : Opd) : Option Ptr :=
  match o.buf with
  | .send => some (a.sendbuf + o.offset.signExtend 64)
  | .recv => some (a.recvbuf + o.offset.signExtend 64)
  | .shmem k =>
    match a.shmem with
    | none => some (o.offset.signExtend 64)
    | some l => (l[k]?).map fun p => p + o.offset.signExtend 64

/-- Size of an element for the division of the size of a reduction (`src/core/byte_code.c:545-558`). -/
def elemSize (op : Byte) : Int :=
  if op = 1 then 8 else if op = 2 then 8 else if op = 3 then 4 else if op = 4 then 4 else 1

/-- Opcodes (`include/core/constants.h:5-21`). -/
def opReturn : Byte := 0
def opMemcpy : Byte := 1
def opIrecv : Byte := 2
def opIsend : Byte := 3
def opWaitall : Byte := 4
def opSocketBarrier : Byte := 5
def opNodeBarrier : Byte := 6
def opSet : Byte := 7
def opWait : Byte := 8
def opReduce : Byte := 9
def opWaitany : Byte := 14
def opAttached : Byte := 15

/-- Operands of a message (`src/core/byte_code.c:475-492`). -/
def emitMessage (a : Args) (opc : Byte) (o : Opd) (size : Word) (partner : Nat) (tag : Word) (out : Out) :
    Option Out := do
  let out ← putChar opc out
  let p ← addr a o
  let out ← putPtr p out
  let out ← putInt size out
  let r ← a.globalRanks[partner]?
  let out ← putInt r out
  putPtr (a.locmem + BitVec.ofInt 64 (a.sizeRequest * val tag)) out

/-- Code of one line (`src/core/byte_code.c:386-639`). -/
def emit (a : Args) (out : Out) : Ln → Option Out
  | .ret => putChar opReturn out
  | .setBarrier e => if a.numCores ≠ 1 then do putInt e (← putChar opSet out) else some out
  | .waitBarrier e => if a.numCores ≠ 1 then do putInt e (← putChar opWait out) else some out
  | .waitall n =>
    if n ≠ 0 then do putPtr a.locmem (← putInt n (← putChar opWaitall out)) else some out
  | .waitany n k => do putPtr a.locmem (← putInt k (← putInt n (← putChar opWaitany out)))
  | .attached => putChar opAttached out
  | .isend o s p t => emitMessage a opIsend o s p t out
  | .irecv o s p t => emitMessage a opIrecv o s p t out
  | .nodeBarrier => putChar opNodeBarrier out
  | .socketBarrier => if a.numCores ≠ 1 then putChar opSocketBarrier out else some out
  | .memcpy o1 o2 s => do
    let out ← putChar opMemcpy out
    let p1 ← addr a o1
    let out ← putPtr p1 out
    let p2 ← addr a o2
    let out ← putPtr p2 out
    putInt s out
  | .reduce o1 o2 s => do
    let out ← putChar opReduce out
    let out ← putChar a.op out
    let p1 ← addr a o1
    let out ← putPtr p1 out
    let p2 ← addr a o2
    let out ← putPtr p2 out
    putInt (BitVec.ofInt 32 ((val s).tdiv (elemSize a.op))) out
  | .other => some out

/-- What the function returns and leaves behind. -/
structure Result where
  size : Nat
  sizeToReturn : Nat
  mem : Option (List Byte)
  deriving DecidableEq, Repr

/-- `ext_mpi_generate_byte_code` (`src/core/byte_code.c:280-676`); a dry run is a call without memory. The
header is written as one block (the code assigns its members one by one), the member
`size_to_return` is a separate result. -/
def generate (a : Args) (mem : Option (List Byte)) (ls : List Ln) : Option Result := do
  let out ← put a.header ⟨0, mem⟩
  let out ← ls.foldlM (emit a) out
  let ret := out.ip
  let out ← put a.commRow out
  let out ← put a.commColumn out
  some ⟨out.ip, ret, out.mem⟩

/-! ## Reading -/

/-- Instructions with their operands. -/
inductive Ins where
  | ret
  | memcpy (p1 p2 : Ptr) (n : Word)
  | irecv (p : Ptr) (n rank : Word) (req : Ptr)
  | isend (p : Ptr) (n rank : Word) (req : Ptr)
  | waitall (n : Word) (reqs : Ptr)
  | waitany (n k : Word) (reqs : Ptr)
  | socketBarrier
  | nodeBarrier
  | set (entry : Word)
  | wait (entry : Word)
  | reduce (op : Byte) (p1 p2 : Ptr) (n : Word)
  | attached
  deriving DecidableEq, Repr

/-- `code_get_pointer` (`include/core/constants.h:75-80`). -/
def getPtr (b : List Byte) : Option (Ptr × List Byte) := do
  let (lo, b) ← getWord b
  let (hi, b) ← getWord b
  some (BitVec.ofNat 64 (lo.toNat + 2 ^ 32 * hi.toNat), b)

/-- `code_get_char` (`include/core/constants.h:61-66`). -/
def getChar : List Byte → Option (Byte × List Byte)
  | [] => none
  | c :: b => some (c, b)

/-- The fetch of one instruction in the interpreter loop; `exec_waitany` reads the instructions
`OPCODE_REDUCE` and `OPCODE_ATTACHED` in the same way
(`src/mpi/ext_mpi_native_exec.c:131-158`, `223-434`). `none`: illegal opcode or end of the memory. -/
def fetch (b : List Byte) : Option (Ins × List Byte) := do
  let (c, b) ← getChar b
  if c = opReturn then some (.ret, b)
  else if c = opMemcpy then do
    let (p1, b) ← getPtr b
    let (p2, b) ← getPtr b
    let (n, b) ← getWord b
    some (.memcpy p1 p2 n, b)
  else if c = opIrecv then do
    let (p, b) ← getPtr b
    let (n, b) ← getWord b
    let (r, b) ← getWord b
    let (q, b) ← getPtr b
    some (.irecv p n r q, b)
  else if c = opIsend then do
    let (p, b) ← getPtr b
    let (n, b) ← getWord b
    let (r, b) ← getWord b
    let (q, b) ← getPtr b
    some (.isend p n r q, b)
  else if c = opWaitall then do
    let (n, b) ← getWord b
    let (p, b) ← getPtr b
    some (.waitall n p, b)
  else if c = opWaitany then do
    let (n, b) ← getWord b
    let (k, b) ← getWord b
    let (p, b) ← getPtr b
    some (.waitany n k p, b)
  else if c = opSocketBarrier then some (.socketBarrier, b)
  else if c = opNodeBarrier then some (.nodeBarrier, b)
  else if c = opSet then do
    let (e, b) ← getWord b
    some (.set e, b)
  else if c = opWait then do
    let (e, b) ← getWord b
    some (.wait e, b)
  else if c = opReduce then do
    let (op, b) ← getChar b
    let (p1, b) ← getPtr b
    let (p2, b) ← getPtr b
    let (n, b) ← getWord b
    some (.reduce op p1 p2 n, b)
  else if c = opAttached then some (.attached, b)
  else none

/-- The instructions the interpreter reads, with what it has not read. `pending`: number of
`OPCODE_ATTACHED` still expected by `exec_waitany`; while it is positive only reductions are legal.
`fuel` bounds the number of instructions (`src/mpi/ext_mpi_native_exec.c:124-158`, `205-440`). -/
def readCode : Nat → Nat → List Byte → Option (List Ins × List Byte)
  | 0, _, _ => none
  | fuel + 1, pending, b => do
    let (i, b) ← fetch b
    match pending, i with
    | 0, .ret => some ([.ret], b)
    | 0, .waitany n _ _ =>
      if val n < 0 then none
      else (readCode fuel (val n).toNat b).map fun x => (i :: x.1, x.2)
    | 0, _ => (readCode fuel 0 b).map fun x => (i :: x.1, x.2)
    | p + 1, .attached => (readCode fuel p b).map fun x => (i :: x.1, x.2)
    | p + 1, .reduce _ _ _ _ => (readCode fuel (p + 1) b).map fun x => (i :: x.1, x.2)
    | _ + 1, _ => none

end ExtMpi.ByteCode
