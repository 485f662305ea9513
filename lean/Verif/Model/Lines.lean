/-!
# Assembler lines

The lines of the intermediate programs (`struct line_memcpy_reduce`,
`/repo/include/core/read_write.h:134-147`) and what executing them does to memory
(`/repo/src/mpi/ext_mpi_native_exec.c:252-257`, `374-400`).

Simplification: memory cells are elements of the data type (`type_size` bytes); offsets and sizes
are in bytes, as in the code, and are divided by `type_size` when a line is executed.
-/
namespace ExtMpi.Lines

/-- Buffer kinds `esendbufp`, `erecvbufp`, `elocmemp`, `eshmemo` (`include/core/read_write.h:30-61`). -/
inductive Buf where
  | sendbuf | recvbuf | locmem | shmem
  deriving DecidableEq, Repr

/-- Line kinds `ememcpy` … `esreduc_` (`include/core/read_write.h:30-61`). -/
inductive Kind where
  | memcpy | memcp_ | reduce | reduc_ | smemcpy | smemcp_ | sreduce | sreduc_
  deriving DecidableEq, Repr

/-- A reduction (as opposed to a copy). -/
def Kind.isReduce : Kind → Bool
  | .reduce | .reduc_ | .sreduce | .sreduc_ => true
  | _ => false

/-- `struct line_memcpy_reduce` (`include/core/read_write.h:134-147`); the flags `is_offset1/2` are represented by
`onum1/2 ≥ 0`. -/
structure CopyLine where
  kind : Kind
  buf1 : Buf
  num1 : Int
  onum1 : Int := -1
  off1 : Nat
  buf2 : Buf
  num2 : Int
  onum2 : Int := -1
  off2 : Nat
  size : Nat
  deriving DecidableEq, Repr

/-- A line of a program: copy/reduce, `esocket_barrier`, or anything else. -/
inductive Line where
  | copy (c : CopyLine)
  | barrier
  | other (id : Nat)
  deriving DecidableEq, Repr

/-- Location of one element. -/
structure Loc where
  buf : Buf
  num : Int
  idx : Nat
  deriving DecidableEq, Repr

/-- Transfer of one element. -/
structure ElemOp where
  red : Bool
  dst : Loc
  src : Loc
  deriving DecidableEq, Repr

/-- Elementwise transfers of a line, in the order of the addresses
(`src/mpi/ext_mpi_native_exec.c:252-257`, `374-400`). -/
def elemOps (t : Nat) (c : CopyLine) : List ElemOp :=
  (List.range (c.size / t)).map fun e =>
    ⟨c.kind.isReduce, ⟨c.buf1, c.num1, c.off1 / t + e⟩, ⟨c.buf2, c.num2, c.off2 / t + e⟩⟩

/-- Memory contents. -/
abbrev Mem (V : Type) := Loc → V

/-- Effect of one transfer; `f` is the reduction. -/
def execOp {V : Type} (f : V → V → V) (m : Mem V) (o : ElemOp) : Mem V :=
  fun l => if l = o.dst then (if o.red then f (m o.dst) (m o.src) else m o.src) else m l

/-- Effect of a sequence of transfers. -/
def execOps {V : Type} (f : V → V → V) (m : Mem V) (os : List ElemOp) : Mem V :=
  os.foldl (execOp f) m

/-- Sequential execution of copy/reduce lines. -/
def execLines {V : Type} (f : V → V → V) (t : Nat) (m : Mem V) (cs : List CopyLine) : Mem V :=
  execOps f m (cs.flatMap (elemOps t))

end ExtMpi.Lines
