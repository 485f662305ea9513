import Verif.Model.Lines

/-!
# Merging adjacent copy and reduction lines

Model of `/repo/src/core/raw_code_merge.c`.

Simplification: offsets and sizes are counted in elements of the data type.
-/
namespace ExtMpi.Merge
open ExtMpi.Lines

/-- The fields compared before merging (`src/core/raw_code_merge.c:31-33`, `51-53`). -/
def keyEq (c d : CopyLine) : Bool :=
  c.kind == d.kind && c.onum1 == d.onum1 && c.onum2 == d.onum2 && c.num1 == d.num1 && c.num2 == d.num2

/-- Condition of the forward loop (`src/core/raw_code_merge.c:31-35`). -/
def canFwd (c d : CopyLine) : Bool :=
  keyEq c d && c.off1 + c.size == d.off1 && c.off2 + c.size == d.off2 && c.off1 != d.off2

/-- Forward loop (`src/core/raw_code_merge.c:31-46`): merged line and remaining input. -/
def fwd (c : CopyLine) : List Line → CopyLine × List Line
  | .copy d :: ls => if canFwd c d then fwd { c with size := c.size + d.size } ls else (c, .copy d :: ls)
  | ls => (c, ls)

/-- Condition of the backward loop (`src/core/raw_code_merge.c:51-54`). -/
def canBwd (c d : CopyLine) : Bool :=
  keyEq c d && d.off1 + c.size == c.off1 && d.off2 + c.size == c.off2

/-- Backward loop (`src/core/raw_code_merge.c:51-67`): accumulated line (its offsets stay those of
the first line), the offsets saved in `data_memcpy_reduce__`, remaining input. -/
def bwd (c : CopyLine) (o : Nat × Nat) : List Line → CopyLine × (Nat × Nat) × List Line
  | .copy d :: ls =>
    if canBwd c d then bwd { c with size := c.size + d.size } (d.off1, d.off2) ls
    else (c, o, .copy d :: ls)
  | ls => (c, o, ls)

/-- Lines considered (`src/core/raw_code_merge.c:24-25`). -/
def mergeable (c : CopyLine) : Bool :=
  c.kind == .memcpy || c.kind == .reduce || c.kind == .memcp_ || c.kind == .reduc_

/-- Main loop (`src/core/raw_code_merge.c:18-86`); the first argument bounds the number of lines. -/
def mergeF : Nat → List Line → List Line
  | 0, ls => ls
  | _ + 1, [] => []
  | n + 1, .copy c :: ls =>
    if mergeable c then
      let (c', ls') := fwd c ls
      if ls'.length < ls.length then .copy c' :: mergeF n ls'
      else
        let (c'', o, ls'') := bwd c (c.off1, c.off2) ls
        if ls''.length < ls.length then
          .copy { c'' with off1 := o.1, off2 := o.2 } :: mergeF n ls''
        else .copy c :: mergeF n ls
    else .copy c :: mergeF n ls
  | n + 1, l :: ls => l :: mergeF n ls

/-- `ext_mpi_generate_raw_code_merge` (`src/core/raw_code_merge.c:8-93`). -/
def merge (ls : List Line) : List Line := mergeF ls.length ls

/-- The same line with the run-time values of the offset variables added
(`src/core/no_offset.c`, `src/core/byte_code.c`: address = buffer + offset variable + offset). -/
def shift (base : Int → Nat) (c : CopyLine) : CopyLine :=
  { c with off1 := c.off1 + base c.onum1, off2 := c.off2 + base c.onum2 }

/-- Source and destination overlap; for `memcpy` undefined in C
(`src/mpi/ext_mpi_native_exec.c:252-257`). Overlapping reductions are left out as well. -/
def overlap (c : CopyLine) : Bool :=
  c.buf1 == c.buf2 && c.num1 == c.num2 && c.size != 0 &&
    decide (c.off1 < c.off2 + c.size) && decide (c.off2 < c.off1 + c.size)

/-- Execution (`src/mpi/ext_mpi_native_exec.c:252-257`, `374-400`). `env k l` is the effect on
memory of the `k`-th line that is not a copy or reduction (messages, other processes). -/
def run {V : Type} (f : V → V → V) (base : Int → Nat) (env : Nat → Line → Mem V → Mem V) :
    Nat → List Line → Mem V → Option (Mem V)
  | _, [], m => some m
  | k, .copy c :: ls, m =>
    if overlap (shift base c) then none
    else run f base env k ls (execLines f 1 m [shift base c])
  | k, l :: ls, m => run f base env (k + 1) ls (env k l m)

end ExtMpi.Merge
