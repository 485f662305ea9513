import Verif.Model.Lines

/-!
# Layout of the internal buffers in shared memory

Model of `/repo/src/core/buffer_offset.c` and `/repo/src/core/no_offset.c`.
-/
namespace ExtMpi.BufferOffset
open ExtMpi.Lines

/-- `CACHE_LINE_SIZE` (`include/core/read_write.h:6`). -/
def cacheLine : Nat := 64

/-- An operand: `is_offset`, `offset_number`, `offset` (`include/core/read_write.h:134-147`). -/
structure Ref where
  isOff : Bool
  onum : Int
  off : Nat
  deriving DecidableEq, Repr

/-- A program line as seen by the two passes: copy/reduction, message (`eirecv`, `eisend`, …), or
anything else. -/
inductive Ln where
  | copy (k : Kind) (r1 r2 : Ref) (size : Nat)
  | msg (r : Ref) (size : Nat)
  | other
  deriving DecidableEq, Repr

/-- Operands with sizes that `buffer_offset` looks at: those of copies and reductions
(`src/core/buffer_offset.c:52-55`). -/
def copyRefs : List Ln → List (Ref × Nat)
  | [] => []
  | .copy _ a b s :: ls => (a, s) :: (b, s) :: copyRefs ls
  | _ :: ls => copyRefs ls

/-- First loop: largest buffer number (`src/core/buffer_offset.c:20-36`). -/
def maxNum (rs : List (Ref × Nat)) : Nat :=
  rs.foldl (fun m r => if r.1.isOff ∧ r.1.onum > (m : Int) then r.1.onum.toNat else m) 0

/-- Second loop: bytes used of buffer `i` (`src/core/buffer_offset.c:56-57`, `61-62`). -/
def used (rs : List (Ref × Nat)) (i : Nat) : Nat :=
  rs.foldl (fun m r => if r.1.isOff ∧ r.1.onum = (i : Int) ∧ r.1.off + r.2 > m then r.1.off + r.2 else m) 0

/-- Second loop: extent of the operands without buffer number (`src/core/buffer_offset.c:58-59`,
`63-64`). -/
def shmemMax (rs : List (Ref × Nat)) : Nat :=
  rs.foldl (fun m r => if ¬ r.1.isOff ∧ r.1.off + r.2 > m then r.1.off + r.2 else m) 0

/-- Start of buffer `i` (`src/core/buffer_offset.c:75-82`). -/
def start (rs : List (Ref × Nat)) : Nat → Nat
  | 0 => 0
  | i + 1 => start rs i + if used rs i ≥ cacheLine then used rs i else cacheLine

/-- Last table entry, the total size (`src/core/buffer_offset.c:83-86`). -/
def total (rs : List (Ref × Nat)) : Nat :=
  let t := start rs (maxNum rs + 1)
  let t := if shmemMax rs > t then shmemMax rs else t
  (t / cacheLine + 1) * cacheLine

/-- The table `shmem_buffer_offset`; `none` if an entry does not fit into an `int`
(`src/core/buffer_offset.c:88-99`). -/
def layout (ls : List Ln) : Option (List Nat) :=
  let rs := copyRefs ls
  let t := (List.range (maxNum rs + 1)).map (start rs) ++ [total rs]
  if t.all (· < 2 ^ 31) then some t else none

/-- `parameters->shmem_max` (`src/core/no_offset.c:17`). -/
def shmemSize (t : List Nat) : Option Nat := t.getLast?

/-- Address of an operand after `no_offset`; `none` is a table access out of bounds
(`src/core/no_offset.c:42-57`). -/
def resolve (t : List Nat) (r : Ref) : Option Ref :=
  if r.isOff then
    if r.onum ≥ 0 then (t[r.onum.toNat]?).map fun b => { isOff := false, onum := r.onum, off := r.off + b }
    else (shmemSize t).map fun b => { isOff := false, onum := r.onum, off := r.off + b }
  else some r

/-- `ext_mpi_generate_no_offset` on one line (`src/core/no_offset.c:20-64`); `esreduc_` is not in
the list of rewritten lines. -/
def noOffset (t : List Nat) : Ln → Option Ln
  | .copy .sreduc_ a b s => some (.copy .sreduc_ a b s)
  | .copy k a b s =>
    match resolve t a, resolve t b with
    | some a', some b' => some (.copy k a' b' s)
    | _, _ => none
  | .msg r s => (resolve t r).map fun r' => .msg r' s
  | .other => some .other

end ExtMpi.BufferOffset
