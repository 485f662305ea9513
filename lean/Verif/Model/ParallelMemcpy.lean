import Verif.Model.Lines

/-!
# Splitting shared-memory copies over the processes of a socket

Model of `/repo/src/core/parallel_memcpy.c` and of the other places that divide a vector between
processes (`/repo/src/core/reduce_copyin.c`).
-/
namespace ExtMpi.ParallelMemcpy
open ExtMpi.Lines

/-- Share of process `rank` of a vector of `size` bytes: (`add`, `i`) in elements, before clipping
(`src/core/parallel_memcpy.c:97-105`). -/
def share (size typeSize nodeSize rank : Nat) : Nat × Nat :=
  let add := (size / typeSize / nodeSize) * rank
  let i := size / typeSize / nodeSize
  if rank < (size / typeSize) % nodeSize then (add + rank, i + 1)
  else (add + (size / typeSize) % nodeSize, i)

/-- Piece of a line of `size` bytes when the run's largest line has `oldSize` bytes: byte offset
and byte length (`src/core/parallel_memcpy.c:97-116`, `node_rank < node_size`). -/
def piece (oldSize size typeSize nodeSize rank : Nat) : Nat × Nat :=
  let (add, i) := share oldSize typeSize nodeSize rank
  let i :=
    if add * typeSize > size then 0
    else if (add + i) * typeSize > size then size / typeSize - add
    else i
  (add * typeSize, i * typeSize)

/-- Lines that are split (`src/core/parallel_memcpy.c:94-96`). -/
def splittable (c : CopyLine) : Bool :=
  (c.kind == .memcpy || c.kind == .memcp_ || c.kind == .reduce || c.kind == .reduc_) &&
  (c.buf1 == .shmem && c.buf2 == .shmem)

/-- `ext_mpi_read_memcpy_reduce` leaves `offset1` of the structure unchanged when the line is not a
copy or reduction (`src/core/read_write.c:1491-1551`). -/
def readOff (stale : Int) : Line → Int
  | .copy c => c.off1
  | _ => stale

/-- The look-ahead loop (`src/core/parallel_memcpy.c:64-90`): largest split line of the run. -/
def scanMax (oldOff : Int) : Int → Nat → List Line → Nat
  | _, acc, [] => acc
  | st, acc, l :: ls =>
    match l with
    | .barrier => acc
    | l =>
      let st' := readOff st l
      if oldOff ≠ st' then acc
      else
        let acc' := match l with
          | .copy c => if splittable c then (if c.size > acc then c.size else acc) else acc
          | _ => acc
        scanMax oldOff st' acc' ls

/-- `ememcp_` → `ememcpy`, `ereduc_` → `ereduce` (`src/core/parallel_memcpy.c:119-124`). -/
def plainKind : Kind → Kind
  | .memcp_ => .memcpy
  | .reduc_ => .reduce
  | k => k

/-- The piece of a split line (`src/core/parallel_memcpy.c:97-124`). -/
def pieceLine (oldSize typeSize nodeSize rank : Nat) (c : CopyLine) : CopyLine :=
  let (add, len) := piece oldSize c.size typeSize nodeSize rank
  { c with kind := plainKind c.kind, off1 := c.off1 + add, off2 := c.off2 + add, size := len }

/-- State of the main loop: `data_memcpy_reduce.offset1`, `data_memcpy_reduce_old.offset1`,
`data_memcpy_reduce_old.size` (`src/core/parallel_memcpy.c:15-17`). -/
structure State where
  cur : Int
  oldOff : Int
  oldSize : Nat

/-- Main loop of `ext_mpi_generate_parallel_memcpy` (`src/core/parallel_memcpy.c:43-138`) for one
process. -/
def pass (t n r : Nat) : State → List Line → List Line
  | _, [] => []
  | s, l :: rest =>
    let cur := readOff s.cur l
    let isBar := l == .barrier
    let reset := isBar || s.oldOff != cur
    let oldOff := cur
    let oldSize :=
      if reset then (if isBar then scanMax oldOff cur 0 rest else scanMax oldOff cur 0 (l :: rest))
      else s.oldSize
    match l with
    | .copy c =>
      if splittable c then
        let p := pieceLine oldSize t n r c
        let out := if p.size ≠ 0 then [Line.copy p] else []
        out ++ pass t n r ⟨p.off1, oldOff, oldSize⟩ rest
      else l :: pass t n r ⟨cur, oldOff, oldSize⟩ rest
    | _ => l :: pass t n r ⟨cur, oldOff, oldSize⟩ rest

/-- Initial state (`src/core/parallel_memcpy.c:15-17`; the size is -1 there but is only used after
the first reset, which happens at the first line). -/
def initState : State := ⟨-1, -1, 0⟩

/-! ### Shares in `src/core/reduce_copyin.c` -/

/-- Chunk index handled by `lrank_row` in round `i` of `n` (`src/core/reduce_copyin.c:81`). -/
def chunkOf (n lrankRow i : Nat) : Nat := (2 * n - 1 + lrankRow - i) % n

/-- (`add_local`, `size_local`) in bytes (`src/core/reduce_copyin.c:82-90`); the same computation
is in lines 302-316. -/
def copyinShare (total typeSize n c : Nat) : Nat × Nat :=
  let sizeLocal := total / typeSize / n
  if c ≥ (total / typeSize) % n then
    ((sizeLocal * c + (total / typeSize) % n) * typeSize, sizeLocal * typeSize)
  else ((sizeLocal * c + c) * typeSize, (sizeLocal + 1) * typeSize)

end ExtMpi.ParallelMemcpy
