import Verif.Model.RawCode
import Verif.Model.Numeric
import Mathlib.Data.Nat.Log
import Mathlib.Data.List.Rotate
/-!
# Programs of the processes of one node

The part of the generated program that works on the shared memory of a node: the copy-in of a reduction
(`/repo/src/core/reduce_copyin.c`), the copy-out (`/repo/src/core/reduce_copyout.c`) and their execution by the
processes of the node (`/repo/src/mpi/ext_mpi_native_exec.c`).

Simplifications: one socket per node; one column (`counts_max = 1`), no GPU; sizes and offsets are numbers of elements
of `ts` bytes (`ts` divides 8); the flags and counters of the barriers are unbounded (`Model/Barrier.lean` treats the
wrap-around); the memory is sequentially consistent; a copy or reduction of several elements is a sequence of accesses
to single elements. Copies that are emitted only to enlarge the scratch memory (`ememcp_`, `ereduc_` in the second
pass `n = 1` of `reduce_copyin`) have no effect in the byte code and are left out.
-/
namespace ExtMpi.OnNode
open Schedule
open RawCode (moffset)

/-- Memory regions: buffers of the user in the `k`-th execution, shared memory and memory of the small messages behind
the flags of the barrier (`eshmemo` with `is_offset = 0` and `1` in `src/core/reduce_copyin.c:8-31`) of the `b`-th
shared memory (the alternating ones, `src/mpi/ext_mpi_native.c`). -/
inductive Reg where
  | send (k : Nat)
  | recv (k : Nat)
  | shm (b : Nat)
  | fast (b : Nat)
  deriving DecidableEq, Repr

/-- Start of an interval of memory. -/
structure Addr where
  reg : Reg
  off : Nat
  deriving DecidableEq, Repr

/-- Instructions: `ememcpy`, `ereduce`, `esreduce` (`copy`), `eset_socket_barrier`, `ewait_socket_barrier`,
`esocket_barrier` (`include/core/read_write.h`). -/
inductive Instr where
  | copy (red : Bool) (dst src : Addr) (size : Nat)
  | set (b : Nat) (r : Int)
  | wait (b : Nat) (r : Int)
  | barrier (b : Nat)
  deriving DecidableEq, Repr

/-! ## Barriers between some of the processes -/

/-- `ranks[i]`; `-1` outside of the array (no flag has this index, so that using it is an error). -/
def rankAt (ranks : List Int) (i : Nat) : Int := ranks.getD i (-1)

/-- Lines `eset_socket_barrier ranks[0]` and `ewait_socket_barrier w`. -/
def setWait (b : Nat) (ranks : List Int) (w : Int) : List Instr := [.set b (rankAt ranks 0), .wait b w]

/-- Rounds of a barrier between the `busy` processes of `ranks` (`src/core/reduce_copyin.c:38-41`, `49-53`). The loop
`fac = 1; fac < busy; fac *= 2` has `Nat.clog 2 busy` iterations. -/
def busyRounds (b busy : Nat) (ranks : List Int) : List Instr :=
  (List.range (Nat.clog 2 busy)).flatMap fun k => setWait b ranks (rankAt ranks (2 ^ k % busy))

/-- Rounds in which a process only waits for itself (`src/core/reduce_copyin.c:44-47`, `54-58`). -/
def idleRounds (b num : Nat) (ranks : List Int) : List Instr :=
  (List.range num).flatMap fun _ => setWait b ranks (rankAt ranks 0)

/-- `local_barrier` with `num_all_ranks > 0` (`src/core/reduce_copyin.c:33-47`). -/
def localBarrier (b all busy : Nat) (ranks : List Int) : List Instr :=
  busyRounds b busy ranks ++ idleRounds b (Nat.clog 2 all - Nat.clog 2 busy) ranks

/-- `local_barrier` with `num_all_ranks < 0` (`src/core/reduce_copyin.c:48-62`). -/
def localBarrierFinal (b : Nat) (busy : Int) (ranks : List Int) : List Instr :=
  if busy > 0 then busyRounds b busy.toNat ranks else idleRounds b (Nat.clog 2 (-busy).toNat) ranks

/-! ## Copy-in of a group of processes to one instance of the vector -/

/-- Start and size of the `k`-th of `n` parts of `size` elements, in units of `u` elements
(`src/core/reduce_copyin.c:82-91`, `165-173`, `304-317`; `u` is 1 for ordinary messages). -/
def cut (size u n k : Nat) : Nat × Nat :=
  let s := size / u / n
  if k ≥ size / u % n then ((s * k + size / u % n) * u, s * u) else ((s * k + k) * u, (s + 1) * u)

/-- Placement of the vectors in the shared memory: region, distance of the instances and start of the first one. -/
structure Place where
  reg : Reg
  stride : Nat
  base : Nat

/-- Copy or reduction of the part `[al, al + sl)` of the vector to an instance that starts at `start`
(`src/core/reduce_copyin.c:92-131`). `b` is the rest of block 0, `add` the offset of its first line. -/
def ringSlice (k : Nat) (reg : Reg) (start : Nat) (red : Bool) (sz : Nat → Nat) (len al sl : Nat) :
    Nat → Block → List Instr
  | _, [] => []
  | add, l :: ls =>
    let size := sz l.frac
    (if al + sl ≤ add ∨ add + size ≤ al then [] else
      let a := if add > al then add else al
      let s := if add > al then sl - (add - al) else sl
      let s := if add + size < a + s then add + size - a else s
      if s = 0 then [] else
        [Instr.copy red ⟨reg, (len + a) % len + start⟩ ⟨.send k, (len + a - add + moffset sz l.frac) % len⟩ s]) ++
    ringSlice k reg start red sz len al sl (add + size) ls

/-- Ranks of the group of the own process, starting with the own rank
(`src/core/reduce_copyin.c:521-527`). -/
def ringRanks (n gb own : Nat) : List Int :=
  let nr := if n % gb = 0 ∨ own / gb < (n - 1) / gb then gb else n % gb
  (List.range nr).map fun m => ((own / gb * gb + (m + own % gb) % nr : Nat) : Int)

/-- `reduce_copyin` (`src/core/reduce_copyin.c:65-135` with `n = 0`): the processes of a group add their vectors to one
instance, each of them working on another part at a time. -/
def reduceCopyin (b k : Nat) (pl : Place) (sz : Nat → Nat) (len u gb nr : Nat) (ranks : List Int) (blk : Block)
    (own : Nat) : List Instr :=
  ((List.range nr).flatMap fun i =>
    let p := cut len u nr ((2 * nr - 1 + own % gb - i) % nr)
    ringSlice k pl.reg (own / gb * pl.stride + pl.base) (i ≠ 0) sz len p.1 p.2 0 blk ++
      (if i + 1 < nr then setWait b ranks (rankAt ranks (nr - 1)) else [])) ++
  localBarrierFinal b nr ranks

/-! ## Reduction of the instances -/

/-- `struct memory_layout` (`src/core/reduce_copyin.c:8-12`): part of the instances handled by a process; rank `-1` if
there is no such process. Offsets count as if every process had an instance of its own. -/
structure Seg where
  size : Nat
  offset : Int
  rank : Int

/-- `CACHE_LINE_SIZE` (`include/core/read_write.h:6`). -/
def cacheLine : Nat := 64

/-- `OFFSET_FAST` (`include/core/read_write.h:8`). -/
def offsetFast : Nat := 8

/-- Initial layout (`src/core/reduce_copyin.c:144-155`) for `s` processes; indices below the product of the factors. -/
def layout0 (s len : Nat) (x : Nat) : Seg := ⟨len, (x * len : Nat), if x < s then (x : Int) else -1⟩

/-- Layout after a step with factor `f`, `gb` being the product of the factors before
(`src/core/reduce_copyin.c:156-193`): the parts are split between `f` processes if they are large enough. -/
def relayout (ts u s len gb f : Nat) (old : Nat → Seg) (x : Nat) : Seg :=
  let i := x / (gb * f) * (gb * f)
  let j := x % (gb * f) / f
  let k := x % f
  let a := old (i + j)
  let c := old (i + j + k * gb)
  let p : Nat × Nat := if a.size * ts / f ≥ cacheLine then cut c.size u f k else (0, if k = 0 then a.size else 0)
  if a.offset ≥ ((len * s : Nat) : Int) then ⟨0, -1, c.rank⟩ else ⟨p.2, a.offset + p.1, c.rank⟩

/-- Position of the own rank in the layout, the last one, or 0 (`src/core/reduce_copyin.c:195-201`). -/
def ownIndex (v : Nat) (lay : Nat → Seg) (own : Nat) : Nat :=
  (((List.range v).filter fun x => (lay x).rank == (own : Int)).getLast?).getD 0

/-- Ranks that share a part with the own rank, starting with the own rank
(`src/core/reduce_copyin.c:202-205`). -/
def groupRanks (lay : Nat → Seg) (f j : Nat) : List Int :=
  (List.range f).map fun m => (lay (j / f * f + (m + j % f) % f)).rank

/-- Number of processes that take part in the barrier of a step and their ranks
(`src/core/reduce_copyin.c:206-225`): all existing ones if one of them has something to do, none otherwise. -/
def busyGroup (v s : Nat) (lay : Nat → Seg) (ranks : List Int) (own : Nat) : Nat × List Int :=
  let busy := ranks.any fun r => (List.range v).any fun x => (lay x).rank == r && (lay x).size != 0
  if s ≤ own then (0, [(own : Int)])
  else if busy then ((ranks.filter (0 ≤ ·)).length, ranks.filter (0 ≤ ·))
  else (0, ranks)

/-- Address of the offset `o` of the layout (`src/core/reduce_copyin.c:233-239`); `f0` is the first factor. -/
def treeAddr (fast : Bool) (pl : Place) (len f0 o : Nat) : Addr :=
  ⟨pl.reg, if fast then o % len + o / len / f0 * pl.stride + pl.base else o % len + o / len * len / f0⟩

/-- Reductions of one step (`src/core/reduce_copyin.c:228-245`). -/
def stepReduce (fast : Bool) (pl : Place) (v len f0 gb f : Nat) (seg : Seg) (own : Nat) : List Instr :=
  if seg.size = 0 ∨ v ≤ own then [] else
    (List.range (f - 1)).map fun i =>
      Instr.copy true (treeAddr fast pl len f0 seg.offset.toNat)
        (treeAddr fast pl len f0 (seg.offset.toNat + (i + 1) * len * gb)) seg.size

/-- The steps of `reduce_copies` (`src/core/reduce_copyin.c:156-246`) after the first one, and the layout at the end. -/
def treeSteps (b : Nat) (fast : Bool) (pl : Place) (ts u v s len f0 own : Nat) :
    Nat → (Nat → Seg) → List Nat → List Instr × (Nat → Seg)
  | _, lay, [] => ([], lay)
  | gb, lay, f :: fs =>
    let new := relayout ts u s len gb f lay
    let j := ownIndex v new own
    let g := busyGroup v s new (groupRanks new f j) own
    let r := treeSteps b fast pl ts u v s len f0 own (gb * f) new fs
    (localBarrier b f g.1 g.2 ++ stepReduce fast pl v len f0 gb f (new j) own ++ r.1, r.2)

/-- Ranks with a part at the end (`src/core/reduce_copyin.c:247-253`). -/
def finalBusy (v : Nat) (lay : Nat → Seg) : List Int :=
  ((List.range v).filter fun x => (lay x).size != 0).map fun x => (lay x).rank

/-- Barrier at the end of `reduce_copies` (`src/core/reduce_copyin.c:254-280`): the processes with a part, then every
process waits for the process 0. The list of ranks is rotated until it starts with the own rank. -/
def finalBarrier (b s : Nat) (subset : Bool) (busy : List Int) (own : Nat) : List Instr :=
  if (own : Int) ∈ busy then
    if s = busy.length ∧ !subset then [.barrier b]
    else localBarrierFinal b busy.length (busy.rotate (busy.idxOf (own : Int))) ++ [.set b own, .wait b 0]
  else localBarrierFinal b (-(busy.length : Int)) [(own : Int)] ++ [.set b own, .wait b 0]

/-- Layout after the first step, which emits nothing (`src/core/reduce_copyin.c:156-226` with `step = 0`). -/
def layout1 (ts u s len f0 : Nat) : Nat → Seg := relayout ts u s len 1 f0 (layout0 s len)

/-- `reduce_copies` (`src/core/reduce_copyin.c:137-283`). No program (undefined behaviour) if the array of the ranks, of
`s` elements, is too short. -/
def reduceCopies (b : Nat) (fast : Bool) (pl : Place) (ts u s len : Nat) (factors : List Nat) (subset : Bool)
    (own : Nat) : Option (List Instr) :=
  match factors with
  | [] => none
  | f0 :: fs =>
    let v := (f0 :: fs).prod
    let r := treeSteps b fast pl ts u v s len f0 own f0 (layout1 ts u s len f0) fs
    let busy := finalBusy v r.2
    if (f0 :: fs).any (s < ·) ∨ s < busy.length then none
    else some (r.1 ++ finalBarrier b s subset busy own)

/-- `reduce_copies_almost_half` (`src/core/reduce_copyin.c:285-331`; `nparallel` is 2): the instances from `h` on are added
to the first ones, each sum by two processes. -/
def almostHalf (b : Nat) (reg : Reg) (n h len u own : Nat) : List Instr :=
  if own < n - h ∨ h ≤ own then
    let r := if own < n - h then own else (own - h) % (n - h)
    let ranks : List Int := if own < n - h then [(own : Int), (own % (n - h) + h : Nat)] else [(own : Int), (r : Int)]
    let p := cut len u 2 (if own < n - h then own / (n - h) else 1)
    let lrank := if own < n - h then own % (n - h) else own - h
    localBarrierFinal b 2 ranks ++
      [Instr.copy true ⟨reg, lrank * len + p.1⟩ ⟨reg, (lrank + h) * len + p.1⟩ p.2] ++
      localBarrierFinal b 2 ranks
  else localBarrierFinal b (-2) [(own : Int)] ++ localBarrierFinal b (-2) [(own : Int)]

/-! ## The whole program of a node -/

/-- What the user or the library chooses: processes of the node, bytes per element, number of elements, factors of the
copy-in (`copyin_factors`), method of the copy-in (`copyin_method`). -/
structure Par where
  n : Nat
  ts : Nat
  len : Nat
  factors : List Nat
  method : Nat := 0
  deriving DecidableEq, Repr

/-- Small message on a single node (`src/core/reduce_copyin.c:531`, `src/core/reduce_copyout.c:57`). -/
def Par.isFast (P : Par) : Bool := P.len * P.ts ≤ cacheLine - offsetFast

/-- `type_size` of the copy-in in elements (`src/core/reduce_copyin.c:532-534`). -/
def Par.unit (P : Par) : Nat := if P.isFast then P.len else 1

/-- Place of the instances (`src/core/reduce_copyin.c:69-81`, `233-239`). -/
def Par.place (P : Par) (b : Nat) : Place :=
  if P.isFast then ⟨.fast b, cacheLine / P.ts, offsetFast / P.ts⟩ else ⟨.shm b, P.len, 0⟩

/-- Size of the only message of a single node. -/
def Par.sz (P : Par) (_ : Nat) : Nat := P.len

/-- Copy-in of a reduction (`src/core/reduce_copyin.c:515-560`) with the block 0 `blk`, for the values `fast`, `u`
(`type_size` in elements) and `pl` of the variables that tell whether the message is a small one. No program (undefined
behaviour) if the code divides by zero: no data in a small message, or a factor 0. -/
def copyInWith (fast : Bool) (u : Nat) (pl : Place) (P : Par) (sz : Nat → Nat) (blk : Block) (b k own : Nat) :
    Option (List Instr) :=
  match P.factors with
  | [] => none
  | gb :: _ =>
    if u = 0 ∨ 0 ∈ P.factors then none
    else
      let ranks := ringRanks P.n gb own
      if P.method = 1 then
        let h := 2 ^ Nat.clog 2 P.n / 2
        (reduceCopies b fast pl P.ts u h P.len P.factors.dropLast true own).map fun t =>
          reduceCopyin b k pl sz P.len u gb gb ranks blk own ++
            almostHalf b pl.reg P.n h P.len u own ++ t
      else
        (reduceCopies b fast pl P.ts u P.n P.len P.factors false own).map fun t =>
          reduceCopyin b k pl sz P.len u gb ranks.length ranks blk own ++ t

/-- Copy-in of a reduction on a single node (`src/core/reduce_copyin.c:515-560`). -/
def copyIn (P : Par) (sz : Nat → Nat) (blk : Block) (b k own : Nat) : Option (List Instr) :=
  copyInWith P.isFast P.unit (P.place b) P sz blk b k own

/-- Copy-out of the whole vector (`src/core/reduce_copyout.c:129-173`) for a single line that starts the last block. -/
def copyOut (P : Par) (b k : Nat) : List Instr :=
  if P.len = 0 then [] else
    [.copy false ⟨.recv k, 0⟩ ⟨(P.place b).reg, if P.isFast then offsetFast / P.ts else 0⟩ P.len]

/-- Block 0 of the schedule of a single node (`CyclicReduce.core 1 [1] [] 0`): one line with the whole vector. -/
def singleBlock : Block := [{ frac := 0, recvfrom := [(-1, 0)] }]

/-- Program of process `own` of a single node for the `k`-th execution on the `b`-th shared memory; `lead` are the
barriers at the start (`src/core/reduce_copyin.c:485`, `535`), two of them without alternating shared memories and none
with them (`src/core/clean_barriers.c`, `src/core/no_first_barrier.c`). -/
def allreduce (P : Par) (lead b k own : Nat) : Option (List Instr) :=
  (copyIn P P.sz singleBlock b k own).map fun c => List.replicate lead (.barrier b) ++ c ++ copyOut P b k

/-- Barriers at the start of an execution, without (`false`) or with (`true`) alternating shared memories. -/
def leadBarriers (alternate : Bool) : Nat := if alternate then 0 else 2

/-- Number of the shared memory of execution `j`: with alternating shared memories there are two programs, for two
memories (`src/mpi/ext_mpi_native.c:497-536`), used in turn (`src/mpi/ext_mpi_native.c:233-242`). -/
def bankOf (alternate : Bool) (j : Nat) : Nat := if alternate then j % 2 else 0

/-- First byte of element `x` of instance `inst` of a small message, relative to the start of the shared memory
(`src/core/reduce_copyin.c:75`, `232-233`). -/
def fastByte (P : Par) (inst x : Nat) : Nat := ((P.place 0).base + inst * (P.place 0).stride + x) * P.ts

/-- First of the four bytes of flag `r` (`src/mpi/ext_mpi_native_exec.c:71`). -/
def flagByte (r : Nat) : Nat := r * (cacheLine / 4) * 4

/-! ## Choice of the factors -/

/-- Factors for small messages and for the almost-half method (`src/mpi/cost_copyin_measurement.c:95-101`,
`107-113`): `1` and as many factors `2` as the loop `j = 1; j < n; j *= 2` has iterations. -/
def smallFactors (n : Nat) : List Nat := 1 :: List.replicate (Nat.clog 2 n) 2

/-- The `i`-th candidate of the other factors (`src/mpi/cost_copyin_measurement.c:118-126`). -/
def splitFactors (n i : Nat) : List Nat :=
  ((Numeric.plainPrimeFactors n).take i).prod :: (Numeric.plainPrimeFactors n).drop i

/-- The choices that `allreduce_measurement` compares and of which it takes one if the message is not small or there are
several nodes (`src/mpi/cost_copyin_measurement.c:103-143`), without a GPU. The loop `i = 1; i < n; i *= 2` ends with
`2 ^ Nat.clog 2 n`. -/
def largeChoices (n ts len : Nat) : List Par :=
  (if 2 ^ Nat.clog 2 n ≠ n then [⟨n, ts, len, smallFactors n, 1⟩] else []) ++
    (List.range ((Numeric.plainPrimeFactors n).length + 1)).map fun i => ⟨n, ts, len, splitFactors n i, 0⟩

/-- All choices that `allreduce_measurement` compares and of which it takes one
(`src/mpi/cost_copyin_measurement.c:93-143`), for a single node without a GPU. -/
def measuredChoices (n ts len : Nat) : List Par :=
  if len * ts ≤ cacheLine - offsetFast then [⟨n, ts, len, smallFactors n, 0⟩] else largeChoices n ts len

/-! ## Execution -/

/-- Memory cells of a node: private buffers of the processes and shared memory. -/
inductive Cell where
  | send (p k x : Nat)
  | recv (p k x : Nat)
  | shm (b x : Nat)
  | fast (b x : Nat)
  deriving DecidableEq, Repr

/-- Cell of element `i` of an interval as seen by process `p`. -/
def Addr.cell (a : Addr) (p i : Nat) : Cell :=
  match a.reg with
  | .send k => .send p k (a.off + i)
  | .recv k => .recv p k (a.off + i)
  | .shm b => .shm b (a.off + i)
  | .fast b => .fast b (a.off + i)

/-- Actions of a process: copy or addition of one element, store of the counter of barrier `b` to flag `r`, spinning on
flag `r`. -/
inductive Act where
  | elem (red : Bool) (dst src : Cell)
  | set (b : Nat) (r : Int)
  | wait (b : Nat) (r : Int)
  deriving DecidableEq, Repr

/-- Actions of an instruction of process `p` of `n`: `memcpy` and the reductions element by element
(`src/mpi/ext_mpi_native_exec.c:252-257`, `374-400`), `socket_barrier` (`src/mpi/ext_mpi_native_exec.c:48-56`),
`socket_barrier_atomic_set` and `_wait` (`70-78`). -/
def Instr.acts (n p : Nat) : Instr → List Act
  | .copy red d s size => (List.range size).map fun i => .elem red (d.cell p i) (s.cell p i)
  | .set b r => [.set b r]
  | .wait b r => [.wait b r]
  | .barrier b =>
    (List.range (Nat.clog 2 n)).flatMap fun k => [.set b p, .wait b ((p + 2 ^ k) % n : Nat)]

/-- All processes of a node: remaining actions, counters `barrier_count` of the processes, flags in shared memory,
data. -/
structure State (X : Type) where
  rest : Nat → List Act
  cnt : Nat → Nat → Nat
  flag : Nat → Nat → Nat
  mem : Cell → X

/-- Effect of a copy or addition of one element. -/
def accessed {X : Type} [Add X] (red : Bool) (d s : Cell) (m : Cell → X) : Cell → X :=
  fun c => if c = d then (if red then m d + m s else m s) else m c

/-- One action of process `p`. The index of a flag must not be negative. -/
inductive Step {X : Type} [Add X] (p : Nat) : State X → State X → Prop
  | elem {s : State X} {red d c as} : s.rest p = .elem red d c :: as →
      Step p s { s with rest := Function.update s.rest p as, mem := accessed red d c s.mem }
  | set {s : State X} {b as} {r : Nat} : s.rest p = .set b r :: as →
      Step p s { s with rest := Function.update s.rest p as
                        flag := Function.update s.flag b (Function.update (s.flag b) r (s.cnt p b)) }
  | wait {s : State X} {b as} {r : Nat} : s.rest p = .wait b r :: as → s.cnt p b ≤ s.flag b r →
      Step p s { s with rest := Function.update s.rest p as
                        cnt := Function.update s.cnt p (Function.update (s.cnt p) b (s.cnt p b + 1)) }

/-- `k` actions of processes below `n`, in any order. -/
inductive Steps {X : Type} [Add X] (n : Nat) : Nat → State X → State X → Prop
  | nil {s} : Steps n 0 s s
  | snoc {k s s' s'' p} : Steps n k s s' → p < n → Step p s' s'' → Steps n (k + 1) s s''

/-- State before the first execution of the programs: counters are 1, flags 0
(`src/mpi/ext_mpi_native.c`, initialisation of `barrier_count` and of the shared memory). -/
def start {X : Type} (n : Nat) (prog : Nat → List Instr) (m : Cell → X) : State X where
  rest := fun p => (prog p).flatMap (Instr.acts n p)
  cnt := fun _ _ => 1
  flag := fun _ _ => 0
  mem := m

end ExtMpi.OnNode
