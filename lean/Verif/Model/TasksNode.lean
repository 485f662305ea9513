import Verif.Model.RawCode
import Verif.Model.RankPerm
/-!
# Several processes per node

The distribution of the messages of a node among its processes, `/repo/src/core/raw_code_tasks_node.c`, and
the programs that `/repo/src/core/raw_code.c` and, for a gather operation, `/repo/src/core/reduce_copyin.c`
and `/repo/src/core/reduce_copyout.c` emit for a process of a node with `ns` processes
(`/repo/src/mpi/ext_mpi_native.c:1069-1085`, the CPU path before the passes on the generated code).

Simplifications as in `Model/RawCode.lean`, without the restriction to one process per node; there is one column of
processes (`socket_column_size = 1`, `counts_max = 1`), the copy-in of reductions is not part of this file
(`Model/OnNode.lean` has it for one node).
-/
namespace ExtMpi.TasksNode
open Schedule RawCode

/-! ## Distribution of the messages -/

/-- Node of an entry; a dropped message has `-10 - q` (`raw_code_tasks_node.c:69-82`). -/
def target (x : Int) : Int := if x ≤ -10 then -10 - x else x

/-- `rank_perm[q]`. -/
def permAt (perm : List Nat) (q : Nat) : Nat := perm.getD q 0

/-- `rank_back_perm[x]` (`raw_code_tasks_node.c:42-44`). -/
def backAt (perm : List Nat) (x : Nat) : Nat := (RankPerm.back perm x).getD 0

/-- Position in `nodes_recv` of a message from node `q` (`raw_code_tasks_node.c:86-91`). -/
def recvOff (N : Nat) (perm : List Nat) (node q : Nat) : Nat := (permAt perm q + N - permAt perm node) % N

/-- Position in `nodes_send` of a message to node `q` (`raw_code_tasks_node.c:103-108`). -/
def sendOff (N : Nat) (perm : List Nat) (node q : Nat) : Nat := (N + permAt perm node - permAt perm q) % N

/-- The positions of `nodes_recv` that are set (`raw_code_tasks_node.c:83-99`). -/
def recvSet (N : Nat) (perm : List Nat) (node : Nat) (b : Block) (j : Nat) : Bool :=
  b.any fun l => l.recvfrom.any fun e =>
    decide (0 ≤ target e.1) && recvOff N perm node (target e.1).toNat == j

/-- The positions of `nodes_send` that are set (`raw_code_tasks_node.c:101-119`). -/
def sendSet (N : Nat) (perm : List Nat) (node : Nat) (b : Block) (j : Nat) : Bool :=
  b.any fun l => l.sendto.any fun e =>
    decide (0 ≤ target e.1) && sendOff N perm node (target e.1).toNat == j

/-- The counter `k` at position `j`: the number of positions from 1 that are set (`raw_code_tasks_node.c:121-131`,
`133-143`). -/
def slot (set : Nat → Bool) (j : Nat) : Nat := ((List.range j).filter fun i => decide (0 < i) && set i).length

/-- The process with local number `rank` handles the message at position `j` (`raw_code_tasks_node.c:122`, `125`,
`134`, `137`). -/
def mine (set : Nat → Bool) (ns rank j : Nat) : Bool := j == 0 || slot set j % ns == rank

/-- Number of the process of node `q` for a message that this process handles or not (`raw_code_tasks_node.c:151-170`,
`180-197`). -/
def partner (ns rank q : Nat) (active : Bool) : Int :=
  if active then ((q * ns + rank : Nat) : Int) else -((q * ns : Nat) : Int) - 10 - (rank : Int)

/-- New entry of `recvfrom` (`raw_code_tasks_node.c:147-175`); `none` is a dropped message. -/
def recvEntry (N ns : Nat) (perm : List Nat) (node rank : Nat) (b : Block) (e : Int × Int) : Option (Int × Int) :=
  if e.1 ≤ -10 then none
  else if e.1 < 0 then some e
  else
    let j := recvOff N perm node e.1.toNat
    some (partner ns rank (backAt perm ((j + permAt perm node) % N)) (mine (recvSet N perm node b) ns rank j), e.2)

/-- New entry of `sendto` (`raw_code_tasks_node.c:176-202`). -/
def sendEntry (N ns : Nat) (perm : List Nat) (node rank : Nat) (b : Block) (e : Int × Int) : Option (Int × Int) :=
  if e.1 ≤ -10 then none
  else if e.1 < 0 then some e
  else
    let j := sendOff N perm node e.1.toNat
    some (partner ns rank (backAt perm ((permAt perm node + N - j) % N)) (mine (sendSet N perm node b) ns rank j), e.2)

/-- Removal of the dropped messages; the last entry becomes the process itself (`raw_code_tasks_node.c:203-216`). -/
def pruneRecv (self line : Nat) (l : List (Option (Int × Int))) : List (Int × Int) :=
  match l.filterMap id with
  | [] => if l.isEmpty then [] else [((self : Int), (line : Int))]
  | x :: xs => x :: xs

/-- The same for `sendto`, whose line numbers stay at their positions (`raw_code_tasks_node.c:217-229`). -/
def pruneSend (self : Nat) (lines : List Int) (l : List (Option (Int × Int))) : List (Int × Int) :=
  match l.filterMap id with
  | [] => if l.isEmpty then [] else (lines.take 1).map fun x => ((self : Int), x)
  | x :: xs => ((x :: xs).map Prod.fst).zip lines

/-- One block (`raw_code_tasks_node.c:66-231`). -/
def tasksBlock (N ns : Nat) (perm : List Nat) (node rank : Nat) (b : Block) : Block :=
  b.zipIdx.map fun x =>
    { x.1 with
      sendto := pruneSend (node * ns + rank) (x.1.sendto.map Prod.snd)
        (x.1.sendto.map (sendEntry N ns perm node rank b)),
      recvfrom := pruneRecv (node * ns + rank) x.2 (x.1.recvfrom.map (recvEntry N ns perm node rank b)) }

/-- `ext_mpi_generate_raw_code_tasks_node` for `N` nodes with `ns` processes. `none`: `rank_perm` or one of its values
is outside of the arrays, `rank_back_perm` is read where nothing was written, or a node is outside of `rank_perm`. -/
def tasks (N ns : Nat) (perm : List Nat) (node rank : Nat) (a : List Block) : Option (List Block) :=
  if perm.length = N ∧ (∀ x ∈ perm, x < N) ∧ (∀ x, x < N → (RankPerm.back perm x).isSome) ∧ node < N ∧
      (∀ b ∈ a, ∀ l ∈ b, ∀ e ∈ l.sendto ++ l.recvfrom, target e.1 < (N : Int)) then
    some (a.map (tasksBlock N ns perm node rank))
  else none

/-! ## Emission -/

/-- An instruction of the generated code; lines with the names `ememcp_`, `ereduc_`, `eirec_` and `eisen_` are not
executed (`include/core/read_write.h`, `src/mpi/code_generation.c`). -/
structure Line where
  active : Bool
  ins : Instr
  deriving DecidableEq, Repr

/-- The first entry of a line that names process `q`, executed (`true`) or not (`src/core/raw_code.c:78-88`). -/
def hit (l : LineD) (q : Nat) : Option Bool :=
  (l.recvfrom.find? fun e => e.1 == (q : Int) || -e.1 - 10 == (q : Int)).map fun e => e.1 == (q : Int)

/-- Lines that receive from process `q`, executed or not (`src/core/raw_code.c:76-89`). -/
def hits (b : Block) (q : Nat) (active : Bool) : List Nat :=
  (b.zipIdx.filter fun x => hit x.1 q == some active).map fun x => x.2

/-- Lines that receive from process `q` (`src/core/raw_code.c:226-237`). -/
def anyHits (b : Block) (q : Nat) : List Nat := (b.zipIdx.filter fun x => (hit x.1 q).isSome).map fun x => x.2

/-- The receives; `k` is `buffer_counter` (`src/core/raw_code.c:73-120`). -/
def postsT (sz : Nat → Nat) (b : Block) (t : Nat) : Nat → List Nat → List Line
  | _, [] => []
  | k, q :: qs =>
    let size := if q = t then 0 else total sz b (hits b q true)
    let sizeS := if q = t then 0 else total sz b (hits b q false)
    let k1 := if size = 0 then k else k + 1
    let k2 := if sizeS = 0 then k1 else k1 + 1
    (if size = 0 then [] else [⟨true, .irecv ⟨.shm k, 0⟩ size q⟩]) ++
      (if sizeS = 0 then [] else [⟨false, .irecv ⟨.shm k1, 0⟩ sizeS q⟩]) ++ postsT sz b t k2 qs

/-- `buffer_counter` after the receives (`src/core/raw_code.c:103`, `118`). -/
def postsEndT (sz : Nat → Nat) (b : Block) (t : Nat) : Nat → List Nat → Nat
  | k, [] => k
  | k, q :: qs =>
    let size := if q = t then 0 else total sz b (hits b q true)
    let sizeS := if q = t then 0 else total sz b (hits b q false)
    let k1 := if size = 0 then k else k + 1
    postsEndT sz b t (if sizeS = 0 then k1 else k1 + 1) qs

/-- Lines to be sent to process `q`, executed or not, in the order of packing (`src/core/raw_code.c:124-173`). -/
def sendHits (b : Block) (q : Nat) : List (Nat × Bool) :=
  b.zipIdx.flatMap fun x => x.1.sendto.flatMap fun e =>
    (if e.1 == (q : Int) then [(x.2, true)] else []) ++ (if -e.1 - 10 == (q : Int) then [(x.2, false)] else [])

/-- Copies and reductions are executed by the first process of the node only (`src/core/raw_code.c:139-143`). -/
def copyLine (rank : Nat) (red : Bool) (dst src : Addr) (size : Nat) : List Line :=
  if size = 0 then [] else [⟨rank == 0, .copy red dst src size⟩]

/-- Packing into buffer `k` from the positions `add` and `adds` (`src/core/raw_code.c:124-176`). -/
def packT (sz : Nat → Nat) (b : Block) (rank k : Nat) : Nat → Nat → List (Nat × Bool) → List Line
  | _, _, [] => []
  | add, adds, (n, true) :: ns =>
    copyLine rank false ⟨.shm k, add⟩ ⟨.shm 0, off sz b n⟩ (lineSize sz b n) ++
      packT sz b rank k (add + lineSize sz b n) adds ns
  | add, adds, (n, false) :: ns =>
    copyLine rank false ⟨.shm k, adds⟩ ⟨.shm 0, off sz b n⟩ (lineSize sz b n) ++
      packT sz b rank k add (adds + lineSize sz b n) ns

/-- Size of the message to process `q`, executed or not: `add` and `adds` after the packing
(`src/core/raw_code.c:150`, `172`). -/
def sendTotal (sz : Nat → Nat) (b : Block) (q : Nat) (active : Bool) : Nat :=
  total sz b (((sendHits b q).filter fun x => x.2 == active).map fun x => x.1)

/-- Packing and sending (`src/core/raw_code.c:121-211`). -/
def sendsT (sz : Nat → Nat) (b : Block) (rank t : Nat) : Nat → List Nat → List Line
  | _, [] => []
  | k, q :: qs =>
    let add := if q = t then 0 else sendTotal sz b q true
    let adds := if q = t then 0 else sendTotal sz b q false
    let k1 := if add = 0 then k else k + 1
    let k2 := if adds = 0 then k1 else k1 + 1
    (if q = t then [] else packT sz b rank k 0 0 (sendHits b q)) ++
      (if add = 0 then [] else [⟨true, .barrier⟩, ⟨true, .isend ⟨.shm k, 0⟩ add q⟩]) ++
      (if adds = 0 then [] else [⟨true, .barrier⟩, ⟨false, .isend ⟨.shm k1, 0⟩ adds q⟩]) ++
      sendsT sz b rank t k2 qs

/-- The message is reduced: the last receiving line lists the process itself first
(`src/core/raw_code.c:252-264`). -/
def reducesT (b : Block) (t q : Nat) : Bool :=
  match (anyHits b q).getLast? with
  | none => false
  | some k => (((b[k]?).bind fun l => l.recvfrom.head?).map fun e => e.1 == (t : Int) || -e.1 - 10 == (t : Int)) == some true

/-- Unpacking (`src/core/raw_code.c:221-269`). -/
def unpackT (sz : Nat → Nat) (b : Block) (rank t : Nat) : Nat → List Nat → List Line
  | _, [] => []
  | k, q :: qs =>
    if q ≠ t ∧ total sz b (anyHits b q) ≠ 0 then
      (match anyHits b q with
        | [] => []
        | n0 :: _ => copyLine rank (reducesT b t q) ⟨.shm 0, off sz b n0⟩ ⟨.shm k, 0⟩ (total sz b (anyHits b q))) ++
        unpackT sz b rank t (k + 1) qs
    else unpackT sz b rank t k qs

/-- Local reductions (`src/core/raw_code.c:271-295`). -/
def reductionsT (sz : Nat → Nat) (b : Block) (rank : Nat) : List Line :=
  b.zipIdx.flatMap fun x => x.1.reducefrom.flatMap fun r =>
    copyLine rank true ⟨.shm 0, off sz b x.2⟩ ⟨.shm 0, off sz b r⟩ (sz x.1.frac)

/-- Local copies followed by reductions (`src/core/raw_code.c:296-330`). -/
def copyReductionsT (sz : Nat → Nat) (b : Block) (rank : Nat) : List Line :=
  b.zipIdx.flatMap fun x => x.1.copyreducefrom.zipIdx.flatMap fun r =>
    copyLine rank (r.2 != 0) ⟨.shm 0, off sz b x.2⟩ ⟨.shm 0, off sz b r.1⟩ (sz x.1.frac)

/-- One block of process `rank` of `node`; processes are numbered through all nodes
(`src/core/raw_code.c:66-67`, `68-331`). -/
def blockLines (N ns : Nat) (sz : Nat → Nat) (node rank : Nat) (b : Block) : List Line :=
  let t := node * ns + rank
  postsT sz b t 1 (recvOrder (N * ns) t) ++
    sendsT sz b rank t (postsEndT sz b t 1 (recvOrder (N * ns) t)) (sendOrder (N * ns) t) ++
    [⟨true, .waitall⟩, ⟨true, .barrier⟩] ++ unpackT sz b rank t 1 (recvOrder (N * ns) t) ++ [⟨true, .barrier⟩] ++
    reductionsT sz b rank ++ copyReductionsT sz b rank

/-- The blocks after block 0 (`src/core/raw_code.c:68-72`, `332`). -/
def blocksLines (N ns : Nat) (sz : Nat → Nat) (node rank : Nat) : Bool → List Block → List Line
  | _, [] => [⟨true, .barrier⟩]
  | first, b :: bs =>
    (if first then [] else [⟨true, .barrier⟩]) ++ blockLines N ns sz node rank b ++
      blocksLines N ns sz node rank false bs

/-- The lines that are executed. -/
def code (ls : List Line) : List Instr := (ls.filter Line.active).map Line.ins

/-- The sums over the lines before a reduced line stay inside of the block (`src/core/raw_code.c:275`, `302`). -/
def inside (b : Block) : Bool := b.all fun l => (l.reducefrom ++ l.copyreducefrom).all fun r => decide (r ≤ b.length)

/-- Sizes of the messages of the nodes: `coarse_counts` (`src/mpi/ext_mpi_native.c:932-940`). -/
def coarse (ns : Nat) (cnt : Nat → Nat) (node : Nat) : Nat := ((List.range ns).map fun r => cnt (node * ns + r)).sum

/-- `iodispls[rank]` (`src/core/reduce_copyin.c:449-452`). -/
def iodispl (ns : Nat) (cnt : Nat → Nat) (node rank : Nat) : Nat := ((List.range rank).map fun r => cnt (node * ns + r)).sum

/-- Copy-in of a gather operation: every process copies its own part of the message of the node
(`src/core/reduce_copyin.c:485`, `562-590`). -/
def copyInT (ns : Nat) (cnt : Nat → Nat) (node rank : Nat) (b : Block) : List Instr :=
  .barrier :: (copyIf false
    ⟨.shm 0, iodispl ns cnt node rank + off (coarse ns cnt) b (b.findIdx fun l => l.recvfrom.any fun e => e.1 == -1)⟩
    ⟨.send, 0⟩ (cnt (node * ns + rank)) ++ [.barrier])

/-- Program of process `rank` of `node` for an allgather, with `cnt t` elements of process `t`. `none` as in
`RawCode.program`. -/
def gatherProgram (N ns : Nat) (cnt : Nat → Nat) (perm : List Nat) (sched : List Block) (node rank : Nat) :
    Option (List Instr) :=
  (tasks N ns perm node rank sched).bind fun a =>
  match a, a.getLast? with
  | b0 :: bs, some bl =>
    if bs.all inside && (b0 ++ bl).all fun l => decide (l.frac < N) then
      some (copyInT ns cnt node rank b0 ++
        code (blocksLines N ns (mmsize N (coarse ns cnt)) node rank true bs) ++
        copyOutAll (coarse ns cnt) (moffset (coarse ns cnt) N) 0 bl)
    else none
  | _, _ => none

end ExtMpi.TasksNode
