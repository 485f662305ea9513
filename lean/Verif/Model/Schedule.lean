/-!
# Communication schedules and their execution

`struct data_algorithm` (`/repo/include/core/read_write.h`) and the meaning the code generators
give to it: `/repo/src/core/raw_code.c` (communication and reductions),
`/repo/src/core/reduce_copyin.c` (block 0) and `/repo/src/core/reduce_copyout.c` (last block).

Simplifications: one process per node (`node_size = 1`); the vector is addressed in lines instead of
bytes, i.e. the position of line `n` in shared memory is `n`; sizes are represented by the number
`frac` of the message a line belongs to, and a message whose pieces do not have the numbers
expected by the receiver makes the execution undefined (`none`).
-/
namespace ExtMpi.Schedule

/-- `struct data_algorithm_line` (`include/core/read_write.h`). Partner entries are pairs of node
and line. -/
structure LineD where
  frac : Nat := 0
  sendto : List (Int × Int) := []
  recvfrom : List (Int × Int) := []
  reducefrom : List Nat := []
  copyreducefrom : List Nat := []
  deriving DecidableEq, Repr, Inhabited

/-- `struct data_algorithm_block`. -/
abbrev Block := List LineD

/-- Number of the message that line `n` belongs to. -/
def fracOf (b : Block) (n : Nat) : Option Nat := (b[n]?).map LineD.frac

/-- Lines packed into the message for node `q`, in the order of packing
(`src/core/raw_code.c:122-175`). -/
def sendIdx (b : Block) (q : Nat) : List Nat :=
  b.zipIdx.flatMap fun x => (x.1.sendto.filter fun e => e.1 == (q : Int)).map fun _ => x.2

/-- Lines that receive from node `q` (`src/core/raw_code.c:77-89`, `224-237`). -/
def recvIdx (b : Block) (q : Nat) : List Nat :=
  (b.zipIdx.filter fun x => x.1.recvfrom.any fun e => e.1 == (q : Int)).map fun x => x.2

/-- Message for node `q` when the lines hold the values `v` (`src/core/raw_code.c:122-191`). -/
def message {V : Type} (b : Block) (v : Nat → V) (q : Nat) : List (Option Nat × V) :=
  (sendIdx b q).map fun n => (fracOf b n, v n)

/-- The last receiving line lists the node itself first: the message is reduced instead of copied
(`src/core/raw_code.c:231`, `250-263`). -/
def reduces (b : Block) (node q : Nat) : Bool :=
  match (recvIdx b q).getLast? with
  | none => false
  | some k => ((b[k]?).bind fun l => l.recvfrom.head?).map (fun e => e.1) == some (node : Int)

/-- Unpacking of the message from node `q`: one contiguous copy starting at the first receiving
line (`src/core/raw_code.c:219-267`). `none`: the message does not have the expected size,
nobody expects it, or the receiving lines are not contiguous although the copy is. -/
def deliver {V : Type} [Add V] (b : Block) (node q : Nat) (msg : List (Option Nat × V)) (v : Nat → V) :
    Option (Nat → V) :=
  match recvIdx b q with
  | [] => if msg.isEmpty then some v else none
  | n0 :: ns =>
    if n0 :: ns = List.range' n0 (ns.length + 1) ∧
        msg.map Prod.fst = (List.range' n0 (ns.length + 1)).map (fracOf b) then
      some fun n =>
        match (if n0 ≤ n then msg[n - n0]? else none) with
        | some (_, x) => if reduces b node q then v n + x else x
        | none => v n
    else none

/-- Unpacking of all messages, in the order of the code (`src/core/raw_code.c:219-220`). -/
def recvAll {V : Type} [Add V] (N : Nat) (b : Block) (node : Nat) (msgs : Nat → List (Option Nat × V))
    (v : Nat → V) : Option (Nat → V) :=
  ((List.range N).map fun o => (N + node - o) % N).foldlM
    (fun v q => if q = node then some v else deliver b node q (msgs q) v) v

/-- Value `x` at position `n`. -/
def upd {V : Type} (v : Nat → V) (n : Nat) (x : V) : Nat → V := fun k => if k = n then x else v k

/-- Local reductions (`src/core/raw_code.c:269-295`). -/
def reduceAll {V : Type} [Add V] (b : Block) (v : Nat → V) : Nat → V :=
  b.zipIdx.foldl (fun v x => x.1.reducefrom.foldl (fun v r => upd v x.2 (v x.2 + v r)) v) v

/-- Local copies followed by reductions (`src/core/raw_code.c:296-330`). -/
def copyReduceAll {V : Type} [Add V] (b : Block) (v : Nat → V) : Nat → V :=
  b.zipIdx.foldl (fun v x =>
    match x.1.copyreducefrom with
    | [] => v
    | r0 :: rs => rs.foldl (fun v r => upd v x.2 (v x.2 + v r)) (upd v x.2 (v r0))) v

/-- The sources of the local reductions and copies are other lines of the block with the same message
number; the code uses the size of the destination for both (`src/core/raw_code.c:271-276`,
`298-303`). -/
def reduceOk (b : Block) : Bool :=
  b.zipIdx.all fun x =>
    (x.1.reducefrom ++ x.1.copyreducefrom).all fun r => r != x.2 && fracOf b r == some x.1.frac

/-- One block on node `t` (`src/core/raw_code.c:68-331`): all messages are packed before any is
unpacked. -/
def nodeStep {V : Type} [Add V] (N : Nat) (bs : Nat → Block) (s : Nat → Nat → V) (t : Nat) :
    Option (Nat → V) :=
  if reduceOk (bs t) then
    (recvAll N (bs t) t (fun q => message (bs q) (s q) t) (s t)).map fun v =>
      copyReduceAll (bs t) (reduceAll (bs t) v)
  else none

/-- Execution of the remaining blocks of all nodes. -/
inductive Run {V : Type} [Add V] (N : Nat) :
    (Nat → List Block) → (Nat → Nat → V) → (Nat → Nat → V) → Prop
  | done {p s} : (∀ t, t < N → p t = []) → Run N p s s
  | step {p s s''} (hd : Nat → Block) (tl : Nat → List Block) (s' : Nat → Nat → V) :
      (∀ t, t < N → p t = hd t :: tl t) →
      (∀ t, t < N → nodeStep N hd s t = some (s' t)) → Run N tl s' s'' → Run N p s s''

/-- Copy-in according to block 0: lines that receive from `-1` get the message of their number, all
other memory keeps its (arbitrary) contents (`src/core/reduce_copyin.c:91-127`, `562-589`). -/
def copyIn {V : Type} (b : Block) (inp junk : Nat → V) : Nat → V := fun n =>
  match b[n]? with
  | some l => if l.recvfrom.any fun e => e.1 == -1 then inp l.frac else junk n
  | none => junk n

/-- Copy-out according to the last block: lines that send to `-1` are copied to the position of
their message number; `none` is not written (`src/core/reduce_copyout.c:140-172`). -/
def copyOut {V : Type} (b : Block) (v : Nat → V) : Nat → Option V :=
  b.zipIdx.foldl (fun out x =>
    if x.1.sendto.any fun e => e.1 == -1 then upd out x.1.frac (some (v x.2)) else out) fun _ => none

/-- Copy-out of a reduce_scatter: the first line that sends anywhere is the result
(`src/core/reduce_copyout.c:174-196`). -/
def copyOutFirst {V : Type} (b : Block) (v : Nat → V) : Option V :=
  (b.zipIdx.find? fun x => !x.1.sendto.isEmpty).map fun x => v x.2

/-- Execution of a collective: `inp t f` is message `f` in the send buffer of node `t`, `out t` is
what the copy-out `co` of node `t` delivers from its last block. -/
def Exec {V O : Type} [Add V] (N : Nat) (co : Block → (Nat → V) → O) (sched : Nat → List Block)
    (inp junk : Nat → Nat → V) (out : Nat → O) : Prop :=
  ∃ (b0 : Nat → Block) (bs : Nat → List Block) (last : Nat → Block) (s' : Nat → Nat → V),
    (∀ t, t < N → sched t = b0 t :: bs t ∧ (bs t).getLast? = some (last t)) ∧
    Run N bs (fun t => copyIn (b0 t) (inp t) (junk t)) s' ∧
    ∀ t, t < N → out t = co (last t) (s' t)

end ExtMpi.Schedule
