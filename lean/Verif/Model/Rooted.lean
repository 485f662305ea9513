import Verif.Model.Schedule
/-!
# Schedules of rooted collectives

`/repo/src/mpi/backward_interpreter.c` finds out which communication contributes to the result of the root of a reduce
or gather and marks the rest as dropped by replacing the partner `q` by `-10 - q`. `/repo/src/core/raw_code.c` generates
code for schedules with such entries.

A schedule is a list of rows, a row has one block for every node. All nodes have the same number of blocks.
Simplifications: those of `Model/Schedule.lean`; in addition all messages have the same size, so that the position of a
line in a send or receive buffer is its number there.
-/
namespace ExtMpi.Rooted
open Schedule

/-- The blocks of all nodes that are executed together. -/
abbrev Row := Nat → Block

/-- `values[i]` of one block of one node: whether the lines are needed. The values 1 and 2 of the code are not
distinguished by it (`src/mpi/backward_interpreter.c:9`). -/
abbrev Vals := List Bool

/-- Line `j` is needed. -/
def need (v : Vals) (j : Nat) : Bool := v[j]? == some true

/-- The results of the root are needed (`src/mpi/backward_interpreter.c:54-61`). -/
def seed (root t : Nat) (b : Block) : Vals := b.map fun l => decide (t = root) && l.sendto.any fun e => e.1 == -1

/-- Lines the next block needs (`src/mpi/backward_interpreter.c:95-103`). -/
def inherit (b : Block) (v : Vals) : Vals := (List.range b.length).map (need v)

/-- `src/mpi/backward_interpreter.c:111-115`, `116-119`. -/
def mark (v : Vals) (r : Nat) : Vals := v.set r true

/-- The sources of a needed line are needed (`src/mpi/backward_interpreter.c:104-123`). The assignment to
`values[i - 1][j]` has no effect because these values are still 0. Sources must be lines of the block. -/
def markLine (b : Block) (v : Vals) (j : Nat) : Vals :=
  match b[j]? with
  | some l => if need v j then l.copyreducefrom.foldl mark (l.reducefrom.foldl mark v) else v
  | none => v

/-- The loop over the lines, from the last to the first (`src/mpi/backward_interpreter.c:104`). -/
def descend (b : Block) (v : Vals) : Vals := (List.range b.length).reverse.foldl (markLine b) v

/-- Lines that receive from node `q`, once for every entry (`src/mpi/backward_interpreter.c:134-144`). -/
def recvEnt (b : Block) (q : Nat) : List Nat :=
  b.zipIdx.flatMap fun x => (x.1.recvfrom.filter fun e => e.1 == (q : Int)).map fun _ => x.2

/-- Line of node `q` whose need is reported to line `j` of node `t` (`src/mpi/backward_interpreter.c:124-146`): the
messages between two nodes are matched in the order in which they are posted. Both nodes post from the last
to the first line. -/
def partnerLine (bt bq : Block) (t q j : Nat) : Option Nat := ((sendIdx bt q).zip (recvEnt bq t)).lookup j

/-- The exchange of needs takes place (`src/mpi/backward_interpreter.c:124-168`): all partners are other nodes
(otherwise `logical error` or an invalid rank), and every message has a receiver (otherwise the code waits forever). -/
def exchangeOk (N : Nat) (row : Row) : Bool :=
  (List.range N).all fun t =>
    ((row t).all fun l =>
      (l.sendto.all fun e => decide (0 ≤ e.1 ∧ e.1 < N ∧ e.1 ≠ t)) && l.recvfrom.all fun e => decide (0 ≤ e.1 ∧ e.1 < N ∧ e.1 ≠ t)) &&
    (List.range N).all fun q => (sendIdx (row t) q).length == (recvEnt (row q) t).length

/-- Line `j` of node `t` is needed by the node `q` to which it is sent (`src/mpi/backward_interpreter.c:152`). -/
def wanted (row : Row) (v : Nat → Vals) (t : Nat) (q : Int) (j : Nat) : Bool :=
  match partnerLine (row t) (row q.toNat) t q.toNat j with
  | some k => need (v q.toNat) k
  | none => false

/-- Values after the exchange (`src/mpi/backward_interpreter.c:147-166`). -/
def exchange (row : Row) (v : Nat → Vals) (t : Nat) : Vals :=
  (row t).mapIdx fun j l => (l.sendto.any fun e => wanted row v t e.1 j) || need (v t) j

/-- Sends nobody needs are dropped (`src/mpi/backward_interpreter.c:154-155`). -/
def dropSends (row : Row) (v : Nat → Vals) (t j : Nat) (l : LineD) : LineD :=
  { l with sendto := l.sendto.map fun e => if wanted row v t e.1 j then e else (-10 - e.1, e.2) }

/-- A line that is not needed keeps its sends only (`src/mpi/backward_interpreter.c:189-219`). -/
def dropLine (v : Vals) (j : Nat) (l : LineD) : LineD :=
  if !need v j then
    { l with recvfrom := l.recvfrom.map (fun e => (-10 - e.1, e.2)), reducefrom := [], copyreducefrom := [] }
  else l

/-- One block without exchange: the first and the last one (`src/mpi/backward_interpreter.c:124`, `147`). -/
def endBlock (v : Vals) (b : Block) : Block := b.mapIdx (dropLine v)

/-- One block in between. -/
def midBlock (row : Row) (v : Nat → Vals) (t : Nat) : Block :=
  (row t).mapIdx fun j l => dropLine (exchange row v t) j (dropSends row v t j l)

/-- `ext_mpi_generate_backward_interpreter` (`src/mpi/backward_interpreter.c:8-254`): the new rows and the values of the
first of them. `first` tells whether the list starts with block 0. -/
def prune (N root : Nat) : Bool → List Row → Option (List Row × (Nat → Vals))
  | _, [] => none
  | _, [last] =>
    let v := fun t => descend (last t) (seed root t (last t))
    some ([fun t => endBlock (v t) (last t)], v)
  | first, row :: next :: rows =>
    match prune N root false (next :: rows) with
    | none => none
    | some (rows', vn) =>
      let v := fun t => descend (row t) (inherit (row t) (vn t))
      if first then some ((fun t => endBlock (v t) (row t)) :: rows', v)
      else if exchangeOk N row then some (midBlock row v :: rows', exchange row v)
      else none

/-! ### Execution of schedules with dropped entries -/

/-- Entries packed for node `q`, in this order; the flag is false for a dropped entry
(`src/core/raw_code.c:125-172`). -/
def sendEnt (b : Block) (q : Nat) : List (Nat × Bool) :=
  b.zipIdx.flatMap fun x => x.1.sendto.filterMap fun e =>
    if e.1 == (q : Int) then some (x.2, true) else if e.1 == -10 - (q : Int) then some (x.2, false) else none

/-- Packing: kept lines are written at `add`, dropped ones at `adds`, both into the same buffer
(`src/core/raw_code.c:127-170`). -/
def pack {V : Type} (v : Nat → V) : List (Nat × Bool) → Nat → Nat → (Nat → V) → Nat → V
  | [], _, _, buf => buf
  | (n, true) :: es, add, adds, buf => pack v es (add + 1) adds (upd buf add (v n))
  | (n, false) :: es, add, adds, buf => pack v es add (adds + 1) (upd buf adds (v n))

/-- Message for node `q`: as many lines as are kept (`src/core/raw_code.c:173-187`). -/
def messageD {V : Type} (b : Block) (v : Nat → V) (q : Nat) (dirt : Nat → V) : List (Option Nat × V) :=
  (sendIdx b q).zipIdx.map fun x => (fracOf b x.1, pack v (sendEnt b q) 0 0 dirt x.2)

/-- Lines with a dropped entry for node `q` (`src/core/raw_code.c:84-87`). -/
def deadIdx (b : Block) (q : Nat) : List Nat :=
  (b.zipIdx.filter fun x => x.1.recvfrom.any fun e => e.1 == -10 - (q : Int)).map fun x => x.2

/-- Lines with a kept or dropped entry for node `q` (`src/core/raw_code.c:224-232`). -/
def allIdx (b : Block) (q : Nat) : List Nat :=
  (b.zipIdx.filter fun x => x.1.recvfrom.any fun e => e.1 == (q : Int) || e.1 == -10 - (q : Int)).map fun x => x.2

/-- Receive buffers allocated for node `q`: one for the message and one for the dropped lines, which is never
filled (`src/core/raw_code.c:91-119`). A buffer is given by what it contains, `none` where nothing is received. The
outer `none`: the message does not have the size of the receive. -/
def bufsOf {V : Type} (b : Block) (q : Nat) (msg : List (Option Nat × V)) : Option (List (Nat → Option V)) :=
  if msg.map Prod.fst = (recvIdx b q).map (fracOf b) then
    some ((if recvIdx b q = [] then [] else [fun x => (msg[x]?).map Prod.snd]) ++
      (if deadIdx b q = [] then [] else [fun _ => none]))
  else none

/-- Contents of the receive buffers in the order of their numbers (`src/core/raw_code.c:72-120`). -/
def allBufs {V : Type} (b : Block) (node : Nat) (msgs : Nat → List (Option Nat × V)) :
    List Nat → Option (List (Nat → Option V))
  | [] => some []
  | q :: qs =>
    if q = node then allBufs b node msgs qs
    else match bufsOf b q (msgs q), allBufs b node msgs qs with
      | some x, some y => some (x ++ y)
      | _, _ => none

/-- The last line with an entry for `q` lists the node itself first (`src/core/raw_code.c:231`, `250-251`). -/
def reducesD (b : Block) (node q : Nat) : Bool :=
  match (allIdx b q).getLast? with
  | none => false
  | some k =>
    match (b[k]?).bind fun l => l.recvfrom.head? with
    | some e => e.1 == (node : Int) || e.1 == -10 - (node : Int)
    | none => false

/-- Unpacking of one buffer: as many lines as have kept or dropped entries for `q`, from the first of them on
(`src/core/raw_code.c:219-267`). `dirt` are the contents of memory to which nothing was received. -/
def unpack {V : Type} [Add V] (b : Block) (node q : Nat) (buf : Nat → Option V) (dirt : Nat → V) (v : Nat → V) :
    Option (Nat → V) :=
  match allIdx b q with
  | [] => some v
  | n0 :: ns =>
    if (n0 :: ns).map (fracOf b) = (List.range' n0 (ns.length + 1)).map (fracOf b) then
      some fun n =>
        if n0 ≤ n ∧ n < n0 + (ns.length + 1) then
          let x := match buf (n - n0) with | some x => x | none => dirt (n - n0)
          if reducesD b node q then v n + x else x
        else v n
    else none

/-- Unpacking of all messages; `buffer_counter` takes one buffer for every node with kept or dropped entries
(`src/core/raw_code.c:218-267`). -/
def unpackAll {V : Type} [Add V] (b : Block) (node : Nat) (dirt : Nat → Nat → V) :
    List Nat → List (Nat → Option V) → (Nat → V) → Option (Nat → V)
  | [], _, v => some v
  | q :: qs, bufs, v =>
    if q = node ∨ allIdx b q = [] then unpackAll b node dirt qs bufs v
    else match bufs with
      | [] => none
      | c :: cs =>
        match unpack b node q c (dirt q) v with
        | some v' => unpackAll b node dirt qs cs v'
        | none => none

/-- Order in which messages are received (`src/core/raw_code.c:72-73`, `218-219`). -/
def order (N node : Nat) : List Nat := (List.range N).map fun o => (N + node - o) % N

/-- One block on node `t` (`src/core/raw_code.c:68-331`). `sd q` are the contents of the send buffer of node `q` before
packing. -/
def nodeStepD {V : Type} [Add V] (N : Nat) (row : Row) (sd rd : Nat → Nat → V) (s : Nat → Nat → V) (t : Nat) :
    Option (Nat → V) :=
  match allBufs (row t) t (fun q => messageD (row q) (s q) t (sd q)) (order N t) with
  | none => none
  | some bufs => (unpackAll (row t) t rd (order N t) bufs (s t)).map fun v => copyReduceAll (row t) (reduceAll (row t) v)

/-- Execution of the remaining rows. The contents of unused memory are arbitrary in every step. -/
inductive RunD {V : Type} [Add V] (N : Nat) : List Row → (Nat → Nat → V) → (Nat → Nat → V) → Prop
  | done {s} : RunD N [] s s
  | step {row rows s s''} (s' : Nat → Nat → V) (sd rd : Nat → Nat → Nat → V) :
      (∀ t, t < N → nodeStepD N row (sd t) (rd t) s t = some (s' t)) → RunD N rows s' s'' → RunD N (row :: rows) s s''

/-- Execution of a collective, see `Schedule.Exec`. -/
def ExecD {V O : Type} [Add V] (N : Nat) (co : Block → (Nat → V) → O) (rows : List Row)
    (inp junk : Nat → Nat → V) (out : Nat → O) : Prop :=
  ∃ (r0 : Row) (rs : List Row) (last : Row) (s' : Nat → Nat → V),
    rows = r0 :: rs ∧ rs.getLast? = some last ∧
    RunD N rs (fun t => copyIn (r0 t) (inp t) (junk t)) s' ∧
    ∀ t, t < N → out t = co (last t) (s' t)

end ExtMpi.Rooted
