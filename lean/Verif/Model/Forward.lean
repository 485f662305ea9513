import Verif.Model.Rooted
/-!
# Schedules of broadcasts and scatters

`/repo/src/mpi/forward_interpreter.c` finds out which lines hold data of the root. It drops the communication of other lines,
and reductions become copies where only one operand is left. The result is executed like in `Model/Rooted.lean`.

Simplifications: those of `Model/Rooted.lean`. The first copy of the data by the root is the code for `root <= -10`
or for a reduce_scatter in `/repo/src/core/reduce_copyin.c:487-514`, not the one of `Schedule.copyIn`.
-/
namespace ExtMpi.Forward
open Schedule Rooted

/-- `values[i]` of one block: 0 no data of the root, 1 data from before, 2 data received now
(`src/mpi/forward_interpreter.c:10`). -/
abbrev Marks := List Nat

/-- Value of line `j`. -/
def val (v : Marks) (j : Nat) : Nat := match v[j]? with | some x => x | none => 0

/-- Values of block 0 (`src/mpi/forward_interpreter.c:51-62`). -/
def seedF (root t : Nat) (b : Block) : Marks :=
  b.map fun l => if t = root ∧ (l.recvfrom.any fun e => e.1 == -1) = true then 2 else 0

/-- Other nodes than the root do not copy in (`src/mpi/forward_interpreter.c:63-70`). -/
def clearIn (root t : Nat) (b : Block) : Block :=
  b.map fun l => if t ≠ root ∧ (l.recvfrom.any fun e => e.1 == -1) = true then { l with recvfrom := [] } else l

/-- Lines that held data before, and results (`src/mpi/forward_interpreter.c:106-119`). `own` are the values the block
has at this point, which is different from 0 in block 0 only. -/
def carry (prev own : Marks) (b : Block) : Marks :=
  b.mapIdx fun j l =>
    if (l.sendto.head?).map (fun e => e.1) = some (-1) then 1 else if val prev j ≠ 0 then 1 else val own j

/-- Line of node `q` whose value line `j` of node `t` gets (`src/mpi/forward_interpreter.c:120-145`): the messages between
two nodes are matched in the order in which they are posted. If a line listed a node twice the code would
use the second of the messages. -/
def sourceLine (bt bq : Block) (t q j : Nat) : Option Nat := ((recvEnt bt q).zip (sendIdx bq t)).lookup j

/-- Value received by line `j` of node `t` from node `q` (`src/mpi/forward_interpreter.c:129`, `137`). -/
def incoming (row : Row) (v : Nat → Marks) (t : Nat) (q : Int) (j : Nat) : Nat :=
  match sourceLine (row t) (row q.toNat) t q.toNat j with
  | some k => val (v q.toNat) k
  | none => 0

/-- Values after the exchange (`src/mpi/forward_interpreter.c:146-160`). -/
def exchangeF (row : Row) (v : Nat → Marks) (t : Nat) : Marks :=
  (row t).mapIdx fun j l =>
    l.recvfrom.foldl (fun x e =>
      if incoming row v t e.1 j ≠ 0 then 2
      else if l.reducefrom = [] ∧ l.copyreducefrom = [] then 0 else x) (val (v t) j)

/-- Partner of a dropped entry (`src/mpi/forward_interpreter.c:165-167`, `172-174`). -/
def drop (e : Int × Int) : Int × Int := if 0 ≤ e.1 then (-10 - e.1, e.2) else e

/-- Sends and receives of one line (`src/mpi/forward_interpreter.c:163-176`). -/
def dropF (v : Marks) (j : Nat) (l : LineD) : LineD :=
  { l with
    sendto := if val v j = 0 then l.sendto.map drop else l.sendto
    recvfrom := if val v j < 2 then l.recvfrom.map drop else l.recvfrom }

/-- Values after dropping (`src/mpi/forward_interpreter.c:177-184`). The second loop of the code finds nothing: all
nodes from 0 on were replaced. -/
def settle (v : Marks) (b : Block) : Marks :=
  b.mapIdx fun j l => if val v j < 2 ∧ l.recvfrom ≠ [] then 0 else val v j

/-- Sources with data (`src/mpi/forward_interpreter.c:197-205`, `220-228`): the loop starts again after each removal. -/
def valued (v : Marks) (rs : List Nat) : List Nat := rs.filter fun r => val v r != 0

/-- Reductions of one line (`src/mpi/forward_interpreter.c:188-233`). -/
def reduceF (v : Marks) (j : Nat) (l : LineD) : LineD × Nat :=
  -- no data yet: reductions become copies
  let l1 := if val v j = 0 ∧ l.reducefrom ≠ [] ∧ l.copyreducefrom = [] then
      { l with reducefrom := [], copyreducefrom := l.reducefrom } else l
  let l2 := if val v j = 0 then { l1 with copyreducefrom := valued v l1.copyreducefrom } else l1
  let x := if l2.copyreducefrom ≠ [] then 1 else val v j
  (if x ≠ 0 then { l2 with reducefrom := valued v l2.reducefrom } else l2, x)

/-- The loop over the lines (`src/mpi/forward_interpreter.c:187`): the lines done, the values and the lines left. -/
def reduceLoop (v : Marks) : Nat → Block → Block × Marks
  | _, [] => ([], v)
  | j, l :: ls =>
    let r := reduceF v j l
    let p := reduceLoop (v.set j r.2) (j + 1) ls
    (r.1 :: p.1, p.2)

/-- One block of one node once the values are exchanged (`src/mpi/forward_interpreter.c:162-234`). -/
def finish (v : Marks) (b : Block) : Block × Marks :=
  reduceLoop (settle v b) 0 (b.mapIdx (dropF v))

/-- Blocks after block 0 (`src/mpi/forward_interpreter.c:105-235`); `prev` are the values of the row before. `none`: the
code ends with an error, or waits forever. -/
def forwardRows (N : Nat) (prev : Nat → Marks) : List Row → Option (List Row × (Nat → Marks))
  | [] => some ([], prev)
  | [last] =>
    let f := fun t => finish (carry (prev t) [] (last t)) (last t)
    some ([fun t => (f t).1], fun t => (f t).2)
  | row :: next :: rows =>
    if exchangeOk N row then
      let v := fun t => carry (prev t) [] (row t)
      let f := fun t => finish (exchangeF row v t) (row t)
      match forwardRows N (fun t => (f t).2) (next :: rows) with
      | some (rows', v') => some ((fun t => (f t).1) :: rows', v')
      | none => none
    else none

/-- `ext_mpi_generate_forward_interpreter` (`src/mpi/forward_interpreter.c:8-263`). `root` is the number of the node
of the root, which the code compares with `-10 - root` or `root`. -/
def forward (N root : Nat) : List Row → Option (List Row × (Nat → Marks))
  | [] => none
  | r0 :: rows =>
    let f := fun t => finish (carry [] (seedF root t (r0 t)) (clearIn root t (r0 t))) (clearIn root t (r0 t))
    match forwardRows N (fun t => (f t).2) rows with
    | some (rows', v') => some ((fun t => (f t).1) :: rows', v')
    | none => none

/-- Copy-in of the root: message `(i + root) % N` is copied to line `i`; no other node copies
(`src/core/reduce_copyin.c:487-514`). -/
def copyInRoot {V : Type} (N root t : Nat) (inp junk : Nat → V) : Nat → V := fun n =>
  if t = root ∧ n < N then inp ((n + root) % N) else junk n

/-- Execution of a broadcast or scatter: `inp` are the messages in the buffer of the root. -/
def ExecF {V O : Type} [Add V] (N root : Nat) (co : Block → (Nat → V) → O) (rows : List Row)
    (inp : Nat → V) (junk : Nat → Nat → V) (out : Nat → O) : Prop :=
  ∃ (r0 : Row) (rs : List Row) (last : Row) (s' : Nat → Nat → V),
    rows = r0 :: rs ∧ rs.getLast? = some last ∧
    RunD N rs (fun t => copyInRoot N root t inp (junk t)) s' ∧
    ∀ t, t < N → out t = co (last t) (s' t)

end ExtMpi.Forward
