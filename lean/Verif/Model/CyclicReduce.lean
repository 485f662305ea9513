import Verif.Model.Recursive
/-!
# The cyclic reduce_scatter and allreduce

`allreduce_core`, `get_size_level1b`, `get_lines_used` and `delete_lines` of
`/repo/src/core/allreduce_single.c`. As in `Model/Recursive.lean` every block is given as a function of
the line; `fr` is the number of the message (`frac`) of the lines of the block before. `negs` are the
magnitudes of the leading negative port counts, `ports` the positive ones after them. Allocation
failures are not modelled. Differences of C that are only compared are written as sums.
-/
namespace ExtMpi.CyclicReduce
open Schedule

/-- `(a - 1) / (p + 1) + 1`: lines left on a node after a reduction step with `p` ports
(`src/core/allreduce_single.c:101`, `213`, also the group sizes `src/core/allreduce_single.c:205`). -/
def chunk (a p : Nat) : Nat := (a - 1) / (p + 1) + 1

/-- The variable `min` of `get_size_level1b` after the negative ports
(`src/core/allreduce_single.c:97-105`, `115-121`). -/
def chunks : Nat → List Nat → Nat
  | a, [] => a
  | a, p :: ps => chunks (chunk a p) ps

/-- Block 0 (`src/core/allreduce_single.c:191-201`). -/
def firstBlock (N task : Nat) : Block :=
  Recursive.mk N fun line => { frac := (line + task) % N, recvfrom := [(-1, (line : Int))] }

/-- The exchange of a reduction step (`src/core/allreduce_single.c:206-231`). `S` lines are cut into
chunks of `j` lines; all but the first chunk are sent away. The line appended for line `x` of the
partner has number `S - j + x`. -/
def scatterBlock (N gb S p task : Nat) (fr : Nat → Nat) : Block :=
  let j := chunk S p
  Recursive.mk (S + (S - j)) fun line =>
    if line < S then
      { frac := fr line
        sendto :=
          if line / j > 0 then [((((task + gb * (line / j)) % N : Nat) : Int), ((line % j : Nat) : Int))]
          else [] }
    else
      let x := line - S + j
      { frac := fr (x % j)
        recvfrom := [(((N : Int) + task - (gb : Int) * ((x / j : Nat) : Int)).tmod N, (x : Int))] }

/-- Message number of a line of `scatterBlock`: the lines appended for receiving have the number of the
line they are reduced to (`src/core/allreduce_single.c:209-211`, `221`). -/
def scatterNum (S p : Nat) (fr : Nat → Nat) (line : Nat) : Nat :=
  if line < S then fr line else fr ((line - S + chunk S p) % chunk S p)

/-- The reductions after the exchange (`src/core/allreduce_single.c:233-247`). -/
def scatterReduce (S p : Nat) (fr : Nat → Nat) : Block :=
  let L := S + (S - chunk S p)
  Recursive.mk L fun line =>
    { frac := scatterNum S p fr line
      reducefrom :=
        if line < S then
          (List.range' S (L - S)).filter fun x => scatterNum S p fr line == scatterNum S p fr x
        else [] }

/-- The loop over the negative ports (`src/core/allreduce_single.c:204-250`). `gb` is `gbstep` before
its division by the port of the step. -/
def scatterSteps (N task : Nat) (fr : Nat → Nat) : Nat → Nat → List Nat → List Block
  | _, _, [] => []
  | gb, S, p :: ps =>
    scatterBlock N (chunk gb p) S p task fr :: scatterReduce S p fr ::
      scatterSteps N task fr (chunk gb p) (chunk S p) ps

/-- Number of ports on which a line is sent in a gather step; the cases 1, 2 and 3 of the code
(`src/core/allreduce_single.c:257-264`, `273-296`). `S` lines after, `s0` lines before the step. -/
def gatherPorts (S s0 p line : Nat) : Nat :=
  if line < s0 ∧ S ≤ line + s0 * p ∧ line + s0 < S then p - 1
  else if line < s0 ∧ S ≤ line + s0 then 0
  else if line < s0 then p
  else 0

/-- Message number of a line of a gather step (`src/core/allreduce_single.c:274`, `284`, `294`, `306`).
`j` of the code is `line % s0`, `frac` of the code is `line / s0`. -/
def gatherFrac (N gb s0 : Nat) (fr : Nat → Nat) (line : Nat) : Nat :=
  if line < s0 then fr line else (fr (line % s0) + N + line / s0 * gb) % N

/-- Partner from which a line is received (`src/core/allreduce_single.c:304`). -/
def gatherNode (N gb s0 task line : Nat) : Nat := (N + task + line / s0 * gb) % N

/-- The exchange of a gather step (`src/core/allreduce_single.c:254-308`). -/
def gatherBlock (N gb S s0 p task : Nat) (fr : Nat → Nat) : Block :=
  Recursive.mk S fun line =>
    { frac := gatherFrac N gb s0 fr line
      sendto := (List.range (gatherPorts S s0 p line)).map fun i : Nat =>
        (((N : Int) + task - ((i : Int) + 1) * gb).tmod N, ((line + s0 * (i + 1) : Nat) : Int))
      recvfrom :=
        if line < s0 then [] else [((gatherNode N gb s0 task line : Int), ((line % s0 : Nat) : Int))] }

/-- Line from which a received line is reduced: the nearest earlier one with the same number that
does not come in the same message (`src/core/allreduce_single.c:318-323`). -/
def gatherSource (N gb s0 task : Nat) (fr : Nat → Nat) (line : Nat) : Option Nat :=
  (List.range line).reverse.find? fun j =>
    gatherFrac N gb s0 fr j == gatherFrac N gb s0 fr line &&
      (decide (j < s0) || gatherNode N gb s0 task line != gatherNode N gb s0 task j)

/-- The reductions of a gather step (`src/core/allreduce_single.c:310-331`). -/
def gatherReduce (N gb S s0 task : Nat) (fr : Nat → Nat) : Block :=
  Recursive.mk S fun line =>
    { frac := gatherFrac N gb s0 fr line
      reducefrom := if line < s0 then [] else (gatherSource N gb s0 task fr line).toList }

/-- The loop over the positive ports, with the message numbers at its end
(`src/core/allreduce_single.c:252-333`). `m` is `min` and `gb` is `gbstep`, which is also `ret` of
`get_size_level1b` with `flag = 0`; with `flag = 1` it includes the port of the step and is bounded by the
number of nodes (`src/core/allreduce_single.c:96-124`). -/
def gatherSteps (N m task : Nat) : Nat → (Nat → Nat) → List Nat → List Block × (Nat → Nat)
  | _, fr, [] => ([], fr)
  | gb, fr, p :: ps =>
    let S := m * min (gb * (p + 1)) N
    let rest := gatherSteps N m task (gb * (p + 1)) (gatherFrac N gb (m * gb) fr) ps
    (gatherBlock N gb S (m * gb) p task fr :: gatherReduce N gb S (m * gb) task fr :: rest.1, rest.2)

/-- Last block: the last line of every message number is copied out
(`src/core/allreduce_single.c:337-354`). All numbers are smaller than the number of nodes, so that the loop
over them is left out. -/
def lastBlock (S : Nat) (fr : Nat → Nat) : Block :=
  Recursive.mk S fun line =>
    { frac := fr line
      sendto := if (List.range' (line + 1) (S - line - 1)).all (fun n => fr n != fr line) then
        [(-1, (fr line : Int))] else [] }

/-! ## Unused lines -/

/-- Marking of the sources of one line (`src/core/allreduce_single.c:22-31`). The sources precede the line,
so that they are inside the array. -/
def markLine (line : Nat) (l : LineD) (u : List Bool) : List Bool :=
  if u[line]? = some true then
    let u := match l.reducefrom with
      | r :: _ => u.set r true
      | [] => u
    match l.recvfrom with
    | e :: _ => u.set e.2.toNat true
    | [] => u
  else u

/-- All lines of a block, the last one first (`src/core/allreduce_single.c:21`). -/
def markBlock (b : Block) (u : List Bool) : List Bool :=
  b.zipIdx.foldr (fun x u => markLine x.2 x.1 u) u

/-- All blocks, the last one first (`src/core/allreduce_single.c:20`). -/
def markAll (bs : List Block) (u : List Bool) : List Bool := bs.foldr markBlock u

/-- The `while` loop (`src/core/allreduce_single.c:18-34`). `none`: not finished after `fuel` rounds. -/
def markLoop (bs : List Block) : Nat → List Bool → Option (List Bool)
  | 0, _ => none
  | fuel + 1, u => if markAll bs u = u then some u else markLoop bs fuel (markAll bs u)

/-- `get_lines_used` (`src/core/allreduce_single.c:8-35`). `bs` are the blocks from `block_middle` to the one
before the last. Every round but the last marks a line, `markLoop_some` shows that the fuel suffices. -/
def linesUsed (bs : List Block) (last : Block) : Option (List Bool) :=
  markLoop bs (last.length + 1) (last.map fun l => l.sendto.length == 1)

/-- Number of the line `n` after the deletions. The code deletes one line after the other and
decrements all larger numbers each time (`src/core/allreduce_single.c:64-91`). -/
def renumber (u : List Bool) (n : Nat) : Nat := n - (u.take n).countP (! ·)

/-- A line after the deletions. -/
def renumberLine (u : List Bool) (l : LineD) : LineD :=
  { l with
    sendto := l.sendto.map fun e => if e.1 ≥ 0 then (e.1, (renumber u e.2.toNat : Int)) else e
    recvfrom := l.recvfrom.map fun e => (e.1, (renumber u e.2.toNat : Int))
    reducefrom := l.reducefrom.map (renumber u) }

/-- The entries of the used lines that send to lines that are used
(`src/core/allreduce_single.c:42-62`). `none`: a partner line is outside of the array `lines_used`. -/
def keepSends (u : List Bool) (line : Nat) (l : LineD) : Option LineD :=
  if u[line]? = some true then
    if l.sendto.all fun e => decide (e.2.toNat < u.length) then
      some { l with sendto := l.sendto.filter fun e => u[e.2.toNat]? == some true }
    else none
  else some l

/-- Removal of the unused lines of a block (`src/core/allreduce_single.c:63-91`). -/
def dropLines (u : List Bool) (b : Block) : Block :=
  (b.zipIdx.filter fun x => u[x.2]? == some true).map fun x => renumberLine u x.1

/-- `delete_lines` (`src/core/allreduce_single.c:37-94`). -/
def deleteLines (bs : List Block) (last : Block) : Option (List Block) := do
  let u ← linesUsed bs last
  let bs ← bs.mapM fun b => b.zipIdx.mapM fun x => keepSends u x.2 x.1
  return (bs ++ [last]).map (dropLines u)

/-- `allreduce_core` (`src/core/allreduce_single.c:184-360`). Without positive ports nothing is deleted. -/
def core (N : Nat) (negs ports : List Nat) (task : Nat) : Option (List Block) := do
  let fr := fun line => (line + task) % N
  let m := chunks N negs
  let first := firstBlock N task :: scatterSteps N task fr N N negs
  let r := gatherSteps N m task 1 fr ports
  let S := match ports with
    | [] => m
    | _ => m * min (ports.map (· + 1)).prod N
  if ports.isEmpty then return first ++ [lastBlock S fr]
  else
    let rest ← deleteLines r.1 (lastBlock S r.2)
    return first ++ rest

end ExtMpi.CyclicReduce
