import Verif.Model.Schedule
/-!
# The recursive algorithms

`/repo/src/core/allreduce_recursive.c`. The generators fill zeroed line arrays in loops over lines
and ports; here every block is given as a function of the position `x` of the line, split into
region `x / lines_base` and line `x % lines_base` where the code uses several regions. Each position is
assigned at most once by the loops, so the order of the assignments does not matter. `num_ports` is
a list without the terminating zero. Allocation failures are not modelled.
-/
namespace ExtMpi.Recursive
open Schedule

/-- Line array of length `L`. -/
def mk (L : Nat) (f : Nat → LineD) : Block := (List.range L).map f

/-- Partner number `i` of `task` in a group of `big` nodes with stride `small`
(`src/core/allreduce_recursive.c:44`, `56`, `127`, `148`). -/
def partner (small big task i : Nat) : Nat := (task + small * (i + 1)) % big + task / big * big

/-- Number of the partner responsible for `line` (`src/core/allreduce_recursive.c:51-55`,
`122-126`). The subtractions do not become negative for lines of the group of `task`. -/
def partnerIndex (small big task line : Nat) : Nat :=
  if line / small > task / small then (big + line / small - task / small - 1) % big
  else (big + line / small - task / small) % big - 1

/-- `allgather_core`, block 0 (`src/core/allreduce_recursive.c:13-28`). -/
def gatherFirst (lines task : Nat) : Block :=
  mk lines fun line =>
    { frac := line, recvfrom := if line = task then [(-1, 0)] else [] }

/-- Sends of a gather step (`src/core/allreduce_recursive.c:38-46`, `414-422`). -/
def gatherSend (gb gn p task line : Nat) : List (Int × Int) :=
  if line / gn = task / gn ∧ line / gb = task / gb then
    (List.range p).map fun i => ((partner gb gn task i : Int), (line : Int))
  else []

/-- Receives of a gather step (`src/core/allreduce_recursive.c:47-58`, `423-434`). -/
def gatherRecv (gb gn task line : Nat) : List (Int × Int) :=
  if line / gn = task / gn ∧ line / gb ≠ task / gb then
    [((partner gb gn task (partnerIndex gb gn task line) : Int), (line : Int))]
  else []

/-- `allgather_core`, one step (`src/core/allreduce_recursive.c:30-61`). -/
def gatherBlock (lines gb p task : Nat) : Block :=
  mk lines fun line =>
    { frac := line
      sendto := gatherSend gb (gb * (p + 1)) p task line
      recvfrom := gatherRecv gb (gb * (p + 1)) task line }

/-- `allgather_core`, last block (`src/core/allreduce_recursive.c:62-73`). -/
def gatherLast (lines : Nat) : Block :=
  mk lines fun line => { frac := line, sendto := [(-1, (line : Int))] }

/-- The loop over the steps (`src/core/allreduce_recursive.c:30`). -/
def gatherSteps (lines task : Nat) : Nat → List Nat → List Block
  | _, [] => []
  | gb, p :: ps => gatherBlock lines gb p task :: gatherSteps lines task (gb * (p + 1)) ps

/-- Product of the group sizes (`src/core/allreduce_recursive.c:13-16`, `82-85`, `227-232`). -/
def factor (ps : List Nat) : Nat := (ps.map (· + 1)).prod

/-- `allgather_core` (`src/core/allreduce_recursive.c:8-75`). -/
def allgather (ports : List Nat) (task : Nat) : List Block :=
  gatherFirst (factor ports) task :: (gatherSteps (factor ports) task 1 ports ++
    [gatherLast (factor ports)])

/-- `reduce_scatter_core` and `allreduce_core`, block 0
(`src/core/allreduce_recursive.c:86-99`, `233-246`). -/
def reduceFirst (lb : Nat) : Block :=
  mk (2 * lb) fun x =>
    if x < lb then { frac := x, recvfrom := [(-1, (x : Int))] } else { frac := x - lb }

/-- Sends of a reduction step with `p` ports (`src/core/allreduce_recursive.c:117-140`). -/
def reduceSend (gb p task : Nat) (first : Bool) (r line : Nat) : List (Int × Int) :=
  let gn := gb / (p + 1)
  if line / gb = task / gb ∧ line / gn ≠ task / gn ∧ r = (if first then 0 else 2) then
    [((partner gn gb task (partnerIndex gn gb task line) : Int), (line : Int))]
  else []

/-- Receives of a reduction step (`src/core/allreduce_recursive.c:142-184`). -/
def reduceRecv (gb p task : Nat) (first last : Bool) (r line : Nat) : List (Int × Int) :=
  let gn := gb / (p + 1)
  if line / gb = task / gb ∧ line / gn = task / gn then
    if last then
      if r = 1 then [((partner gn gb task (p - 1) : Int), (line : Int))]
      else if 3 ≤ r ∧ r < 3 + (p - 1) then [((partner gn gb task (r - 3) : Int), (line : Int))]
      else []
    else if first then
      if 2 ≤ r ∧ r < 2 + p then [((partner gn gb task (r - 2) : Int), (line : Int))] else []
    else
      if 3 ≤ r ∧ r < 3 + p then [((partner gn gb task (r - 3) : Int), (line : Int))] else []
  else []

/-- Local reductions of a reduction step (`src/core/allreduce_recursive.c:151-155`, `164-169`,
`185-196`). -/
def reduceFrom (lb gb p task : Nat) (first last : Bool) (r line : Nat) : List Nat :=
  let gn := gb / (p + 1)
  if line / gb = task / gb ∧ line / gn = task / gn ∧ r = (if last then 1 else 2) then
    if first then (List.range p).map fun i => if i = 0 then line else line + (2 + i) * lb
    else if last then (List.range p).map fun i => line + (2 + i) * lb
    else (List.range p).map fun i => line + (3 + i) * lb
  else []

/-- `reduce_scatter_core`, one step (`src/core/allreduce_recursive.c:103-201`), also used by
`allreduce_core` (`249-347`). -/
def reduceBlock (lb gb p task : Nat) (first last : Bool) : Block :=
  mk ((if last then 2 + p else 3 + p) * lb) fun x =>
    { frac := x % lb
      sendto := reduceSend gb p task first (x / lb) (x % lb)
      recvfrom := reduceRecv gb p task first last (x / lb) (x % lb)
      reducefrom := reduceFrom lb gb p task first last (x / lb) (x % lb) }

/-- The loop over the steps (`src/core/allreduce_recursive.c:103-104`, `249-250`). The arguments are the
magnitudes of the port counts. -/
def reduceSteps (lb task : Nat) : Bool → Nat → List Nat → List Block
  | _, _, [] => []
  | first, gb, p :: ps =>
    reduceBlock lb gb p task first ps.isEmpty :: reduceSteps lb task false (gb / (p + 1)) ps

/-- `reduce_scatter_core`, last block (`src/core/allreduce_recursive.c:202-218`). -/
def scatterLast (lb task : Nat) : Block :=
  mk (2 * lb) fun x =>
    if x < lb then { frac := x }
    else { frac := x - lb, sendto := if x - lb = task then [(-1, ((x - lb : Nat) : Int))] else [] }

/-- `reduce_scatter_core` (`src/core/allreduce_recursive.c:77-220`) for port counts of magnitude
`ports`. -/
def reduceScatter (ports : List Nat) (task : Nat) : List Block :=
  reduceFirst (factor ports) ::
    (reduceSteps (factor ports) task true (factor ports) ports ++ [scatterLast (factor ports) task])

/-- `allreduce_core`, one middle step (`src/core/allreduce_recursive.c:349-405`): all lines of the
middle group (`gbm`) are exchanged and reduced. -/
def middleBlock (lb gbm gb p task : Nat) (first : Bool) : Block :=
  let gn := gb * (p + 1)
  mk ((if first then p + 1 else p + 2) * lb) fun x =>
    let r := x / lb
    let line := x % lb
    let base := if first then 1 else 2
    let own := decide (line / gbm = task / gbm)
    { frac := line
      sendto :=
        if own ∧ r = (if first then 0 else 1) then
          (List.range p).map fun i => ((partner gb gn task i : Int), (line : Int))
        else []
      recvfrom :=
        if own ∧ base ≤ r ∧ r < base + p then
          [((partner gb gn task (r - base) : Int), (line : Int))]
        else []
      reducefrom :=
        if own ∧ r = 1 then
          if first then (List.range p).map fun i => if i = 0 then line else line + (i + 1) * lb
          else (List.range p).map fun i => line + (i + 2) * lb
        else [] }

/-- The loop over the middle steps (`src/core/allreduce_recursive.c:349`) together with the step
numbers left for the gather phase. When the list ends before the group is complete the code does
not terminate; the model stops. -/
def middleSteps (lb gbm task : Nat) : Bool → Nat → List Nat → List Block × Nat × List Nat
  | _, gb, [] => ([], gb, [])
  | first, gb, p :: ps =>
    if gb < gbm then
      let rest := middleSteps lb gbm task false (gb * (p + 1)) ps
      (middleBlock lb gbm gb p task first :: rest.1, rest.2)
    else ([], gb, p :: ps)

/-- `allreduce_core`, one gather step (`src/core/allreduce_recursive.c:406-437`). -/
def gatherBlock2 (lb gb p task : Nat) : Block :=
  mk (2 * lb) fun x =>
    { frac := x % lb
      sendto := if x / lb = 1 then gatherSend gb (gb * (p + 1)) p task (x % lb) else []
      recvfrom := if x / lb = 1 then gatherRecv gb (gb * (p + 1)) task (x % lb) else [] }

/-- The loop over the gather steps (`src/core/allreduce_recursive.c:406`). -/
def gatherSteps2 (lb task : Nat) : Nat → List Nat → List Block
  | _, [] => []
  | gb, p :: ps => gatherBlock2 lb gb p task :: gatherSteps2 lb task (gb * (p + 1)) ps

/-- `allreduce_core`, last block (`src/core/allreduce_recursive.c:438-451`). -/
def allreduceLast (lb : Nat) : Block :=
  mk (2 * lb) fun x =>
    { frac := x % lb, sendto := if x ≥ lb then [(-1, ((x % lb : Nat) : Int))] else [] }

/-- Group size left by the reduction steps (`src/core/allreduce_recursive.c:248-249`, `348`). -/
def middleSize : Nat → List Nat → Nat
  | gb, [] => gb
  | gb, p :: ps => middleSize (gb / (p + 1)) ps

/-- `allreduce_core` (`src/core/allreduce_recursive.c:222-453`): `negs` are the magnitudes of the leading
negative port counts, `ports` the positive port counts after them. -/
def allreduce (negs ports : List Nat) (task : Nat) : List Block :=
  let lb := factor ports
  let gbm := middleSize lb negs
  let mid := middleSteps lb gbm task negs.isEmpty 1 ports
  reduceFirst lb :: (reduceSteps lb task true lb negs ++ mid.1 ++ gatherSteps2 lb task mid.2.1 mid.2.2 ++
    [allreduceLast lb])

/-- `ext_mpi_generate_allreduce_recursive` (`src/core/allreduce_recursive.c:466-476`): choice of the
generator. `none`: the list of ports is empty, the code reads before its start. A negative port
count after a positive one is not meaningful; the code would take it as a (negative) number of ports,
also `none`. -/
def generate (allgatherv : Bool) (ports : List Int) (task : Nat) : Option (List Block) :=
  if allgatherv then
    if ports.all (0 < ·) then some (allgather (ports.map Int.toNat) task) else none
  else
    match ports.getLast? with
    | none => none
    | some l =>
      if l < 0 then some (reduceScatter (ports.map Int.natAbs) task)
      else
        let negs := ports.takeWhile (· < 0)
        let rest := ports.dropWhile (· < 0)
        if rest.all (0 < ·) then some (allreduce (negs.map Int.natAbs) (rest.map Int.toNat) task)
        else none

end ExtMpi.Recursive
