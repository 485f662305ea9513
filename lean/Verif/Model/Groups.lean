import Verif.Model.PortChoice
/-!
# Several groups of steps

`get_num_ports_group`, `socket_local`, `socket_global`, `revise_partners`, `expand_frac`, `frac_multiply`,
`revise_frac`, `chancel_copyin_copyout`, `add_lines` and `ext_mpi_generate_allreduce` of
`/repo/src/core/allreduce.c` (`get_ngroups` is in `Model/PortChoice.lean`). The arrays `num_ports` and
`groups` are lists without the terminating 0. `none` stands for undefined behaviour. Allocation failures, the
fixed sizes of the arrays for one group (100) and of the buffers and the binary format between the steps are
not modelled.
-/
namespace ExtMpi.Groups
open Schedule PortChoice

/-- The entries of the groups one after the other; a group ends with a negative entry. An unfinished group at
the end is left out (`src/core/allreduce.c:67-71`, `77-81`, `89-94`). -/
def cut : List (Int × Int) → List (List (Int × Int))
  | [] => []
  | e :: es =>
    if e.2 < 0 then [e] :: cut es
    else
      match cut es with
      | [] => []
      | s :: ss => (e :: s) :: ss

/-- `get_num_ports_group` (`src/core/allreduce.c:55-104`) without the pseudo group for a missing middle: the
ports and group sizes of the group of a step. Negative steps are reductions before the middle, positive ones
are gathers after it. `none`: nothing is written or an entry before the arrays is read. -/
def portsGroup (ports groups : List Int) (step : Int) : Option (List (Int × Int)) :=
  let segs := cut (ports.zip groups)
  let down := ngroupsDown ports groups
  let up := ngroupsUp ports groups
  if step = 0 then segs[down]?
  else if step < 0 then
    if (down : Int) < -step then none else segs[down - step.natAbs]?
  else
    if (up : Int) < step ∨ segs.length < up - step.natAbs + 1 then none else segs[segs.length - 1 - (up - step.natAbs)]?

/-- `abs(group[0])` after a call of `get_num_ports_group` (`src/core/allreduce.c:55-104`). Without a middle
group it is 1 for the step 0 (`src/core/allreduce.c:61-66`). -/
def sizeAt (ports groups : List Int) (step : Int) : Option Nat :=
  if step = 0 ∧ ngroupsMiddle ports groups ≤ 0 then some 1
  else (portsGroup ports groups step).bind fun s => s.head?.map fun e => e.2.natAbs

/-- The sizes of the groups of the steps `step, …, ±1, 0` (the loops `src/core/allreduce.c:110-117`,
`130-137`, `165-172`). -/
def sizesTo (ports groups : List Int) (step : Int) : Option (List Nat) :=
  (List.range (step.natAbs + 1)).reverse.mapM fun i : Nat =>
    sizeAt ports groups (if step ≤ 0 then -(i : Int) else (i : Int))

/-- The variable `j` of `socket_local` and `socket_global` (`src/core/allreduce.c:109-117`, `129-137`); the
divisions start with the size of the step 0. -/
def stride (N : Nat) (sizes : List Nat) : Nat := sizes.reverse.foldl (· / ·) N

/-- The result of `socket_local` (`src/core/allreduce.c:106-124`) for a socket that is not negative. -/
def localOf (N : Nat) (sizes : List Nat) (socket : Nat) : Nat :=
  socket / stride N sizes % sizes.head?.getD 1

/-- `components[0]` (`src/core/allreduce.c:118`). -/
def comp0 (N : Nat) (sizes : List Nat) (socket : Nat) : Nat := socket % stride N sizes

/-- `components[1]` (`src/core/allreduce.c:119`). -/
def comp1 (N : Nat) (sizes : List Nat) (socket : Nat) : Nat := socket / stride N sizes / sizes.head?.getD 1

/-- The result of `socket_global` (`src/core/allreduce.c:126-143`) for a local number that is not negative, with
the components of `socket`. -/
def globalOf (N : Nat) (sizes : List Nat) (socket l : Nat) : Nat :=
  (l + sizes.head?.getD 1 * comp1 N sizes socket) * stride N sizes + comp0 N sizes socket

/-- `expand_frac` (`src/core/allreduce.c:176-198`): the entries written to `fracs`. The offset of a part,
`get_num_fracs / abs(group[0])` (`src/core/allreduce.c:162-174`, `185`), is the number of entries of the
parts before. -/
def expandFrac (N : Nat) : List Nat → Nat → List Nat
  | [], _ => []
  | [g], socket =>
    (List.range g).map fun i => ((i + socket / (N / g) * g) % g * (N / g) + socket) % N
  | g :: g' :: gs, socket =>
    (List.range g).flatMap fun i =>
      expandFrac N (g' :: gs)
        (globalOf N (g :: g' :: gs) socket ((i + localOf N (g :: g' :: gs) socket) % g))

/-- `revise_frac` (`src/core/allreduce.c:238-245`). The loop goes from the last line to the first one, which
is therefore the last one to change. -/
def reviseFrac (g : Nat) (data : List Block) : List Block :=
  let f0 := ((data.head?.bind List.head?).map LineD.frac).getD 0
  data.map fun b => b.map fun l => { l with frac := (g + l.frac - f0) % g }

/-- One line of `frac_multiply` (`src/core/allreduce.c:209-232`). Copies are lost. -/
def multLine (fac : Nat) (fracs : List Nat) (l : LineD) (k : Nat) : Option LineD :=
  (fracs[l.frac * fac + k]?).map fun f =>
    { frac := f
      sendto := l.sendto.map fun e => (e.1, e.2 + k)
      recvfrom := l.recvfrom.map fun e => (e.1, e.2 * fac + k)
      reducefrom := l.reducefrom.map fun r => r * fac + k
      copyreducefrom := [] }

/-- `frac_multiply` (`src/core/allreduce.c:200-236`). `none`: an entry of `fracs` that was not written is
read. -/
def fracMultiply (fac : Nat) (fracs : List Nat) (data : List Block) : Option (List Block) :=
  data.mapM fun b => (b.mapM fun l => (List.range fac).mapM fun k => multLine fac fracs l k).map List.flatten

/-- `socket_global` on a partner (`src/core/allreduce.c:128`, `140-142`). -/
def partner (N : Nat) (sizes : List Nat) (socket : Nat) (e : Int × Int) : Int × Int :=
  if 0 ≤ e.1 then ((globalOf N sizes socket e.1.toNat : Int), e.2) else e

/-- `revise_partners` (`src/core/allreduce.c:145-160`). -/
def revisePartners (N : Nat) (sizes : List Nat) (middle : Bool) (socket : Nat) (data : List Block) : List Block :=
  data.map fun b => b.map fun l =>
    { l with
      sendto := l.sendto.map (partner N sizes socket)
      recvfrom := l.recvfrom.map (partner N sizes socket)
      frac := if middle then globalOf N sizes socket l.frac else l.frac }

/-- The schedule of the middle group (`src/core/allreduce.c:362-375`). -/
def middlePart (allgatherv : Bool) (N : Nat) (ports groups : List Int) (socket : Nat) : Option (List Block) := do
  let seg ← portsGroup ports groups 0
  let sizes ← sizesTo ports groups 0
  if stride N sizes = 0 then none
  else
    let data ← generateSingle allgatherv (sizes.head?.getD 1) (seg.map (·.1)) (localOf N sizes socket)
    some (revisePartners N sizes true socket data)

/-- The schedule of the group of another step (`src/core/allreduce.c:376-413`). `fac` is the product of the
sizes of the groups nearer to the middle. The array `fracs` has `N` entries. -/
def sidePart (allgatherv : Bool) (N : Nat) (ports groups : List Int) (socket : Nat) (step : Int) :
    Option (List Block) := do
  let seg ← portsGroup ports groups step
  let sizes ← sizesTo ports groups step
  if stride N sizes = 0 ∨ N < (expandFrac N sizes socket).length then none
  else
    let data ← generateSingle allgatherv (sizes.head?.getD 1) (seg.map (·.1)) (localOf N sizes socket)
    let data ← fracMultiply sizes.tail.prod (expandFrac N sizes socket) (reviseFrac (sizes.head?.getD 1) data)
    some (revisePartners N sizes false socket data)

/-- The line is copied out (`src/core/allreduce.c:252`). -/
def isOut (l : LineD) : Bool := (l.sendto.head?.map fun e => e.1) == some (-1)

/-- The line is copied in (`src/core/allreduce.c:253`). -/
def isIn (l : LineD) : Bool := (l.recvfrom.head?.map fun e => e.1) == some (-1)

/-- The comparison of two blocks (`src/core/allreduce.c:251-259`). -/
def agree (a b : Block) : Bool :=
  (a.zip b).all fun x => isOut x.1 == isIn x.2 && (!isOut x.1 || x.1.frac == x.2.frac)

/-- Removal of the copies of a block (`src/core/allreduce.c:261-275`). -/
def clear (b : Block) : Block :=
  b.map fun l =>
    { l with sendto := if isOut l then [] else l.sendto, recvfrom := if isIn l then [] else l.recvfrom }

/-- The loop of `chancel_copyin_copyout` (`src/core/allreduce.c:249-279`) over the blocks after the first
one: the blocks and the return value. -/
def cancelLoop : List Block → List Block × Bool
  | a :: b :: rest =>
    if agree a b then
      let r := cancelLoop (b :: rest)
      (clear a :: r.1, r.2)
    else (a :: b :: (cancelLoop rest).1, false)
  | bs => (bs, true)
termination_by bs => bs.length

/-- The lines inserted before the lines of a block (`src/core/allreduce.c:294-313`). The line numbers at the
receivers of messages are not changed. -/
def insertLines (a b : Block) : Block :=
  a.map (fun l => { frac := l.frac }) ++ b.map fun l =>
    { l with
      recvfrom := l.recvfrom.map fun e => (e.1, e.2 + a.length)
      reducefrom := l.reducefrom.map (· + a.length)
      copyreducefrom := l.copyreducefrom.map (· + a.length) }

/-- Copies instead of a copy-in: the first line of `a` that is copied out with the same message number
(`src/core/allreduce.c:315-336`). -/
def connectIn (a : Block) (l : LineD) : LineD :=
  if isIn l then
    match a.findIdx? fun x => isOut x && x.frac == l.frac with
    | some i => { l with recvfrom := [], copyreducefrom := [i] }
    | none => l
  else l

/-- Removal of the copy-outs for which a copy was inserted (`src/core/allreduce.c:320-323`): the first line for
every message number that is copied in. -/
def connectOut (a b : Block) : Block :=
  a.zipIdx.map fun x =>
    if isOut x.1 && (b.any fun l => isIn l && l.frac == x.1.frac) &&
        a.findIdx? (fun y => isOut y && y.frac == x.1.frac) == some x.2 then
      { x.1 with sendto := [] }
    else x.1

/-- `add_lines` (`src/core/allreduce.c:283-337`) on the blocks after the first one: `block` is the first block
with a line that is copied out. `none`: there is none before the last block, `blocks[-1]` is accessed. -/
def addLines : List Block → Option (List Block)
  | a :: b :: rest =>
    if a.any isOut then
      some (connectOut a b :: (insertLines a b).map (connectIn a) :: rest.map (insertLines a))
    else (addLines (b :: rest)).map (a :: ·)
  | _ => none

/-- The end of `ext_mpi_generate_allreduce` on the joined blocks (`src/core/allreduce.c:424-426`). -/
def join : List Block → Option (List Block)
  | [] => some []
  | b :: bs =>
    let r := cancelLoop bs
    if r.2 then some (b :: r.1) else (addLines r.1).map (b :: ·)

/-- `ext_mpi_generate_allreduce` (`src/core/allreduce.c:339-445`). `none` also for several middle groups, of
which only the first one is generated, and for a negative number of middle groups, for which an entry behind
the end of `data_l` is written (`src/core/allreduce.c:359`, `373`). The last group must be finished. -/
def generate (allgatherv : Bool) (N : Nat) (ports groups : List Int) (socket : Nat) : Option (List Block) :=
  if single ports groups then generateSingle allgatherv N ports socket
  else
    if (∀ g, groups.getLast? = some g → g < 0) ∧ 0 ≤ ngroupsMiddle ports groups ∧ ngroupsMiddle ports groups ≤ 1 then do
      let down ← (List.range (ngroupsDown ports groups)).reverse.mapM fun i : Nat =>
        sidePart allgatherv N ports groups socket (-((i : Int) + 1))
      let middle ← if ngroupsMiddle ports groups = 1 then middlePart allgatherv N ports groups socket else some []
      let up ← (List.range (ngroupsUp ports groups)).mapM fun i : Nat =>
        sidePart true N ports groups socket ((i : Int) + 1)
      join (down.flatten ++ middle ++ up.flatten)
    else none

/-- The generator chosen for the ports, also for several groups, for `Allreduce` (`src/mpi/ext_mpi_native.c:736-742`). -/
def generateAny (notRec : Bool) (N : Nat) (ports groups : List Int) (task : Nat) : Option (List Block) :=
  if notRec then generate false N ports groups task else Recursive.generate false ports task

end ExtMpi.Groups
