import Verif.Model.Recursive
/-!
# The cyclic allgather

`allgather_core` of `/repo/src/core/allreduce_single.c`. As in `Model/Recursive.lean` every block is given as a
function of the line. Allocation failures are not modelled.
-/
namespace ExtMpi.Cyclic
open Schedule Recursive

/-- Block 0: the own message only (`src/core/allreduce_single.c:131-140`). -/
def gatherFirst (task : Nat) : Block :=
  Recursive.mk 1 fun _ => { frac := task, recvfrom := [(-1, 0)] }

/-- Number of ports on which a line is sent (`src/core/allreduce_single.c:150-151`). -/
def sendMax (L Lprev p line : Nat) : Nat := if line + p * Lprev ≥ L then p - 1 else p

/-- Sends of a line. `line < l` of the code is the first condition, with `l` the minimum of `gbstep` and
`num_lines - gbstep`. `%` of C truncates (`src/core/allreduce_single.c:147-157`). -/
def gatherSend (N gb L Lprev p task line : Nat) : List (Int × Int) :=
  if line < gb ∧ line + gb < L then
    (List.range (sendMax L Lprev p line)).map fun i : Nat =>
      (((task : Int) + N - ((i : Int) + 1) * gb).tmod N, (line : Int))
  else []

/-- Receives of a line (`src/core/allreduce_single.c:158-164`). -/
def gatherRecv (N gb L task line : Nat) : List (Int × Int) :=
  if ¬(line < gb ∧ line + gb < L) ∧ line ≥ gb then
    [((((task + N + line / gb * gb) % N : Nat) : Int), ((line % gb : Nat) : Int))]
  else []

/-- One step (`src/core/allreduce_single.c:141-168`). -/
def gatherBlock (N gb Lprev p task : Nat) : Block :=
  let L := min (Lprev * (p + 1)) N
  Recursive.mk L fun line =>
    { frac := (task + line) % N
      sendto := gatherSend N gb L Lprev p task line
      recvfrom := gatherRecv N gb L task line }

/-- The loop over the steps and the number of lines at its end (`src/core/allreduce_single.c:141`). -/
def gatherSteps (N task : Nat) : Nat → Nat → List Nat → List Block × Nat
  | _, Lprev, [] => ([], Lprev)
  | gb, Lprev, p :: ps =>
    let rest := gatherSteps N task (gb * (p + 1)) (min (Lprev * (p + 1)) N) ps
    (gatherBlock N gb Lprev p task :: rest.1, rest.2)

/-- Last block (`src/core/allreduce_single.c:169-180`). -/
def gatherLast (N L task : Nat) : Block :=
  Recursive.mk L fun line =>
    { frac := (task + line) % N, sendto := [(-1, (((task + line) % N : Nat) : Int))] }

/-- `allgather_core` (`src/core/allreduce_single.c:126-182`). -/
def allgather (N : Nat) (ports : List Nat) (task : Nat) : List Block :=
  let r := gatherSteps N task 1 1 ports
  gatherFirst task :: (r.1 ++ [gatherLast N r.2 task])

end ExtMpi.Cyclic
