import Verif.Model.Rooted
/-! Conditions on schedules and what rooted collectives promise. -/
namespace ExtMpi.Rooted
open Schedule

/-- Local part of a block; `prev` is the number of lines of the block before, `top` the largest number of lines of all
blocks before. Sources of reductions are lines of the block. A copy from a later line takes a line without reductions. A line
that did not exist in the block before is not sent; if it existed earlier it is received, or it is produced by
a copy and not read before. -/
structure WfLocal (prev top : Nat) (b : Block) : Prop where
  range : ∀ l ∈ b, ∀ r ∈ l.reducefrom ++ l.copyreducefrom, r < b.length
  later : ∀ (j r : Nat) (l lr : LineD), b[j]? = some l → b[r]? = some lr → r ∈ l.copyreducefrom → j < r → lr.reducefrom = []
  fresh : ∀ (j : Nat) (l : LineD), b[j]? = some l → prev ≤ j → j < top → l.recvfrom = [] →
    l.copyreducefrom ≠ [] ∧ l.reducefrom = [] ∧
    ∀ (y : Nat) (ly : LineD), b[y]? = some ly → j ∉ ly.reducefrom ∧ (j ∈ ly.copyreducefrom → j < y)
  unsent : ∀ (j : Nat) (l : LineD), b[j]? = some l → prev ≤ j → ∀ e ∈ l.sendto, e.1 = -1

/-- A row with communication: partners of a line are different, no line is sent and received, and the lines received from
one node follow each other. -/
structure WfMid (N : Nat) (prev top : Nat → Nat) (row : Row) : Prop where
  loc : ∀ t < N, WfLocal (prev t) (top t) (row t)
  nodup : ∀ t < N, ∀ l ∈ row t, (l.sendto.map Prod.fst).Nodup ∧ (l.recvfrom.map Prod.fst).Nodup
  apart : ∀ t < N, ∀ l ∈ row t, l.sendto = [] ∨ l.recvfrom = []
  block : ∀ t < N, ∀ q < N, ∃ n0, recvIdx (row t) q = List.range' n0 (recvIdx (row t) q).length

/-- The last row: results only. -/
structure WfLast (N : Nat) (prev top : Nat → Nat) (row : Row) : Prop where
  loc : ∀ t < N, WfLocal (prev t) (top t) (row t)
  sends : ∀ t < N, ∀ l ∈ row t, ∀ e ∈ l.sendto, e.1 = -1
  recvs : ∀ t < N, ∀ l ∈ row t, l.recvfrom = []

/-- The rows after block 0. -/
def WfRows (N : Nat) : (Nat → Nat) → (Nat → Nat) → List Row → Prop
  | _, _, [] => False
  | prev, top, [last] => WfLast N prev top last
  | prev, top, row :: rows => WfMid N prev top row ∧ WfRows N (fun t => (row t).length) (fun t => max (top t) (row t).length) rows

/-- A schedule: block 0 followed by rows. -/
def Wf (N : Nat) : List Row → Prop
  | [] => False
  | r0 :: rows => WfRows N (fun t => (r0 t).length) (fun t => (r0 t).length) rows

/-- Every message is kept or dropped as a whole. -/
def Unmixed (N : Nat) (rows : List Row) : Prop :=
  ∀ row ∈ rows, ∀ t < N, ∀ q < N, q ≠ t → recvIdx (row t) q = [] ∨ deadIdx (row t) q = []

/-- Which of the sends for node `t` are kept, in the order of the lines. A dropped one has partner `-10 - t`. -/
def sendFlags (b : Block) (t : Nat) : List Bool :=
  b.flatMap fun l => l.sendto.filterMap fun e => if e.1 = (t : Int) then some true else if e.1 = -10 - (t : Int) then some false else none

/-- Which of the receives from node `q` are kept. -/
def recvFlags (b : Block) (q : Nat) : List Bool :=
  b.flatMap fun l => l.recvfrom.filterMap fun e => if e.1 = (q : Int) then some true else if e.1 = -10 - (q : Int) then some false else none

/-- The schedule of every node, given in rows. -/
def columns (rows : List Row) (t : Nat) : List Block := rows.map fun r => r t

end ExtMpi.Rooted
