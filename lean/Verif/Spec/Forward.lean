import Verif.Model.Forward
/-! Conditions on schedules and what broadcasts and scatters promise. -/
namespace ExtMpi.Forward
open Schedule Rooted

/-- `clean t j`: line `j` of node `t` does not contain left-overs of a line that was given up. A line is clean in the
block if it was before or if it is received. -/
def live (clean : Nat → Nat → Bool) (row : Row) (t j : Nat) : Bool :=
  clean t j || ((row t)[j]?).any fun l => !l.recvfrom.isEmpty

/-- Clean lines after a row. A line beyond the end of the row is clean if it was never used. -/
def cleanAfter (prev : Nat → Nat) (clean : Nat → Nat → Bool) (row : Row) (t j : Nat) : Bool :=
  if j < (row t).length then live clean row t j else clean t j && decide (prev t ≤ j)

/-- A row with communication: no local copies, a source that follows the line it is reduced to has no reductions, clean
lines are reduced from clean lines, clean lines are sent, no line is sent and received, a line is received from at
most one node, and the lines received from one node follow each other. -/
structure FMid (N : Nat) (clean : Nat → Nat → Bool) (row : Row) : Prop where
  nocopy : ∀ t < N, ∀ l ∈ row t, l.copyreducefrom = []
  later : ∀ t < N, ∀ (j r : Nat) (l lr : LineD), (row t)[j]? = some l → (row t)[r]? = some lr → r ∈ l.reducefrom → j < r →
    lr.reducefrom = []
  known : ∀ t < N, ∀ (j : Nat) (l : LineD), (row t)[j]? = some l → live clean row t j = true → ∀ r ∈ l.reducefrom,
    live clean row t r = true
  sent : ∀ t < N, ∀ (j : Nat) (l : LineD), (row t)[j]? = some l → l.sendto ≠ [] → clean t j = true
  partners : ∀ t < N, ∀ l ∈ row t, (l.sendto.map Prod.fst).Nodup ∧ l.recvfrom.length ≤ 1
  apart : ∀ t < N, ∀ l ∈ row t, l.sendto = [] ∨ l.recvfrom = []
  block : ∀ t < N, ∀ q < N, ∃ n0, recvIdx (row t) q = List.range' n0 (recvIdx (row t) q).length

/-- The last row: results only, from clean lines, no two of them for the same message. -/
structure FLast (N : Nat) (clean : Nat → Nat → Bool) (row : Row) : Prop where
  plain : ∀ t < N, ∀ l ∈ row t, l.recvfrom = [] ∧ l.reducefrom = [] ∧ l.copyreducefrom = [] ∧ ∀ e ∈ l.sendto, e.1 = -1
  results : ∀ t < N, ∀ (j : Nat) (l : LineD), (row t)[j]? = some l → l.sendto ≠ [] → clean t j = true
  once : ∀ t < N, ∀ (i j : Nat) (l l' : LineD), (row t)[i]? = some l → (row t)[j]? = some l' → l.sendto ≠ [] → l'.sendto ≠ [] →
    l.frac = l'.frac → i = j

/-- The rows after block 0; `prev` are the numbers of lines of the row before. -/
def FRows (N : Nat) : (Nat → Nat) → (Nat → Nat → Bool) → List Row → Prop
  | _, _, [] => False
  | _, clean, [last] => FLast N clean last
  | prev, clean, row :: rows => FMid N clean row ∧ FRows N (fun t => (row t).length) (cleanAfter prev clean row) rows

/-- A schedule: block 0 only copies in; the lines of the root are in the order in which the root copies in. -/
structure FWf (N root : Nat) (r0 : Row) (rows : List Row) : Prop where
  first : ∀ t < N, ∀ l ∈ r0 t, l.sendto = [] ∧ l.reducefrom = [] ∧ l.copyreducefrom = [] ∧ ∀ e ∈ l.recvfrom, e.1 = -1
  rotated : ∀ (n : Nat) (l : LineD), (r0 root)[n]? = some l → l.recvfrom ≠ [] → n < N ∧ l.frac = (n + root) % N
  rows : FRows N (fun t => (r0 t).length) (fun _ _ => true) rows

/-- In the new rows no line is reduced from a line that is copied in the same row: copies are executed last. -/
def Ordered (N : Nat) (rows : List Row) : Prop :=
  ∀ row ∈ rows, ∀ t < N, ∀ (j r : Nat) (l lr : LineD), (row t)[j]? = some l → (row t)[r]? = some lr → r ∈ l.reducefrom → r < j →
    lr.copyreducefrom = []

/-- Send buffers of a reduction that has the result of the broadcast: those of other nodes contain zeros. -/
def only {V : Type} [Zero V] (root : Nat) (inp : Nat → V) (t b : Nat) : V := if t = root then inp b else 0

/-- The messages of a root are cut into intervals; `st y` is the first message of the interval of message `y`. Cutting all
intervals into pieces of `j` messages gives new ones. -/
def cut (j : Nat) (st : Nat → Nat) (y : Nat) : Nat := st y + (y - st y) / j * j

/-- Messages are counted from the root. In a step with `p` ports every node that has `S` lines cuts them into `p + 1` chunks of
`(S + p) / (p + 1)` lines, of which the last one may be shorter. The messages of an interval are in the first lines of the
node with the number of the first of them. If a chunk that is sent contains one of them it
contains nothing else. -/
def Whole (N : Nat) : Nat → (Nat → Nat) → List Nat → Prop
  | _, _, [] => True
  | S, st, p :: ps =>
    (∀ d y y', (S + p) / (p + 1) ≤ y → y < S → y' < S → y / ((S + p) / (p + 1)) = y' / ((S + p) / (p + 1)) →
      d + y < N → st (d + y) = d → d + y' < N ∧ st (d + y') = d) ∧
    Whole N ((S + p) / (p + 1)) (cut ((S + p) / (p + 1)) st) ps

/-- The same in the direction of a gather: the steps have `1`, `p + 1`, … lines before them. All messages are needed by the root at
the end; before the steps `ps`, which start with `G` lines, they are needed in intervals by the nodes with the number of the first
message. -/
def needSt : Nat → List Nat → Nat → Nat
  | _, [] => fun _ => 0
  | G, p :: ps => cut G (needSt (G * (p + 1)) ps)

/-- Every message of every step is needed as a whole or not at all. -/
def WholeUp (N : Nat) : Nat → List Nat → Prop
  | _, [] => True
  | G, p :: ps =>
    (∀ d y y', G ≤ y → y < min (G * (p + 1)) N → y' < min (G * (p + 1)) N → y / G = y' / G →
      d + y < N → needSt (G * (p + 1)) ps (d + y) = d → d + y' < N ∧ needSt (G * (p + 1)) ps (d + y') = d) ∧
    WholeUp N (G * (p + 1)) ps

end ExtMpi.Forward
