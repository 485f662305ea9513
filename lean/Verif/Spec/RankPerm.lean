import Verif.Model.RankPerm
/-! What a relabelling has to satisfy. -/
namespace ExtMpi.RankPerm
open ExtMpi.Schedule

/-- Any implementation of `qsort`: the result is a rearrangement in increasing order of the values. -/
def Sorts (sort : List Sum → List Sum) : Prop :=
  ∀ l, (sort l).Perm l ∧ (sort l).Pairwise fun a b => a.1 ≤ b.1

/-- An implementation that keeps equal elements in order; the keys of the array to be sorted increase. -/
def SortsStably (sort : List Sum → List Sum) : Prop :=
  ∀ l : List Sum, (l.Pairwise fun a b => a.2 < b.2) →
    (sort l).Perm l ∧ (sort l).Pairwise fun a b => a.1 < b.1 ∨ a.1 = b.1 ∧ a.2 < b.2

/-- `perm` is a permutation of the nodes. -/
def IsPerm (n : Nat) (perm : List Nat) : Prop := perm.Perm (List.range n)

/-- The entries of a line are nodes or negative. -/
def LineOk (n : Nat) (l : LineD) : Prop :=
  l.frac < n ∧ (∀ e, e ∈ l.sendto → e.1 < n) ∧ ∀ e, e ∈ l.recvfrom → e.1 < n

/-- Line `n` is in the range the message from `q` is unpacked to. -/
def Covers (b : Block) (q n : Nat) : Prop := ∃ n0 ns, recvIdx b q = n0 :: ns ∧ n0 ≤ n ∧ n ≤ n0 + ns.length

/-- Two messages that arrive in the same step do not touch the same line, unless both are reduced. -/
def Separate (N t : Nat) (b : Block) : Prop :=
  ∀ q r n, q < N → r < N → q ≠ r → Covers b q n → Covers b r n →
    reduces b t q = true ∧ reduces b t r = true

/-- The relabelled schedules: original node `x` generated the schedule of its label and translated it. -/
def Relabelled (N : Nat) (perm : List Nat) (sched sched' : Nat → List Block) : Prop :=
  ∀ x, x < N → ∃ t, back perm x = some t ∧ relabel perm (sched t) = some (sched' x)

end ExtMpi.RankPerm
