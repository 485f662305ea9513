import Mathlib.Order.Defs.LinearOrder
import Verif.Model.Cyclic
import Verif.Model.CyclicReduce
/-!
# The choice of the port counts when the user gives none

`next_number`, `correct_number`, `ext_mpi_heuristic_recursive_non_factors`,
`ext_mpi_heuristic_cancel_factors` and the search loop of `ext_mpi_min_cost_total` of
`/repo/src/core/recursive_factors.c`, and `get_group_size` and `ext_mpi_num_ports_factors` of
`/repo/src/mpi/num_ports_factors.c`. `none` stands for undefined behaviour: an access outside of an array
or an overflow of `int`. Allocation failures are not modelled. The estimated time of a list of factors is
an arbitrary function, so that the theorems hold for every table of measurements.
-/
namespace ExtMpi.PortChoice

/-- `FACTOR_MAX` (`src/core/recursive_factors.c:10`). -/
def factorMax : Nat := 13

/-- The loop `for (j = 0, k = 1; k < num_nodes; k *= 2, j++)` (`src/core/recursive_factors.c:137`) from
a given `k` on; the first argument bounds the number of iterations. -/
def doublings (N : Nat) : Nat → Nat → Nat
  | 0, _ => 0
  | f + 1, k => if k < N then doublings N f (k * 2) + 1 else 0

/-- The value of `j` after that loop: the number of slots of the odometer
(`src/core/recursive_factors.c:137`). -/
def slots (N : Nat) : Nat := doublings N N 1

/-- The loop `for (l = 0, k = 1; k < num_nodes; k *= numbers[l], l++)` from a given `k` on
(`src/core/recursive_factors.c:157`, `168-170`, `193-194`): the entries used and the final `k`. `none`:
the loop reads behind the end of the array. -/
def usedFrom (N : Nat) : Nat → List Nat → Option (List Nat × Nat)
  | k, [] => if k < N then none else some ([], k)
  | k, n :: ns =>
    if k < N then (usedFrom N (k * n) ns).map fun r => (n :: r.1, r.2) else some ([], k)

/-- The loop started at 1. -/
def used (N : Nat) (ns : List Nat) : Option (List Nat × Nat) := usedFrom N 1 ns

/-- The loop `while (numbers_new[i] * k < num_nodes) numbers_new[i]++`
(`src/core/recursive_factors.c:174-176`); the first argument bounds the number of iterations. -/
def raise (N k : Nat) : Nat → Nat → Nat
  | 0, v => v
  | f + 1, v => if v * k < N then raise N k f (v + 1) else v

/-- `correct_number` (`src/core/recursive_factors.c:166-178`) without its return value, which is not used:
the entries written. `none` also if the loop uses no entry: the code then reads and writes
`numbers_new[-1]`. -/
def correctNumber (N : Nat) (ns : List Nat) : Option (List Nat) :=
  match used N ns with
  | none => none
  | some (us, k) =>
    match us.getLast? with
    | none => none
    | some last => some (us.dropLast ++ [raise N (k / last) N 2])

/-- The inner loop of `next_number` (`src/core/recursive_factors.c:141-156`) on the entries
`numbers[j-1], numbers[j-2], …, numbers[0]`: the number of entries touched and the entries afterwards.
`none`: all entries have been reset, the function returns 0. -/
def bump : List Nat → Option (Nat × List Nat)
  | [] => none
  | d :: ds =>
    if factorMax < d + 1 then (bump ds).map fun r => (r.1 + 1, 2 :: r.2) else some (1, (d + 1) :: ds)

/-- A bound on how many times `bump` can still succeed; not part of the code. -/
def weight : List Nat → Nat
  | [] => 0
  | d :: ds => (13 - d) + 12 * weight ds

theorem bump_weight (ds : List Nat) (c : Nat) (ds' : List Nat) (h : bump ds = some (c, ds')) :
    weight ds' < weight ds := by
  induction ds generalizing c ds' with
  | nil => simp [bump] at h
  | cons d ds ih =>
    by_cases hd : factorMax < d + 1
    · rw [bump, if_pos hd, Option.map_eq_some_iff] at h
      obtain ⟨r, h1, h2⟩ := h
      have := ih r.1 r.2 h1
      obtain ⟨-, rfl⟩ := Prod.mk.inj h2
      simp only [weight]
      omega
    · rw [bump, if_neg hd] at h
      obtain ⟨-, rfl⟩ := Prod.mk.inj (Option.some.inj h)
      simp only [factorMax] at hd
      simp only [weight]
      omega

/-- `next_number` (`src/core/recursive_factors.c:135-164`). The entries are kept in reverse order; `m` is
the lowest index touched so far. The result `some none` stands for the return value 0. -/
def nextNumber (N : Nat) (m : Nat) (rev : List Nat) : Option (Option (List Nat)) :=
  match h : bump rev with
  | none => some none
  | some (c, rev') =>
    let m' := min m (rev'.length - c)
    match used N rev'.reverse with
    | none => none
    | some (us, k) =>
      match us.getLast? with
      | none => none
      | some last =>
        if us.length - 1 < m' ∨ N ≤ k / last * (last - 1) then nextNumber N m' rev'
        else some (some rev')
termination_by weight rev
decreasing_by exact bump_weight rev c rev' h

/-- The lists written for one list of numbers (`src/core/recursive_factors.c:195-207`): `l` reduction
steps with the last `l` numbers in reverse order, then all numbers. -/
def emit (allgather : Bool) (us : List Nat) : List (List Int) :=
  (List.range (if allgather then 1 else us.length + 1)).map fun l =>
    (us.reverse.take l).map (fun n : Nat => -(n : Int)) ++ us.map fun n : Nat => (n : Int)

/-- The outer loop of `ext_mpi_heuristic_recursive_non_factors`
(`src/core/recursive_factors.c:192-210`). `room` is `lines_max - i`; the first argument bounds the number
of iterations. `none` also when a list is written behind the end of the arrays. -/
def enumerate (N : Nat) (allgather : Bool) : Nat → Nat → List Nat → Option (List (List Int))
  | 0, _, _ => some []
  | f + 1, room, rev =>
    if room = 0 then some []
    else
      match used N rev.reverse with
      | none => none
      | some (us, _) =>
        let ls := emit allgather us
        if room < ls.length then none
        else
          match nextNumber N (N + 1) rev with
          | none => none
          | some none => some ls
          | some (some rev') => (enumerate N allgather f (room - ls.length) rev').map (ls ++ ·)

/-- `lines_max` (`src/core/recursive_factors.c:182`), an `int`. -/
def linesMax (N : Nat) : Option Nat :=
  if N * N * factorMax * factorMax < 2 ^ 31 then some (N * N * factorMax * factorMax) else none

/-- `ext_mpi_heuristic_recursive_non_factors` (`src/core/recursive_factors.c:180-212`) without the flags
`primes`, which only enter the estimated time. The entries of `numbers_corrected` behind those written by
`correct_number` are not initialised; `next_number` uses the first `slots N` ones. -/
def candidates (N : Nat) (allgather : Bool) : Option (List (List Int)) :=
  match linesMax N, correctNumber N (List.replicate N 2) with
  | some room, some ns =>
    if ns.length < slots N then none
    else enumerate N allgather room room (ns.take (slots N)).reverse
  | _, _ => none

/-- The test of `ext_mpi_heuristic_cancel_factors` (`src/core/recursive_factors.c:217-226`): a positive
factor larger than `l`, the last positive factor that was not larger than its predecessors. -/
def cancelled : Int → List Int → Bool
  | _, [] => false
  | l, f :: fs =>
    if 0 < f ∧ f ≤ l then cancelled f fs
    else if 0 < f then true
    else cancelled l fs

/-- `ext_mpi_heuristic_cancel_factors` (`src/core/recursive_factors.c:214-238`): removal in place, every
list is tested once. `INT_MAX` is the first bound. -/
def cancelFactors : List (List Int) → List (List Int)
  | [] => []
  | fs :: rest => if cancelled 2147483647 fs then cancelFactors rest else fs :: cancelFactors rest

/-- The search loop of `ext_mpi_min_cost_total` (`src/core/recursive_factors.c:98-133`): the first list with
the least time. `cost` is `none` when the time is not below `1e99`. -/
def minCost {α : Type} [LinearOrder α] (cost : List Int → Option α) :
    Option (List Int × α) → List (List Int) → Option (List Int × α)
  | best, [] => best
  | best, fs :: rest =>
    match cost fs, best with
    | none, _ => minCost cost best rest
    | some t, none => minCost cost (some (fs, t)) rest
    | some t, some (b, tb) => if t < tb then minCost cost (some (fs, t)) rest else minCost cost (some (b, tb)) rest

/-- The conversion of factors to port counts (`src/mpi/num_ports_factors.c:131-135`). -/
def portOf (f : Int) : Int := if 0 < f then f - 1 else f + 1

/-- The entries of `groups` for `n` steps on `N` nodes (`src/mpi/num_ports_factors.c:136-138`). -/
def groupsOf (N n : Nat) : List Int := List.replicate (n - 1) (N : Int) ++ [-(N : Int)]

/-- `get_group_size` (`src/mpi/num_ports_factors.c:67-80`) on the entries before the terminating 0. -/
def groupSize (ports : List Int) : Int :=
  (ports.filter (0 < ·)).foldl (fun (g p : Int) => g * ((Int.natAbs p : Int) + 1)) (if 2 ≤ ports.length then 1 else 0)

/-- The number of halvings `ceil(log(nodes) / log(2))` (`src/mpi/num_ports_factors.c:155-161`), in exact
arithmetic. -/
def halvings (N : Nat) : Nat := if N = 1 then 1 else slots N

/-- `ext_mpi_num_ports_factors` (`src/mpi/num_ports_factors.c:110-190`) on a communicator of `size`
processes: the ports and groups before the terminating 0. The arrays have `size + 1` entries. `none` on a
single node: `(*groups[1])` (line 118) is `*(groups[1])`, which reads a pointer behind the variable of the
caller that `groups` points to. `none` also when no list has a time below `1e99`: `factors[-1]` is read.
The broadcast of the choice of rank 0 is not modelled, all ranks get it. -/
def numPortsFactors {α : Type} [LinearOrder α] (size cores sockets : Nat) (allgather minimum : Bool)
    (cost : List Int → Option α) : Option (List Int × List Int) :=
  let N := size / cores
  let write (ps gs : List Int) : Option (List Int × List Int) :=
    if ps.length < size + 1 then some (ps, gs) else none
  if size = cores * sockets then none
  else if minimum then
    let n := halvings N
    write (List.replicate n (-1) ++ List.replicate n 1) (groupsOf N n ++ groupsOf N n)
  else
    match candidates N allgather with
    | none => none
    | some ls =>
      match minCost cost none (cancelFactors ls) with
      | none => none
      | some (fs, _) => write (fs.map portOf) (groupsOf N fs.length)

/-- Choice between the recursive and the cyclic generator when the user does not set it
(`not_recursive`, `src/mpi/ext_mpi.c:274`, `472`, `666`). -/
def notRecursive (N : Nat) (ports : List Int) : Bool := groupSize ports ≠ (N : Int)

/-- The change of the ports for `Reduce_scatter` (`src/mpi/ext_mpi.c:466-470`): reversed and with opposite
signs. -/
def reversePorts (ports : List Int) : List Int := (ports.map (- ·)).reverse

/-- `get_ngroups` in the direction -1 (`src/core/allreduce.c:21-29`): the groups that end among the leading
negative ports. -/
def ngroupsDown (ports groups : List Int) : Nat :=
  ((groups.take (ports.takeWhile (· < 0)).length).filter (· < 0)).length

/-- The loop of `get_ngroups` in the direction 1 (`src/core/allreduce.c:40-49`) over the groups from the last
one down. -/
def upLoop : Nat → List Int → Nat
  | _, [] => 0
  | fac, g :: gs =>
    if g < 0 then
      if 1 ≤ fac / g.natAbs then upLoop (fac / g.natAbs) gs + 1 else 0
    else upLoop fac gs

/-- `get_ngroups` in the direction 1 (`src/core/allreduce.c:30-50`). -/
def ngroupsUp (ports groups : List Int) : Nat :=
  upLoop (((groups.take (ports.takeWhile (· < 0)).length).filter (· < 0)).map Int.natAbs).prod
    (groups.take ports.length).reverse

/-- `get_ngroups` in the direction 0 (`src/core/allreduce.c:13-20`). -/
def ngroupsMiddle (ports groups : List Int) : Int :=
  (groups.filter (· < 0)).length - (ngroupsDown ports groups + ngroupsUp ports groups : Nat)

/-- The test of `ext_mpi_generate_allreduce` for a single group (`src/core/allreduce.c:349-355`), in which
case `ext_mpi_generate_allreduce_single` does everything. -/
def single (ports groups : List Int) : Bool :=
  (ngroupsDown ports groups : Int) + ngroupsMiddle ports groups + ngroupsUp ports groups = 1

/-- The choice of the generator in `ext_mpi_generate_allreduce_single`
(`src/core/allreduce_single.c:377-381`): the ports before the first positive one are reduction steps. A
negative port after a positive one is not meaningful and gives `none`. -/
def generateSingle (allgatherv : Bool) (N : Nat) (ports : List Int) (task : Nat) :
    Option (List Schedule.Block) :=
  if allgatherv then
    if ports.all (0 < ·) then some (Cyclic.allgather N (ports.map Int.toNat) task) else none
  else
    let rest := ports.dropWhile (· < 0)
    if rest.all (0 < ·) then
      CyclicReduce.core N ((ports.takeWhile (· < 0)).map Int.natAbs) (rest.map Int.toNat) task
    else none

/-- The choice between the generators (`src/mpi/ext_mpi_native.c:736-742`, `1048-1054`, `1532-1538`,
`src/core/allreduce.c:349-355`). `none` also for several groups, which are not modelled here. -/
def generate (allgatherv notRec : Bool) (N : Nat) (ports groups : List Int) (task : Nat) :
    Option (List Schedule.Block) :=
  if notRec then
    if single ports groups then generateSingle allgatherv N ports task else none
  else Recursive.generate allgatherv ports task

end ExtMpi.PortChoice
