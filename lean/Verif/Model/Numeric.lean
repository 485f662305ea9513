/-!
# Number helpers

Models of `/repo/src/core/prime_factors.c`, of `/repo/src/mpi/padding_factor.c`, of the message
split in `/repo/src/mpi/ext_mpi_native.c` and of two helpers of `/repo/src/mpi/ext_mpi.c`.
C `int` values that are non-negative by construction are natural numbers; 32-bit overflow is not
modelled (all results are bounded by the inputs except `ext_mpi_greatest_common_divisor`).
-/
namespace ExtMpi.Numeric

/-! ### `src/core/prime_factors.c` -/

/-- Functional array update. -/
def upd {α : Type} (f : Nat → α) (i : Nat) (v : α) : Nat → α := fun j => if j = i then v else f j

/-- Inner loop `for (j = 2; i * j < max_number; j++) primes[i * j] = 0;`
(`src/core/prime_factors.c:13-15`); `fuel` bounds the iterations. -/
def crossOut (max i : Nat) : Nat → Nat → (Nat → Bool) → (Nat → Bool)
  | 0, _, p => p
  | fuel + 1, j, p => if i * j < max then crossOut max i fuel (j + 1) (upd p (i * j) false) else p

/-- `prime_rost` (`src/core/prime_factors.c:6-18`); entry `x` of the array after the call. -/
def primeRost (max : Nat) : Nat → Bool :=
  (List.range' 2 (max - 2)).foldl (fun p i => if p i then crossOut max i max 2 p else p)
    (fun _ => true)

/-- The primes up to `number` in order (`src/core/prime_factors.c:33-37`). -/
def primesUpTo (number : Nat) : List Nat :=
  (List.range' 2 (number - 1)).filter fun i => primeRost (number + 1) i

/-- `while (j % prime == 0) { j /= prime; count++; }` (`src/core/prime_factors.c:43-46`).
For `j ≥ 1`, `prime ≥ 2` the loop ends within `j` iterations. -/
def divCount (p : Nat) : Nat → Nat → Nat
  | 0, _ => 0
  | fuel + 1, j => if j % p = 0 then divCount p fuel (j / p) + 1 else 0

/-- `ext_mpi_prime_factor_decomposition` for a non-negative number: pairs (prime, count)
(`src/core/prime_factors.c:32-50`). The call with a negated number only returns the length of
this list (23-31). -/
def decomposition (number : Nat) : List (Nat × Nat) :=
  (primesUpTo number).map fun p => (p, divCount p number number)

/-- `ext_mpi_plain_prime_factors`: the entries before the terminating 0
(`src/core/prime_factors.c:52-63`). -/
def plainPrimeFactors (number : Nat) : List Nat :=
  (decomposition number).flatMap fun (p, c) => List.replicate c p

/-- Running minimum in `factors_count[i * num]` (`src/core/prime_factors.c:117-121`). -/
def minCount (cs : List Nat) : Nat :=
  match cs with
  | [] => 0
  | c :: cs => cs.foldl (fun m x => if x < m then x else m) c

/-- `ret *= prime` repeated `count` times (`src/core/prime_factors.c:122-124`). -/
def mulTimes (p : Nat) : Nat → Nat → Nat
  | 0, ret => ret
  | c + 1, ret => mulTimes p c (ret * p)

/-- `ext_mpi_prime_factor_padding` (`src/core/prime_factors.c:97-129`); `none` is `exit(1)`.
The maximum over the numbers is computed twice in C (99-104 and 68-72). -/
def primeFactorPadding (numbers : List Nat) : Option Nat :=
  if numbers = [] then some 1
  else if numbers.any (· == 0) then none
  else
    let maxNumber := numbers.foldl (fun m x => if x > m then x else m) 0
    some ((primesUpTo maxNumber).foldl
      (fun ret p => mulTimes p (minCount (numbers.map fun n => divCount p n n)) ret) 1)

/-- Insert into a sorted list; `qsort` of ints is modelled by insertion sort (any sorting function
gives the same array). -/
def insertSorted (x : Nat) : List Nat → List Nat
  | [] => [x]
  | y :: ys => if x ≤ y then x :: y :: ys else y :: insertSorted x ys

/-- `qsort(..., factors_minimum_compare)` (`src/core/prime_factors.c:131-133,149`). -/
def sortAsc (l : List Nat) : List Nat := l.foldr insertSorted []

/-- The merging loop (`src/core/prime_factors.c:142-150`). Each iteration shortens the list. -/
def mergeMin (factorMin : Nat) : Nat → List Nat → List Nat
  | 0, l => l
  | fuel + 1, l =>
    match l with
    | a :: b :: rest => if a < factorMin then mergeMin factorMin fuel (sortAsc (a * b :: rest)) else l
    | _ => l

/-- `ext_mpi_factors_minimum` (`src/core/prime_factors.c:139-156`). -/
def factorsMinimum (number factorMin : Nat) : List Nat :=
  let l := plainPrimeFactors number
  (mergeMin factorMin l.length l).reverse

/-- The loop of `ext_mpi_factor_sqrt` (`src/core/prime_factors.c:160-167`).  The comparison
`factors[0] < sqrt(number)` in double precision is `factors[0]² < number` for `int` values. -/
def sqrtLoop (number : Nat) : List Nat → Nat
  | a :: b :: rest => if a * a < number then sqrtLoop number (a * b :: rest) else a
  | [a] => a
  | [] => 0
termination_by l => l.length

/-- `ext_mpi_factor_sqrt` (`src/core/prime_factors.c:158-169`). -/
def factorSqrt (number : Nat) : Nat := sqrtLoop number (plainPrimeFactors number)

/-- Inner loop over `primes2` for one entry of `primes1` (`src/core/prime_factors.c:176-181`).
Once matched the entry is 1, which can only match entries that are 1 already. -/
def cancelOne (x : Nat) : List Nat → Nat × List Nat
  | [] => (x, [])
  | y :: ys =>
    if x = y then
      let (x', ys') := cancelOne 1 ys
      (x', 1 :: ys')
    else
      let (x', ys') := cancelOne x ys
      (x', y :: ys')

/-- Outer loop (`src/core/prime_factors.c:175-182`): the remaining entries of `primes1`. -/
def cancelAll : List Nat → List Nat → List Nat
  | [], _ => []
  | x :: xs, ys =>
    let (x', ys') := cancelOne x ys
    x' :: cancelAll xs ys'

/-- `ext_mpi_greatest_common_divisor` (`src/core/prime_factors.c:171-188`). -/
def greatestCommonDivisor (d1 d2 : Nat) : Nat :=
  (cancelAll (plainPrimeFactors d1) (plainPrimeFactors d2)).foldl (· * ·) d2

/-! ### `src/mpi/padding_factor.c` -/

/-- One rank's array after `memset` (`src/mpi/padding_factor.c:11-12`): the decomposition followed
by zero entries up to the largest length over the ranks. -/
def paddedFactors (maxFactor number : Nat) : List (Nat × Nat) :=
  decomposition number ++ List.replicate (maxFactor - (decomposition number).length) (0, 0)

/-- Elementwise minimum of two arrays of pairs (`MPI_MIN` on the ints). -/
def minPairs (a b : List (Nat × Nat)) : List (Nat × Nat) :=
  List.zipWith (fun x y => (min x.1 y.1, min x.2 y.2)) a b

/-- `ext_mpi_padding_factor` seen from all ranks (`src/mpi/padding_factor.c:6-22`): rank 0's number
is `n`, the others' are `ns`. -/
def paddingFactor (n : Nat) (ns : List Nat) : Nat :=
  let maxFactor := (ns.map fun k => (decomposition k).length).foldl max (decomposition n).length
  let arr := (ns.map (paddedFactors maxFactor)).foldl minPairs (paddedFactors maxFactor n)
  arr.foldl (fun ret pc => mulTimes pc.1 pc.2 ret) 1

/-! ### Message split -/

/-- `msizes` of `EXT_MPI_Reduce_init_native` (`src/mpi/ext_mpi_native.c:626-641`) for a message of
`msize` bytes, `nodes = my_mpi_size_row / my_cores_per_node_row`. -/
def messageSizes (msize typeSize nodes : Nat) : List Nat :=
  ((List.range nodes).map fun i =>
    (msize / typeSize) / nodes + (if i < (msize / typeSize) % nodes then 1 else 0)).map (· * typeSize)

/-! ### `src/mpi/ext_mpi.c` -/

/-- Search for `j` from `j` downwards (`src/mpi/ext_mpi.c:205-211`); `none` is the final
`return -1`. -/
def tasksLoop (cores : List Nat) : Nat → Option Nat
  | 0 => none
  | j + 1 => if cores.all (fun c => c % (j + 1) == 0) then some (j + 1) else tasksLoop cores j

/-- `ext_mpi_get_num_tasks_per_socket` without a fixed setting (`src/mpi/ext_mpi.c:187-218`);
`cores` are the gathered node sizes, one per rank. -/
def tasksPerSocket (cores : List Nat) (sockets : Nat) : Option Nat :=
  match cores with
  | [] => none
  | c :: _ => (tasksLoop cores c).map (· / sockets)

/-- One iteration of the swapping loop (`src/mpi/ext_mpi.c:408-410`): exchange entry `j` and entry
`i - 1 - j`, `i` being the length. -/
def swapStep (l : List Int) (j : Nat) : List Int :=
  match l[j]?, l[l.length - 1 - j]? with
  | some a, some b => (l.set j b).set (l.length - 1 - j) a
  | _, _ => l

/-- The swapping loop of `ext_mpi_revert_num_ports` for one of the two arrays
(`src/mpi/ext_mpi.c:407-414`). -/
def swapLoop (l : List Int) : List Int := (List.range (l.length / 2)).foldl swapStep l

/-- `abs`. -/
def absI (x : Int) : Int := if x < 0 then -x else x

/-- The loop over `groups` and the final assignment (`src/mpi/ext_mpi.c:416-422`): `prev` is
`groups[i-1]`, final except for the sign its successor may give it. -/
def moveSigns (prev : Int) : List Int → List Int
  | [] => [-absI prev]
  | g :: gs =>
    if g < 0 then -absI prev :: moveSigns (absI g) gs else prev :: moveSigns g gs

/-- `ext_mpi_revert_num_ports` (`src/mpi/ext_mpi.c:402-423`) on the entries before the
terminating 0; `none` for empty lists, for which C reads `groups[1]` past the terminator. -/
def revertNumPorts (ports groups : List Int) : Option (List Int × List Int) :=
  match swapLoop groups with
  | [] => none
  | g :: gs => some (swapLoop (ports.map (· * -1)), moveSigns (absI g) gs)

end ExtMpi.Numeric
