import Mathlib.Data.Fintype.Prod
/-!
# The passes that remove barriers

`/repo/src/mpi/clean_barriers.c`, `/repo/src/core/no_first_barrier.c` and
`/repo/src/core/no_socket_barriers.c`.
-/
namespace ExtMpi.BarrierPasses

/-- Lines of a program as far as the passes distinguish them: `socket_barrier`, `nop`, `waitany` with
count 0 and all others. The number of a barrier identifies it in statements; the passes do not look at
it. `α` is what identifies the other lines. -/
inductive Line (α : Type) where
  | barrier (id : Nat)
  | nop
  | waitany0
  | work (k : α)
  deriving DecidableEq, Repr

/-- The loop of `ext_mpi_clean_barriers` up to the next barrier (`src/mpi/clean_barriers.c:49-58`): lines
written, `flag2`, and the barrier with what follows it unless the program has ended. -/
def runSeg {α : Type} : Bool → List (Line α) → List (Line α) × Bool × Option (Nat × List (Line α))
  | f, [] => ([], f, none)
  | f, .barrier id :: ls => ([], f, some (id, ls))
  | f, .nop :: ls => runSeg f ls
  | f, .waitany0 :: ls => runSeg f ls
  | _, .work k :: ls =>
    let r := runSeg false ls
    (.work k :: r.1, r.2)

/-- Minimum over `comm_rowl`, then over `comm_columnl` (`src/mpi/clean_barriers.c:60-64`). The processes of a
socket form a grid. -/
def globalFlag {R C : Type} [Fintype R] [Fintype C] (f : R × C → Bool) : R × C → Bool :=
  let row : R × C → Bool := fun p => decide (∀ r, f (r, p.2) = true)
  fun p => decide (∀ c, row (p.1, c) = true)

/-- `ext_mpi_clean_barriers` on all processes of a socket (`src/mpi/clean_barriers.c:17-82`). Every process
takes part in one reduction of `flag2` per barrier; if one of them has ended the others wait forever
(`none`). After a barrier `flag2` is 1, whether it has been written or not. `fuel` bounds the number of
barriers. -/
def clean {α R C : Type} [Fintype R] [Fintype C] : Nat → (R × C → Bool × List (Line α)) → Option (R × C → List (Line α))
  | 0, _ => none
  | fuel + 1, ps =>
    let rs := fun p => runSeg (ps p).1 (ps p).2
    if ∀ p, (rs p).2.2 = none then some fun p => (rs p).1
    else if ∀ p, (rs p).2.2 ≠ none then
      let flag := globalFlag fun p => (rs p).2.1
      (clean fuel fun p => (true, match (rs p).2.2 with | some x => x.2 | none => [])).map fun out p =>
        (rs p).1 ++ (match (rs p).2.2 with
          | some x => if flag p then [] else [.barrier x.1]
          | none => []) ++ out p
    else none

/-- The pass as called: `flag2 = 0` at the beginning. -/
def cleanBarriers {α R C : Type} [Fintype R] [Fintype C] (fuel : Nat) (ps : R × C → List (Line α)) :
    Option (R × C → List (Line α)) :=
  clean fuel fun p => (false, ps p)

/-- `ext_mpi_generate_no_first_barrier` (`src/core/no_first_barrier.c:7-31`). -/
def noFirst {α : Type} : Bool → List (Line α) → List (Line α)
  | _, [] => []
  | true, .barrier _ :: ls => noFirst false ls
  | first, l :: ls => l :: noFirst first ls

/-- `ext_mpi_generate_no_socket_barriers` (`src/core/no_socket_barriers.c:8-41`); `none`: exit because there
is more than one process. -/
def noSocket {α : Type} (numProcesses : Nat) (ls : List (Line α)) : Option (List (Line α)) :=
  if numProcesses ≠ 1 then none
  else some (ls.filter fun l => match l with | .barrier _ => false | _ => true)

end ExtMpi.BarrierPasses
