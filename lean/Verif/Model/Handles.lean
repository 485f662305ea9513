/-!
# Handle table of the persistent collectives

Model of the bookkeeping in `/repo/src/mpi/ext_mpi_native.c`: `get_handle`
(168-231), the assignments of `init_epilogue` to the table (488-548),
`EXT_MPI_Start_native` (233-247), `EXT_MPI_Test_native` (249-256),
`EXT_MPI_Progress_native` (258-267), `EXT_MPI_Wait_native` (269-281) and
`EXT_MPI_Done_native` (283-398).

Simplifications: a compiled program is an abstract identity (`Nat`, the address
returned by `malloc`), an execution pointer is represented by the program it
points into; running the interpreter to its end sets the pointer to NULL
(`*ip_exec = NULL`, `src/mpi/ext_mpi_native_exec.c:437`).  Out-of-range accesses
and dereferences of NULL are the outcome `none`.
-/
namespace ExtMpi.Handles

/-- The four static variables (`src/mpi/ext_mpi_native.c:63-67`):
`alloc` = the three tables are allocated, `max` = `handle_code_max`. -/
structure State where
  alloc : Bool
  max : Nat
  code : Nat → Option Nat
  exec : Nat → Option Nat
  wait : Nat → Nat

/-- `src/mpi/ext_mpi_native.c:63-67`. -/
def init : State :=
  { alloc := false, max := 100, code := fun _ => none, exec := fun _ => none, wait := fun _ => 0 }

/-- Functional array update. -/
def upd {α : Type} (f : Nat → α) (i : Nat) (v : α) : Nat → α :=
  fun j => if j = i then v else f j

/-- First part of `get_handle` (`src/mpi/ext_mpi_native.c:171-186`): allocate and clear. -/
def allocate (s : State) : State :=
  if s.alloc then s
  else { s with alloc := true, code := fun _ => none, exec := fun _ => none, wait := fun _ => 0 }

/-- `while ((comm_code[handle] != NULL) && (handle < handle_code_max - 2)) handle += 2;`
(`src/mpi/ext_mpi_native.c:188-190`).  `fuel` bounds the iterations. -/
def scan (code : Nat → Option Nat) (max : Nat) : Nat → Nat → Nat
  | 0, h => h
  | fuel + 1, h => if (code h).isSome ∧ h < max - 2 then scan code max fuel (h + 2) else h

/-- `get_handle` (`src/mpi/ext_mpi_native.c:168-222`): returns the handle; doubles the table when
the last entry is occupied (new entries cleared, old ones copied). -/
def getHandle (s0 : State) : State × Nat :=
  let s := allocate s0
  let h := scan s.code s.max s.max 0
  if h ≥ s.max - 2 then
    if (s.code h).isSome then
      ({ s with
          max := s.max * 2
          code := fun i => if i < s.max then s.code i else none
          exec := fun i => if i < s.max then s.exec i else none
          wait := fun i => if i < s.max then s.wait i else 0 }, h + 2)
    else (s, h)
  else (s, h)

/-- A successful `EXT_MPI_*_init`: the new program `a` is stored at the handle, the alternate
program at `handle + 1` (`src/mpi/ext_mpi_native.c:488,497-498,538-540`). -/
def newColl (s0 : State) (a : Nat) (alt : Option Nat) : State × Nat :=
  let (s, h) := getHandle s0
  ({ s with code := upd (upd s.code h (some a)) (h + 1) alt }, h)

/-- Table entries `handle` and `handle + 1` may be accessed. -/
def State.InRange (s : State) (h : Nat) : Prop := s.alloc = true ∧ h + 1 < s.max

instance (s : State) (h : Nat) : Decidable (s.InRange h) := by
  unfold State.InRange; infer_instance

/-- `EXT_MPI_Start_native` (`src/mpi/ext_mpi_native.c:233-247`). -/
def start (s : State) (h : Nat) : Option State :=
  if s.InRange h then
    let (code, exec) :=
      if (s.code (h + 1)).isSome then
        (upd (upd s.code h (s.code (h + 1))) (h + 1) (s.code h),
         upd (upd s.exec h (s.exec (h + 1))) (h + 1) (s.exec h))
      else (s.code, s.exec)
    match code h with
    | none => none
    | some c => some { s with code := code, exec := upd exec h (some c), wait := upd s.wait h 0 }
  else none

/-- `EXT_MPI_Test_native` (`src/mpi/ext_mpi_native.c:249-256`).  `fin` tells whether the
interpreter reached the end of the program.  Returns the flag. -/
def test (s : State) (h : Nat) (fin : Bool) : Option (State × Bool) :=
  if s.InRange h then
    let exec := if (s.exec h).isSome && fin then upd s.exec h none else s.exec
    some ({ s with wait := upd s.wait h 1, exec := exec }, (exec h).isNone)
  else none

/-- `EXT_MPI_Wait_native` (`src/mpi/ext_mpi_native.c:269-281`); the interpreter runs to the end. -/
def waitH (s : State) (h : Nat) : Option State :=
  if s.InRange h then
    some { s with wait := upd s.wait h 0, exec := upd s.exec h none }
  else none

/-- `EXT_MPI_Done_native` (`src/mpi/ext_mpi_native.c:283-398`): wait, free both programs, free the
tables when no program is left.  Freeing a program that is NULL dereferences its header. -/
def done (s0 : State) (h : Nat) : Option State :=
  match waitH s0 h with
  | none => none
  | some s =>
    match s.code h with
    | none => none
    | some _ =>
      let code := upd (upd s.code h none) (h + 1) none
      if (List.range s.max).all fun i => (code i).isNone then
        some { s with code := code, alloc := false }
      else some { s with code := code }

/-- `EXT_MPI_Progress_native` (`src/mpi/ext_mpi_native.c:258-267`): walks over all entries without
checking that the tables exist.  `fin h` tells whether the interpreter finishes `h`. -/
def progress (s : State) (fin : Nat → Bool) : Option State :=
  if s.alloc then
    some { s with exec := fun h => if h < s.max ∧ h % 2 = 0 ∧ fin h then none else s.exec h }
  else none

end ExtMpi.Handles
