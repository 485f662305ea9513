import Verif.Model.Segments
/-!
# Shared memory and the operating system

`/repo/src/mpi/shmem.c`: refusal of memory, names of the objects with `MMAP`, release.

Simplifications: as in `Model/Segments.lean`. All processes of the parts about names and release are on one machine and in one
row.
-/
namespace ExtMpi.Segments

/-! ## Refusal of memory -/

/-- What becomes of a call: it ends, it reports `ERROR_SHMEM`, or it writes to an address that is not that of memory. -/
inductive Outcome where
  | ok
  | error
  | undefined
deriving DecidableEq, Repr

/-- The system: `malloc` gives address 0 and `shmget` and `shmat` give -1 if they fail. -/
structure System where
  malloc : Proc → Int
  shmget : Proc → Nat → Int
  shmat : Proc → Int → Int

/-- Address of segment `i` (`src/mpi/shmem.c:149-161`). -/
def address (g : Grid) (sys : System) (i : Nat) (p : Proc) : Int :=
  if single g then sys.malloc p else sys.shmat p (received g sys.shmget i p)

/-- The loop from iteration `i` on with `n` iterations to go, for process `p` (`src/mpi/shmem.c:129-168`, `206-214`). The creator of
a segment writes to it (`165-168`). -/
def outcome (g : Grid) (sys : System) (p : Proc) (i : Nat) : Nat → Outcome
  | 0 => .ok
  | n + 1 =>
    if address g sys i p = 0 then .error
    else if creates g p i && address g sys i p == -1 then .undefined
    else outcome g sys p (i + 1) n

/-! ## Names -/

/-- State of a machine with `MMAP`: `shmem_name_index` of the processes and the objects of shared memory that exist, each by the
number in its name. -/
structure Names where
  next : Nat → Nat
  objects : Nat → Bool

/-- The number in the name (`src/mpi/shmem.c:46-59`): the least rank of the processes and the counter of the process, which is
advanced (`171`). `size` is the number of all processes. -/
def nameOf (size : Nat) (members : List Nat) (s : Names) (p : Nat) : Nat := members.min?.getD 0 + size * s.next p

/-- One segment of an initialisation by the processes `members` (ranks in `MPI_COMM_WORLD`), the first of which creates it
(`src/mpi/shmem.c:170-203`): what each of them opens, `none` if `shm_open` fails, and the state afterwards. -/
def openSegment (size : Nat) (members : List Nat) (s : Names) : (Nat → Option Nat) × Names :=
  let name := nameOf size members s
  let objects := fun x => s.objects x || members.head?.any fun p => name p == x
  (fun p => if objects (name p) then some (name p) else none,
    ⟨fun p => if p ∈ members then s.next p + 1 else s.next p, objects⟩)

/-- Initialisations one after the other, of one segment each: what the processes open in them. -/
def openAll (size : Nat) : List (List Nat) → Names → List (Nat → Option Nat)
  | [], _ => []
  | c :: cs, s => (openSegment size c s).1 :: openAll size cs (openSegment size c s).2

/-! ## Release -/

/-- Segments of System V: the processes that have attached a segment, and whether it is marked for removal. -/
structure Shared where
  attached : Nat → Nat → Bool
  removed : Nat → Bool

/-- A segment exists until it is marked and no process has it attached (`shmctl(2)`). -/
def gone (n : Nat) (s : Shared) (k : Nat) : Prop := s.removed k = true ∧ ∀ p, p < n → s.attached k p = false

/-- Calls of `ext_mpi_destroy_shared_memory` (`src/mpi/shmem.c:62-85`) with System V. The barriers have no effect: the communicators
were freed at the end of the set-up (`207-210`), so that `MPI_COMM_NULL` is in the header of the byte code. -/
inductive Call where
  | detach (k : Nat)
  | remove (k : Nat)
deriving DecidableEq, Repr

/-- The calls of a process for the segments from `k` on, `n` of them. -/
def releaseCalls (k : Nat) : Nat → List Call
  | 0 => []
  | n + 1 => .detach k :: .remove k :: releaseCalls (k + 1) n

/-- Effect of a call of process `p`. A segment that is gone cannot be removed again (the call fails, which is ignored). -/
def Call.run (p : Nat) (s : Shared) : Call → Shared
  | .detach k => { s with attached := fun k' q => if k' = k ∧ q = p then false else s.attached k' q }
  | .remove k => { s with removed := fun k' => if k' = k then true else s.removed k' }

/-- A step of `n` processes: one of them performs its next call. -/
inductive Release (n : Nat) : (Nat → List Call) × Shared → (Nat → List Call) × Shared → Prop where
  | call {rest : Nat → List Call} {s : Shared} {p : Nat} {c : Call} {r : List Call} : p < n → rest p = c :: r →
      Release n (rest, s) (Function.update rest p r, c.run p s)

end ExtMpi.Segments
