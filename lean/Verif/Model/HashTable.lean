/-!
# Request table

Model of `/repo/src/mpi/hash_table.c` (identical, up to the key type, to
`/repo/src/mpi/hash_table_blocking.c`): open addressing with linear probing in
256 slots and a shared tombstone `dummyItem`.
-/
namespace ExtMpi.HashTable

/-- `#define SIZE 256` (`src/mpi/hash_table.c:8`). -/
def SIZE : Nat := 256

/-- An `MPI_Request` / `MPI_Comm` value, given by its bytes
(`src/mpi/hash_table.c:18-25` accesses it bytewise; 4 or 8 bytes depending on the
MPI implementation, any number here). -/
abbrev Key := List (BitVec 8)

/-- `hashCode`: the sum of the bytes in an `unsigned char`
(`src/mpi/hash_table.c:18-25`). -/
def hashCode (k : Key) : Nat := (k.foldl (fun v b => v + b) (0 : BitVec 8)).toNat

/-- One entry of `hashArray`: `NULL`, the shared `dummyItem` (key
`MPI_REQUEST_NULL`, data -1) or an allocated item (`src/mpi/hash_table.c:10-16,80-93`). -/
inductive Slot where
  | null
  | dummy
  | item (key : Key) (data : Int)
  deriving DecidableEq, Repr

/-- `hashArray`; only indices below `SIZE` are used. -/
abbrev Table := Nat → Slot

/-- `ext_mpi_hash_init` (`src/mpi/hash_table.c:80-93`). -/
def init : Table := fun _ => .null

/-- The loop of `ext_mpi_hash_search` (`src/mpi/hash_table.c:30-40`).
`fuel` counts loop iterations; `none` means "still running", so the C loop
diverges iff the result is `none` for every `fuel`.
`nullKey` is `MPI_REQUEST_NULL`. -/
def searchLoop (nullKey : Key) (t : Table) (k : Key) : Nat → Nat → Option Int
  | 0, _ => none
  | fuel + 1, i =>
    match t i with
    | .null => some (-1)
    | .dummy => if nullKey = k then some (-1) else searchLoop nullKey t k fuel ((i + 1) % SIZE)
    | .item k' d => if k' = k then some d else searchLoop nullKey t k fuel ((i + 1) % SIZE)

/-- `ext_mpi_hash_search` (`src/mpi/hash_table.c:27-41`). -/
def search (nullKey : Key) (t : Table) (k : Key) (fuel : Nat) : Option Int :=
  searchLoop nullKey t k fuel (hashCode k)

/-- Functional array update. -/
def set (t : Table) (i : Nat) (v : Slot) : Table := fun j => if j = i then v else t j

/-- The loop of `ext_mpi_hash_insert` (`src/mpi/hash_table.c:49-57`).  An item whose key is
`MPI_REQUEST_NULL` counts as free, like the dummy.  No check for an existing item with the
same key. -/
def insertLoop (nullKey : Key) (t : Table) (k : Key) (d : Int) : Nat → Nat → Option Table
  | 0, _ => none
  | fuel + 1, i =>
    match t i with
    | .null => some (set t i (.item k d))
    | .dummy => some (set t i (.item k d))
    | .item k' _ =>
      if k' = nullKey then some (set t i (.item k d))
      else insertLoop nullKey t k d fuel ((i + 1) % SIZE)

/-- `ext_mpi_hash_insert` (`src/mpi/hash_table.c:43-58`). -/
def insert (nullKey : Key) (t : Table) (k : Key) (d : Int) (fuel : Nat) : Option Table :=
  insertLoop nullKey t k d fuel (hashCode k)

/-- Result of `ext_mpi_hash_delete`: the value returned and the new table, or
undefined behaviour (`free(dummyItem)` when the null key is deleted). -/
inductive DelRes where
  | ok (ret : Int) (t : Table)
  | undefined

/-- The loop of `ext_mpi_hash_delete` (`src/mpi/hash_table.c:63-77`). -/
def deleteLoop (nullKey : Key) (t : Table) (k : Key) : Nat → Nat → Option DelRes
  | 0, _ => none
  | fuel + 1, i =>
    match t i with
    | .null => some (.ok (-1) t)
    | .dummy => if nullKey = k then some .undefined
        else deleteLoop nullKey t k fuel ((i + 1) % SIZE)
    | .item k' d => if k' = k then some (.ok d (set t i .dummy))
        else deleteLoop nullKey t k fuel ((i + 1) % SIZE)

/-- `ext_mpi_hash_delete` (`src/mpi/hash_table.c:60-78`). -/
def delete (nullKey : Key) (t : Table) (k : Key) (fuel : Nat) : Option DelRes :=
  deleteLoop nullKey t k fuel (hashCode k)

/-! ### Histories -/

/-- Operations as issued by the wrappers of `src/mpi/ext_mpi_interface.c`. -/
inductive Op where
  | search (k : Key)
  | insert (k : Key) (d : Int)
  | delete (k : Key)

/-- One operation with an iteration budget; output: value returned (0 for insert). -/
def stepOp (nullKey : Key) (fuel : Nat) (t : Table) : Op → Option (Table × Int)
  | .search k => (search nullKey t k fuel).map fun d => (t, d)
  | .insert k d => (insert nullKey t k d fuel).map fun t' => (t', 0)
  | .delete k =>
    match delete nullKey t k fuel with
    | some (.ok d t') => some (t', d)
    | _ => none

/-- A history; collects the outputs. -/
def runOps (nullKey : Key) (fuel : Nat) : Table → List Op → Option (Table × List Int)
  | t, [] => some (t, [])
  | t, op :: ops =>
    match stepOp nullKey fuel t op with
    | none => none
    | some (t', o) => (runOps nullKey fuel t' ops).map fun (t'', os) => (t'', o :: os)

end ExtMpi.HashTable
