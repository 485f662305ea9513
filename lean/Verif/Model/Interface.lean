/-!
# MPI wrappers

Model of the request wrappers of `/repo/src/mpi/ext_mpi_interface.c` (119-281).
The library and the underlying MPI are two components of the world, `L` and `F`, with abstract
calls; `search` is the result of `ext_mpi_hash_search` (modelled in `Verif.Model.HashTable`;
the table does not change during the calls below except in `MPI_Request_free`).
Simplification: `search` is assumed to return (see C07 for when it does not).
-/
namespace ExtMpi.Interface

/-- `MPI_SUCCESS`. -/
def SUCCESS : Int := 0

/-- The calls the wrappers are built from.  `Req` is the value of an `MPI_Request`, `S` a status.
The underlying MPI (`p...`) may overwrite the request. -/
structure Mpi (L F Req S : Type) where
  search : Req → Int
  extStart : L → Int → L
  extWait : L → Int → L
  extTest : L → Int → L × Bool
  extDone : L → Int → L
  pStart : F → Req → F × Req × Int
  pWait : F → Req → F × Req × Int × S
  pTest : F → Req → F × Req × Int × Bool × S
  pFree : F → Req → F × Req × Int
  pWaitall : F → List Req → F × List Req × Int × List S
  pTestall : F → List Req → F × List Req × Int × Bool × List S
  pTestany : F → List Req → F × List Req × Int × Bool × Nat × S

variable {L F Req S : Type} (m : Mpi L F Req S)

/-- `MPI_Request_free` (`src/mpi/ext_mpi_interface.c:119-126`), without the table deletion. -/
def requestFree (l : L) (f : F) (r : Req) : L × F × Req × Int :=
  let l := if m.search r ≥ 0 then m.extDone l (m.search r) else l
  let (f, r, ret) := m.pFree f r
  (l, f, r, ret)

/-- `MPI_Start` (`src/mpi/ext_mpi_interface.c:128-136`). -/
def start (l : L) (f : F) (r : Req) : L × F × Req × Int :=
  if m.search r ≥ 0 then (m.extStart l (m.search r), f, r, SUCCESS)
  else let (f, r, ret) := m.pStart f r; (l, f, r, ret)

/-- `MPI_Wait` (`src/mpi/ext_mpi_interface.c:138-146`); the status is written only by the
underlying MPI. -/
def wait (l : L) (f : F) (r : Req) : L × F × Req × Int × Option S :=
  if m.search r ≥ 0 then (m.extWait l (m.search r), f, r, SUCCESS, none)
  else let (f, r, ret, st) := m.pWait f r; (l, f, r, ret, some st)

/-- `MPI_Test` (`src/mpi/ext_mpi_interface.c:213-221`). -/
def test (l : L) (f : F) (r : Req) : L × F × Req × Int × Bool × Option S :=
  if m.search r ≥ 0 then
    let (l, flag) := m.extTest l (m.search r)
    (l, f, r, SUCCESS, flag, none)
  else let (f, r, ret, flag, st) := m.pTest f r; (l, f, r, ret, flag, some st)

/-- `is_in_request_array` (`src/mpi/ext_mpi_interface.c:148-156`). -/
def isInRequestArray (rs : List Req) : Bool := rs.any fun r => m.search r ≥ 0

/-- The loop of `MPI_Waitall` (`src/mpi/ext_mpi_interface.c:163-177`); both branches do the same
to the world.  Stops at the first error. -/
def waitLoop (l : L) (f : F) : List Req → L × F × List Req × Int × List (Option S)
  | [] => (l, f, [], SUCCESS, [])
  | r :: rs =>
    let (l, f, r, ret, st) := wait m l f r
    if ret ≠ SUCCESS then (l, f, r :: rs, ret, [st])
    else
      let (l, f, rs, ret, sts) := waitLoop l f rs
      (l, f, r :: rs, ret, st :: sts)

/-- `MPI_Waitall` (`src/mpi/ext_mpi_interface.c:158-179`). -/
def waitall (l : L) (f : F) (rs : List Req) : L × F × List Req × Int × List (Option S) :=
  if isInRequestArray m rs then waitLoop m l f rs
  else let (f, rs, ret, sts) := m.pWaitall f rs; (l, f, rs, ret, sts.map some)

/-- The loop of `MPI_Testall` (`src/mpi/ext_mpi_interface.c:228-245`), the variable `*flag` being
passed along.  `ignore` is the branch with `MPI_STATUSES_IGNORE`, in which line 235 assigns to the
pointer `flag` and leaves `*flag` alone. -/
def testallLoop (ignore : Bool) (l : L) (f : F) (flag : Bool) :
    List Req → L × F × List Req × Int × Bool
  | [] => (l, f, [], SUCCESS, flag)
  | r :: rs =>
    let (l, f, r, ret, lflag, _) := test m l f r
    if ret ≠ SUCCESS then (l, f, r :: rs, ret, flag)
    else
      let flag := if lflag then flag else (if ignore then flag else false)
      let (l, f, rs, ret, flag) := testallLoop ignore l f flag rs
      (l, f, r :: rs, ret, flag)

/-- `MPI_Testall` (`src/mpi/ext_mpi_interface.c:223-248`). -/
def testall (ignore : Bool) (l : L) (f : F) (rs : List Req) : L × F × List Req × Int × Bool :=
  if isInRequestArray m rs then testallLoop m ignore l f true rs
  else let (f, rs, ret, flag, _) := m.pTestall f rs; (l, f, rs, ret, flag)

/-- The loop of `MPI_Testany` (`src/mpi/ext_mpi_interface.c:256-266`); `none`: `*indx` is not
written.  `i` is the running index. -/
def testanyLoop (l : L) (f : F) (i : Nat) : List Req → L × F × List Req × Int × Bool × Option Nat
  | [] => (l, f, [], SUCCESS, false, none)
  | r :: rs =>
    let (l, f, r, ret, lflag, _) := test m l f r
    if ret ≠ SUCCESS then (l, f, r :: rs, ret, false, none)
    else if lflag then (l, f, r :: rs, SUCCESS, true, some i)
    else
      let (l, f, rs, ret, flag, idx) := testanyLoop l f (i + 1) rs
      (l, f, r :: rs, ret, flag, idx)

/-- `MPI_Testany` (`src/mpi/ext_mpi_interface.c:250-268`). -/
def testany (l : L) (f : F) (rs : List Req) : L × F × List Req × Int × Bool × Option Nat :=
  if isInRequestArray m rs then testanyLoop m l f 0 rs
  else let (f, rs, ret, flag, i, _) := m.pTestany f rs; (l, f, rs, ret, flag, some i)

/-- `MPI_Testsome` (`src/mpi/ext_mpi_interface.c:270-281`) on an array with a library request:
returns `outcount` and `array_of_indices[0]` (`none`: not written). The local `flag` is dropped. -/
def testsome (l : L) (f : F) (rs : List Req) : L × F × List Req × Int × Nat × Option Nat :=
  let (l, f, rs, ret, _flag, idx) := testany m l f rs
  (l, f, rs, ret, 1, idx)

/-- One pass of the endless loop of `MPI_Waitany` is `testanyLoop`; the passes repeat
(`src/mpi/ext_mpi_interface.c:186-197`).  `none` = still looping after `fuel` passes. -/
def waitanyLoop : Nat → L → F → List Req → Option (L × F × List Req × Int × Option Nat)
  | 0, _, _, _ => none
  | fuel + 1, l, f, rs =>
    match testanyLoop m l f 0 rs with
    | (l, f, rs, ret, flag, idx) =>
      if ret ≠ SUCCESS then some (l, f, rs, ret, none)
      else if flag then some (l, f, rs, SUCCESS, idx)
      else waitanyLoop fuel l f rs

/-- `MPI_Waitsome` (`src/mpi/ext_mpi_interface.c:201-211`) on an array with a library request. -/
def waitsome (fuel : Nat) (l : L) (f : F) (rs : List Req) :
    Option (L × F × List Req × Int × Nat × Option Nat) :=
  (waitanyLoop m fuel l f rs).map fun (l, f, rs, ret, idx) => (l, f, rs, ret, 1, idx)

/-! ### Regular collectives -/

/-- Signed 32-bit multiplication of non-negative ints; `none` is overflow (undefined). -/
def mulInt (a b : Nat) : Option Nat := if a * b < 2 ^ 31 then some (a * b) else none

/-- `recvcounts[i]=recvcount; displs[i]=i*recvcount;`
(`src/mpi/ext_mpi_interface.c:290-293,327-330,348-351`). -/
def regular (size count : Nat) : Option (List Nat × List Nat) :=
  match (List.range size).mapM fun i => mulInt i count with
  | none => none
  | some displs => some (List.replicate size count, displs)

/-! ### Ids of communicators for blocking collectives -/

/-- `comms_blocking` (`src/mpi/ext_mpi_interface.c:12`) and the table from communicators to ids
(`src/mpi/hash_table_blocking.c`, abstracted to a map, see C06). -/
structure Comms (K : Type) where
  used : Nat → Bool
  table : K → Option Nat

/-- `while (comms_blocking[i]) i++;` in an array of 100 entries; `none` = read past the end
(`src/mpi/ext_mpi_interface.c:12,432-433`). -/
def firstFree (used : Nat → Bool) : Nat → Nat → Option Nat
  | 0, _ => none
  | fuel + 1, i => if used i then firstFree used fuel (i + 1) else some i

/-- `sizeof(comms_blocking)/sizeof(int)`. -/
def NCOMMS : Nat := 100

variable {K : Type} [DecidableEq K]

/-- Table update. -/
def updK {V : Type} (t : K → V) (k : K) (v : V) : K → V := fun j => if j = k then v else t j

/-- Array update. -/
def updU (t : Nat → Bool) (k : Nat) (v : Bool) : Nat → Bool := fun j => if j = k then v else t j

/-- `MPI_Init` (`src/mpi/ext_mpi_interface.c:33-41`). -/
def commsInit (world : K) : Comms K :=
  { used := fun i => i == 0, table := updK (fun _ => none) world (some 0) }

/-- `add_comm_to_blocking` (`src/mpi/ext_mpi_interface.c:431-438`); the new communicator may be
`MPI_COMM_NULL` (here `none`), for which `EXT_MPI_Init_blocking_comm` calls
`MPI_Comm_size` (erroneous, outcome `none`). Returns the id. -/
def addComm (s : Comms K) (c : Option K) : Option (Comms K × Nat) :=
  match firstFree s.used NCOMMS 0, c with
  | some i, some c => some ({ used := updU s.used i true, table := updK s.table c (some i) }, i)
  | _, _ => none

/-- `remove_comm_from_blocking` (`src/mpi/ext_mpi_interface.c:440-446`); a communicator that is
not in the table gives `comms_blocking[-1]` (outcome `none`). -/
def removeComm (s : Comms K) (c : K) : Option (Comms K) :=
  match s.table c with
  | none => none
  | some i => some { used := updU s.used i false, table := updK s.table c none }

end ExtMpi.Interface
