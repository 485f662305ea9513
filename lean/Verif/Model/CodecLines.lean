import Verif.Model.Codec
/-!
# Copy, reduce and message lines in binary form

`ext_mpi_read_irecv_isend`, `ext_mpi_read_memcpy_reduce`, `ext_mpi_write_irecv_isend` and
`ext_mpi_write_memcpy_reduce` of `/repo/src/core/read_write.c`. The structures and the local
variables of the readers are one store `Var → Word`.
-/
namespace ExtMpi.Codec

/-- Members of `struct line_irecv_isend` and `struct line_memcpy_reduce`
(`include/core/read_write.h:97-123`; a message line uses the names with 1) and the local variables
`estring`, `estring2` of the readers. -/
inductive Var
  | type | bt1 | bn1 | is1 | on1 | off1 | bt2 | bn2 | is2 | on2 | off2 | size | partner | mtag
  | estr | estr2
  deriving DecidableEq, Repr

abbrev Store := Var → Word

/-- Assignment. -/
def Store.set (s : Store) (x : Var) (w : Word) : Store := fun y => if y = x then w else s y

/-- Assignments made by reading a line. -/
def assign (s : Store) : List Var → List (Option Word) → Store
  | x :: xs, some w :: ws => assign (s.set x w) xs ws
  | _ :: xs, none :: ws => assign s xs ws
  | _, _ => s

/-! Enumerators of `enum eassembler_type` (`include/core/read_write.h:33-64`). -/
def ememcpy : Word := 4
def ememcp_ : Word := 5
def esmemcpy : Word := 6
def esmemcp_ : Word := 7
def ereduce : Word := 8
def ereduc_ : Word := 9
def esreduce : Word := 10
def esreduc_ : Word := 11
def eirecv : Word := 12
def eirec_ : Word := 13
def eisend : Word := 14
def eisen_ : Word := 15
def eshmemo : Word := 22
def ecpbuffer_offseto : Word := 23
def ecp : Word := 24

open Kind Var

/-- Call of `ext_mpi_read_assembler_line` with the addresses of variables: return value and store. -/
def readInto (line : List Byte) (ps : List (Kind × Var)) (st : Store) : Option (Int × Store) :=
  (getAsm line (ps.map Prod.fst)).map fun r => (r.1, assign st (ps.map Prod.snd) r.2)

/-- Types of copy and reduce lines (`src/core/read_write.c:1497-1498`). -/
def isMemcpyReduce (t : Word) : Bool :=
  t == ememcpy || t == ememcp_ || t == ereduce || t == ereduc_ || t == esmemcpy || t == esmemcp_ ||
    t == esreduce || t == esreduc_

/-- Types of message lines (`src/core/read_write.c:1473`). -/
def isMessage (t : Word) : Bool := t == eirecv || t == eirec_ || t == eisend || t == eisen_

/-- A final read whose failure ends the program (`exit(1)`, here `none`). -/
def readOrExit (line : List Byte) (ps : List (Kind × Var)) (st : Store) : Option Store :=
  match readInto line ps st with
  | none => none
  | some (i, st) => if i < 0 then none else some st

/-- `ext_mpi_read_irecv_isend` (`src/core/read_write.c:1467-1489`). -/
def readMessage (line : List Byte) (st : Store) : Option (Int × Store) := do
  let st := ((st.set bn1 (word (-1))).set on1 (word (-1))).set is1 0
  let (i, st) ← readInto line [(s, type)] st
  if i ≥ 0 ∧ isMessage (st type) then
    let (i, st) ← readInto line [(s, type), (s, bt1), (d, off1), (d, size), (d, partner), (d, mtag)] st
    if i < 0 ∨ st bt1 = eshmemo then
      let (i, st) ← readInto line [(s, type), (s, bt1), (d, bn1), (s, estr), (d, off1), (d, size),
        (d, partner), (d, mtag)] st
      if i < 0 ∨ st estr = ecpbuffer_offseto then
        let st ← readOrExit line [(s, type), (s, bt1), (d, bn1), (s, estr), (d, on1), (s, estr),
          (d, off1), (d, size), (d, partner), (d, mtag)] (st.set is1 1)
        return (1, st)
      else return (1, st)
    else return (1, st)
  else return (0, st)

/-- The part of `ext_mpi_read_memcpy_reduce` for a first operand in shared memory with offset
(`src/core/read_write.c:1503-1515`). -/
def readOffset1 (line : List Byte) (st : Store) : Option Store := do
  let st := st.set is1 1
  let (i, st) ← readInto line [(s, type), (s, bt1), (d, bn1), (s, estr), (d, on1), (s, estr), (d, off1),
    (s, bt2), (d, off2), (d, size)] st
  if i < 0 ∨ st bt2 = eshmemo then
    let (i, st) ← readInto line [(s, type), (s, bt1), (d, bn1), (s, estr), (d, on1), (s, estr), (d, off1),
      (s, bt2), (d, bn2), (s, estr2), (d, off2), (d, size)] st
    let st := st.set is2 0
    if i < 0 ∨ st estr2 = ecpbuffer_offseto then
      readOrExit line [(s, type), (s, bt1), (d, bn1), (s, estr), (d, on1), (s, estr), (d, off1),
        (s, bt2), (d, bn2), (s, estr), (d, on2), (s, estr), (d, off2), (d, size)] (st.set is2 1)
    else return st
  else return st

/-- First operand in shared memory without offset (`src/core/read_write.c:1516-1530`). -/
def readShared1 (line : List Byte) (st : Store) : Option Store := do
  let st := (st.set is1 0).set on1 (word (-1))
  let (i, st) ← readInto line [(s, type), (s, bt1), (d, bn1), (s, estr), (d, off1), (s, bt2), (d, off2),
    (d, size)] st
  if i < 0 ∨ st bt2 = eshmemo then
    let (i, st) ← readInto line [(s, type), (s, bt1), (d, bn1), (s, estr), (d, off1), (s, bt2), (d, bn2),
      (s, estr2), (d, off2), (d, size)] st
    if i < 0 ∨ st estr2 = ecpbuffer_offseto then
      readOrExit line [(s, type), (s, bt1), (d, bn1), (s, estr), (d, off1), (s, bt2), (d, bn2),
        (s, estr), (d, on2), (s, estr), (d, off2), (d, size)] (st.set is2 1)
    else return (st.set is2 0).set on2 (word (-1))
  else return st

/-- First operand in private memory (`src/core/read_write.c:1532-1544`). -/
def readPrivate1 (line : List Byte) (st : Store) : Option Store := do
  let (i, st) ← readInto line [(s, type), (s, bt1), (d, off1), (s, bt2), (d, off2), (d, size)] st
  if i < 0 ∨ st bt2 = eshmemo then
    let (i, st) ← readInto line [(s, type), (s, bt1), (d, off1), (s, bt2), (d, bn2), (s, estr), (d, off2),
      (d, size)] st
    if i < 0 ∨ st estr = ecpbuffer_offseto then
      readOrExit line [(s, type), (s, bt1), (d, off1), (s, bt2), (d, bn2), (s, estr), (d, on2),
        (s, estr), (d, off2), (d, size)] (st.set is2 1)
    else return (st.set is2 0).set on2 (word (-1))
  else return st

/-- `ext_mpi_read_memcpy_reduce` (`src/core/read_write.c:1491-1551`). -/
def readCopy (line : List Byte) (st : Store) : Option (Int × Store) := do
  let st := ((((((st.set bn1 (word (-1))).set on1 (word (-1))).set bn2 (word (-1))).set on2 (word (-1))).set
    is1 0).set is2 0)
  let (i, st) ← readInto line [(s, type)] st
  if i ≥ 0 ∧ isMemcpyReduce (st type) then
    let (i, st) ← readInto line [(s, type), (s, bt1), (d, off1)] st
    if i < 0 ∨ st bt1 = eshmemo then
      let (i, st) ← readInto line [(s, type), (s, bt1), (d, bn1), (s, estr), (d, off1)] st
      if i < 0 ∨ st estr = ecpbuffer_offseto then
        (readOffset1 line st).map fun st => (1, st)
      else
        (readShared1 line st).map fun st => (1, st)
    else
      (readPrivate1 line st).map fun st => (1, st)
  else return (0, st)

/-- Fields of an operand (`src/core/read_write.c:1553-1589`): private memory, shared memory, shared
memory with buffer offset. -/
def operand (bt bn isOff on off : Word) : List Field :=
  if bt ≠ eshmemo then [⟨s, bt⟩, ⟨d, off⟩]
  else if isOff = 0 then [⟨s, bt⟩, ⟨d, bn⟩, ⟨s, ecp⟩, ⟨d, off⟩]
  else [⟨s, bt⟩, ⟨d, bn⟩, ⟨s, ecpbuffer_offseto⟩, ⟨d, on⟩, ⟨s, ecp⟩, ⟨d, off⟩]

/-- `ext_mpi_write_irecv_isend`; the three cases of the code differ only in the operand
(`src/core/read_write.c:1553-1561`). -/
def writeMessage (st : Store) : List Byte :=
  putAsm (⟨s, st type⟩ :: (operand (st bt1) (st bn1) (st is1) (st on1) (st off1) ++
    [⟨d, st size⟩, ⟨d, st partner⟩, ⟨d, st mtag⟩]))

/-- `ext_mpi_write_memcpy_reduce`; the nine cases of the code differ only in the operands
(`src/core/read_write.c:1563-1589`). -/
def writeCopy (st : Store) : List Byte :=
  putAsm (⟨s, st type⟩ :: (operand (st bt1) (st bn1) (st is1) (st on1) (st off1) ++
    operand (st bt2) (st bn2) (st is2) (st on2) (st off2) ++ [⟨d, st size⟩]))

end ExtMpi.Codec
