/-!
# The binary exchange format between the passes

`/repo/src/core/read_write.c`, binary part. A buffer is the list of its bytes, `int` and `enum` are
32-bit words in little-endian order (x86; the format never leaves the machine). Reading past the end
of the buffer gives `none`. Allocation failures are not modelled.
-/
namespace ExtMpi.Codec

abbrev Byte := BitVec 8
abbrev Word := BitVec 32

/-- Bytes written by `memcpy(buffer, &w, sizeof(int))`. -/
def putWord (w : Word) : List Byte :=
  [BitVec.ofNat 8 w.toNat, BitVec.ofNat 8 (w.toNat / 256), BitVec.ofNat 8 (w.toNat / 65536),
   BitVec.ofNat 8 (w.toNat / 16777216)]

/-- `memcpy(&w, buffer, sizeof(int))` with the remaining buffer. -/
def getWord : List Byte → Option (Word × List Byte)
  | a :: b :: c :: d :: rest =>
    some (BitVec.ofNat 32 (a.toNat + 256 * b.toNat + 65536 * c.toNat + 16777216 * d.toNat), rest)
  | _ => none

/-- Signed value of a word. -/
def val (w : Word) : Int := w.toInt

/-- Word of a signed value. -/
def word (z : Int) : Word := BitVec.ofInt 32 z

/-! ## Algorithms -/

/-- `struct data_algorithm_line` (`include/core/read_write.h`). The arrays of partner nodes and lines
have the same length, hence pairs. -/
structure ALine where
  frac : Word
  sendto : List (Word × Word)
  recvfrom : List (Word × Word)
  reducefrom : List Word
  copyreducefrom : List Word
  deriving DecidableEq, Repr

/-- `struct data_algorithm`: blocks of lines. -/
abbrev Algorithm := List (List ALine)

/-- Length as `int`. -/
def len {α : Type} (l : List α) : Word := BitVec.ofNat 32 l.length

/-- Array of ints (`memcpy` of `n` ints). -/
def putWords (l : List Word) : List Byte := l.flatMap putWord

/-- One line (`src/core/read_write.c:957-979`). -/
def putLine (l : ALine) : List Byte :=
  putWord l.frac ++ putWord (len l.sendto) ++ putWord (len l.recvfrom) ++ putWord (len l.reducefrom) ++
    putWord (len l.copyreducefrom) ++ putWords (l.sendto.map Prod.fst) ++ putWords (l.sendto.map Prod.snd) ++
    putWords (l.recvfrom.map Prod.fst) ++ putWords (l.recvfrom.map Prod.snd) ++ putWords l.reducefrom ++
    putWords l.copyreducefrom

/-- One block (`src/core/read_write.c:953-980`). -/
def putBlock (b : List ALine) : List Byte := putWord (len b) ++ b.flatMap putLine

/-- `ext_mpi_write_algorithm`, binary (`src/core/read_write.c:947-981`). -/
def putAlgorithm (a : Algorithm) : List Byte := putWord (len a) ++ a.flatMap putBlock

/-- `n` repetitions of a reader (a `for` loop over `i < n`). -/
def repeatRead {α : Type} (rd : List Byte → Option (α × List Byte)) :
    Nat → List Byte → Option (List α × List Byte)
  | 0, b => some ([], b)
  | n + 1, b => do
    let (x, b) ← rd b
    let (xs, b) ← repeatRead rd n b
    return (x :: xs, b)

/-- `n` ints; nothing is read unless `n > 0` (`src/core/read_write.c:823` and similar). -/
def getWords (n : Word) (b : List Byte) : Option (List Word × List Byte) :=
  repeatRead getWord (val n).toNat b

/-- One line (`src/core/read_write.c:812-871`). -/
def getLine (b : List Byte) : Option (ALine × List Byte) := do
  let (frac, b) ← getWord b
  let (ns, b) ← getWord b
  let (nr, b) ← getWord b
  let (nd, b) ← getWord b
  let (nc, b) ← getWord b
  let (sn, b) ← getWords ns b
  let (sl, b) ← getWords ns b
  let (rn, b) ← getWords nr b
  let (rl, b) ← getWords nr b
  let (rd, b) ← getWords nd b
  let (cr, b) ← getWords nc b
  return ({ frac := frac, sendto := sn.zip sl, recvfrom := rn.zip rl, reducefrom := rd,
            copyreducefrom := cr }, b)

/-- One block (`src/core/read_write.c:804-872`). -/
def getBlock (b : List Byte) : Option (List ALine × List Byte) := do
  let (n, b) ← getWord b
  repeatRead getLine (val n).toNat b

/-- `ext_mpi_read_algorithm`, binary: the algorithm and what follows it in the buffer
(`src/core/read_write.c:798-873`). -/
def getAlgorithm (b : List Byte) : Option (Algorithm × List Byte) := do
  let (n, b) ← getWord b
  repeatRead getBlock (val n).toNat b

/-! ## Assembler lines -/

/-- Characters of a field pattern: `'s'` (word) and `'d'` (integer). -/
inductive Kind
  | s
  | d
  deriving DecidableEq, Repr

/-- One field of an assembler line. -/
structure Field where
  kind : Kind
  value : Word
  deriving DecidableEq, Repr

/-- Tag byte of a field (`src/core/read_write.c:1135`, `1144`). -/
def tag : Kind → Byte
  | .s => 0
  | .d => 1

/-- `write_assembler_string`, `write_assembler_integer` (`src/core/read_write.c:1132-1148`). -/
def putField (f : Field) : List Byte := tag f.kind :: putWord f.value

/-- `ext_mpi_write_assembler_line`, binary (`src/core/read_write.c:1150-1177`): the length of the
line in bytes followed by the fields. -/
def putAsm (fs : List Field) : List Byte :=
  putWord (BitVec.ofNat 32 (4 + (fs.flatMap putField).length)) ++ fs.flatMap putField

/-- Value stored when the tag does not fit: `enop` or `INT_MIN`
(`src/core/read_write.c:1273`, `1284`). `enop` is enumerator 26, `INT_MIN` the word `0x80000000`. -/
def failValue : Kind → Word
  | .s => 26
  | .d => 2147483648#32

/-- Outcome of reading a field. -/
inductive Got
  /-- tag fits, value read, or not assigned because the field starts behind the line -/
  | ok (v : Option Word)
  /-- tag does not fit -/
  | mismatch
  deriving DecidableEq, Repr

/-- `read_assembler_string_bin`, `read_assembler_integer_bin` at position `i` of the buffer
(`src/core/read_write.c:1271-1290`). -/
def getField (buf : List Byte) (n : Int) (k : Kind) (i : Nat) : Option Got :=
  match buf[i]? with
  | none => none
  | some t =>
    if t = tag k then
      if ((i + 1 : Nat) : Int) < n then
        match getWord (buf.drop (i + 1)) with
        | none => none
        | some (w, _) => some (.ok (some w))
      else some (.ok none)
    else some .mismatch

/-- The loop over the pattern. Result: `none` if the buffer is left; otherwise whether all tags
fitted, the assignments (`none`: variable not assigned) and the final position
(`src/core/read_write.c:1300-1313`). -/
def getFields (buf : List Byte) (n : Int) : List Kind → Nat → Option (Bool × List (Option Word) × Nat)
  | [], i => some (true, [], i)
  | k :: ks, i =>
    match getField buf n k i with
    | none => none
    | some .mismatch => some (false, [some (failValue k)], i + 1)
    | some (.ok v) =>
      (getFields buf n ks (i + 5)).map fun (r, vs, j) => (r, v :: vs, j)

/-- `ext_mpi_read_assembler_line`, binary: return value and assignments to the variables
(`src/core/read_write.c:1292-1322`). -/
def getAsm (buf : List Byte) (ks : List Kind) : Option (Int × List (Option Word)) :=
  match getWord buf with
  | none => none
  | some (w, _) =>
    match getFields buf (val w) ks 4 with
    | none => none
    | some (false, vs, _) => some (-11, vs)
    | some (true, vs, j) =>
      if (j : Int) = val w then some (val w, vs)
      else if (j : Int) < val w then some (0, vs)
      else some (-11, vs)

/-! ## Streams of lines -/

/-- `ext_mpi_write_eof`, binary (`src/core/read_write.c:1442-1448`). -/
def eof : List Byte := putWord 0

/-- `ext_mpi_read_line`, binary: return value, line and remaining buffer. A line longer than 99 bytes
makes the code write through a null pointer (`src/core/read_write.c:1373-1379`). The unused rest of
the caller's line buffer is not part of the result. -/
def readLine (buf : List Byte) : Option (Int × List Byte × List Byte) :=
  match getWord buf with
  | none => none
  | some (w, _) =>
    if val w > 99 ∨ val w < 0 ∨ buf.length < (val w).toNat then none
    else some (val w, buf.take (val w).toNat, buf.drop (val w).toNat)

/-- The reading loop of the passes: read lines until one of length 0
(for instance `src/core/no_offset.c:28-60`); `fuel` bounds the number of iterations. -/
def readLines : Nat → List Byte → Option (List (List Byte))
  | 0, _ => none
  | fuel + 1, buf =>
    match readLine buf with
    | none => none
    | some (r, line, rest) =>
      if r = 0 then some [] else (readLines fuel rest).map fun ls => line :: ls

end ExtMpi.Codec
