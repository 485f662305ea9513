import Verif.Model.CodecLines
/-!
# The look-ahead of the pass `/repo/src/core/waitany.c`

Before a group of reductions the pass looks for the first reduction that follows the wait, to find out whether
it writes into the buffer of the last send. Buffers are lists of bytes as in `Verif.Model.Codec`.
-/
namespace ExtMpi.WaitanyLook
open Codec

/-- Enumerators of `enum eassembler_type` (`include/core/read_write.h:30-62`). -/
def esocket_barrier : Word := 1
def ewaitall : Word := 16
def elocmem : Word := 21
def ereturn : Word := 25

/-- Size in bytes of the `waitall` line, a line with pattern `sdsd` (`src/core/raw_code.c`,
`src/core/read_write.c:1150-1177`). -/
def waitallSize : Nat := 24

/-- The caller's line buffer after `ext_mpi_read_line` (`src/core/read_write.c:1376-1386`): the line
followed by bytes `-1`; also the return value. -/
def fetch (buf : List Byte) : Option (Int × List Byte) :=
  (readLine buf).map fun x => (x.1, x.2.1 ++ List.replicate (99 - x.2.1.length) 255#8)

/-- The loop of `src/core/waitany.c:33-46`. `buf` begins after the `waitall` line, `flag` is the length of
that line and `sent` the offset of the last send. The result is `nreduce`. `none`: the loop does not end within
`fuel` iterations, reads outside of the buffer, or uses a type that has not been assigned. -/
def lookLoop (buf : List Byte) (flag : Nat) (sent : Word) : Nat → Nat → Option Int
  | 0, _ => none
  | fuel + 1, flag3 => do
    let (i, line) ← fetch (buf.drop (flag + flag3))
    let flag3 := flag3 + i.toNat
    match ← getAsm line [.s] with
    | (_, [some t]) =>
      if t = ereturn then some 1
      else if t = ereduce then do
        let (_, st) ← readCopy line (fun _ => 0)
        some (if sent = st .off1 then -1 else 1)
      else if flag3 = 0 then some 1
      else lookLoop buf flag sent fuel flag3
    | _ => none

/-- The look-ahead as called: the position `nbuffer_in` has already been advanced by `flag`
(`src/core/waitany.c:26`, `34`). -/
def look (buf : List Byte) (sent : Word) (fuel : Nat) : Option Int :=
  lookLoop buf waitallSize sent fuel 0

end ExtMpi.WaitanyLook
