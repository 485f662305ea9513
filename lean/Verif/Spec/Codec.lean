import Verif.Model.CodecLines
/-! What a line means, independently of its serialised form. -/
namespace ExtMpi.Codec
open Var

/-- Normal form of an operand: buffer number only in shared memory, offset number only with a buffer
offset; `-1` otherwise. -/
structure Operand where
  bufferType : Word
  bufferNumber : Word
  isOffset : Word
  offsetNumber : Word
  offset : Word
  deriving DecidableEq, Repr

def Operand.norm (o : Operand) : Operand :=
  if o.bufferType ≠ eshmemo then ⟨o.bufferType, word (-1), 0, word (-1), o.offset⟩
  else if o.isOffset = 0 then ⟨o.bufferType, o.bufferNumber, 0, word (-1), o.offset⟩
  else ⟨o.bufferType, o.bufferNumber, 1, o.offsetNumber, o.offset⟩

def operand1 (st : Store) : Operand := ⟨st bt1, st bn1, st is1, st on1, st off1⟩
def operand2 (st : Store) : Operand := ⟨st bt2, st bn2, st is2, st on2, st off2⟩

end ExtMpi.Codec
