import Verif.Model.ByteCode
/-!
# What the byte code of a program should be
-/
namespace ExtMpi.ByteCode
open Codec (Word val)

/-- The operands of a line can be resolved. -/
def Resolves (a : Args) (o : Opd) : Prop := ∃ p, addr a o = some p

/-- All buffer numbers and partners of the line exist. -/
def LineOk (a : Args) : Ln → Prop
  | .isend o _ p _ => Resolves a o ∧ p < a.globalRanks.length
  | .irecv o _ p _ => Resolves a o ∧ p < a.globalRanks.length
  | .memcpy o1 o2 _ => Resolves a o1 ∧ Resolves a o2
  | .reduce o1 o2 _ => Resolves a o1 ∧ Resolves a o2
  | _ => True

/-- The instruction a line stands for: sizes of reductions are counted in elements, barriers inside a socket
vanish when there is one process, empty waits vanish. -/
inductive Means (a : Args) : Ln → List Ins → Prop
  | ret : Means a .ret [.ret]
  | setMany {e} : a.numCores ≠ 1 → Means a (.setBarrier e) [.set e]
  | setOne {e} : a.numCores = 1 → Means a (.setBarrier e) []
  | waitMany {e} : a.numCores ≠ 1 → Means a (.waitBarrier e) [.wait e]
  | waitOne {e} : a.numCores = 1 → Means a (.waitBarrier e) []
  | waitall {n} : n ≠ 0 → Means a (.waitall n) [.waitall n a.locmem]
  | waitall0 : Means a (.waitall 0) []
  | waitany {n k} : Means a (.waitany n k) [.waitany n k a.locmem]
  | attached : Means a .attached [.attached]
  | isend {o s p t q r} : addr a o = some q → a.globalRanks[p]? = some r →
      Means a (.isend o s p t) [.isend q s r (a.locmem + BitVec.ofInt 64 (a.sizeRequest * val t))]
  | irecv {o s p t q r} : addr a o = some q → a.globalRanks[p]? = some r →
      Means a (.irecv o s p t) [.irecv q s r (a.locmem + BitVec.ofInt 64 (a.sizeRequest * val t))]
  | nodeBarrier : Means a .nodeBarrier [.nodeBarrier]
  | socketMany : a.numCores ≠ 1 → Means a .socketBarrier [.socketBarrier]
  | socketOne : a.numCores = 1 → Means a .socketBarrier []
  | memcpy {o1 o2 s p1 p2} : addr a o1 = some p1 → addr a o2 = some p2 →
      Means a (.memcpy o1 o2 s) [.memcpy p1 p2 s]
  | reduce {o1 o2 s p1 p2} : addr a o1 = some p1 → addr a o2 = some p2 →
      Means a (.reduce o1 o2 s) [.reduce a.op p1 p2 (BitVec.ofInt 32 ((val s).tdiv (elemSize a.op)))]
  | other : Means a .other []

/-- The instructions of a program. -/
inductive Program (a : Args) : List Ln → List Ins → Prop
  | nil : Program a [] []
  | cons {l ls is is'} : Means a l is → Program a ls is' → Program a (l :: ls) (is ++ is')

/-- The instructions are grouped as the interpreter demands: after a wait for `n` messages come `n`
marks with only reductions between them; no other instruction `return` than the last. `Grouped p is`:
`p` marks are still expected. -/
inductive Grouped : Nat → List Ins → Prop
  | nil : Grouped 0 []
  | waitany {n k q is} : 0 ≤ val n → Grouped (val n).toNat is → Grouped 0 (.waitany n k q :: is)
  | plain {i is} : i ≠ .ret → (∀ n k q, i ≠ .waitany n k q) → Grouped 0 is → Grouped 0 (i :: is)
  | attached {p is} : Grouped p is → Grouped (p + 1) (.attached :: is)
  | reduce {p op p1 p2 n is} : Grouped (p + 1) is → Grouped (p + 1) (.reduce op p1 p2 n :: is)

end ExtMpi.ByteCode
