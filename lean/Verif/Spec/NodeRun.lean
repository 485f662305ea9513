import Verif.Model.Lines

/-! Specification: parallel execution of the programs of the processes of one node. -/
namespace ExtMpi.Spec
open ExtMpi.Lines

/-- `L` is an interleaving of the operation lists `ops 0 … ops (n-1)`. -/
def Interleaving (n : Nat) (ops : Nat → List ElemOp) (L : List (Nat × ElemOp)) : Prop :=
  (∀ x ∈ L, x.1 < n) ∧ ∀ r, r < n → (L.filter fun x => x.1 = r).map Prod.snd = ops r

/-- The copy lines of a program, cut at the barriers. -/
def phases : List Line → List (List CopyLine)
  | [] => [[]]
  | .barrier :: ls => [] :: phases ls
  | .other _ :: ls => phases ls
  | .copy c :: ls =>
    match phases ls with
    | [] => [[c]]
    | p :: ps => (c :: p) :: ps

/-- All copy lines of a program in order. -/
def copies : List Line → List CopyLine
  | [] => []
  | .copy c :: ls => c :: copies ls
  | _ :: ls => copies ls

/-- `n` processes execute their programs; barriers separate the phases, inside a phase the element
transfers of the processes are interleaved arbitrarily. -/
inductive NodeRun {V : Type} (f : V → V → V) (t n : Nat) :
    Mem V → (Nat → List (List CopyLine)) → Mem V → Prop
  | done {m ps} : (∀ r, r < n → ps r = []) → NodeRun f t n m ps m
  | phase {m ps m'} (hd : Nat → List CopyLine) (tl : Nat → List (List CopyLine))
      (L : List (Nat × ElemOp)) :
      (∀ r, r < n → ps r = hd r :: tl r) →
      Interleaving n (fun r => (hd r).flatMap (elemOps t)) L →
      NodeRun f t n (execOps f m (L.map Prod.snd)) tl m' →
      NodeRun f t n m ps m'

end ExtMpi.Spec
