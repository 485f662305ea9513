import Verif.Model.BarrierPasses
/-!
# Synchronisation points and the order they enforce
-/
namespace ExtMpi.BarrierPasses

/-- The barriers of a program in order. -/
def ids (ls : List (Line Nat)) : List Nat :=
  ls.filterMap fun l => match l with | .barrier id => some id | _ => none

/-- The work of a program in order. -/
def works (ls : List (Line Nat)) : List Nat :=
  ls.filterMap fun l => match l with | .work k => some k | _ => none

/-- For every piece of work the number of barriers before it; `n` is the number at the beginning. -/
def epochsFrom (n : Nat) : List (Line Nat) → List Nat
  | [] => []
  | .barrier _ :: ls => epochsFrom (n + 1) ls
  | .work _ :: ls => n :: epochsFrom n ls
  | .nop :: ls => epochsFrom n ls
  | .waitany0 :: ls => epochsFrom n ls

def epochs : List (Line Nat) → List Nat := epochsFrom 0

/-- Two pieces of work are separated by a barrier in the one pair of programs iff they are in the
other. -/
def SameOrder (in1 out1 in2 out2 : List (Line Nat)) : Prop :=
  ∀ (i j a b a' b' : Nat), (epochs in1)[i]? = some a → (epochs in2)[j]? = some b →
    (epochs out1)[i]? = some a' → (epochs out2)[j]? = some b' → (a < b ↔ a' < b')

end ExtMpi.BarrierPasses
