import Verif.Model.SegmentsSystem
import Verif.Spec.Segments
import Mathlib.Logic.Relation
/-! # Shared memory and the operating system -/
namespace ExtMpi.Segments

/-- The system does not provide some segment of process `p`. -/
def Refused (g : Grid) (sys : System) (p : Proc) : Prop :=
  ∃ i, i < g.segs ∧ address g sys i p = if single g then 0 else -1

/-- `shmat` never gives address 0: the address of a segment or -1. -/
def Posix (sys : System) : Prop := ∀ p id, sys.shmat p id ≠ 0

/-- In all initialisations the processes open one object, and the objects are different ones: `opened` are the objects opened by
the processes, `hist` the processes that take part. -/
def Named (hist : List (List Nat)) (opened : List (Nat → Option Nat)) : Prop :=
  ∃ name : Nat → Nat, (∀ (k : Nat) c o, hist[k]? = some c → opened[k]? = some o → ∀ p, p ∈ c → o p = some (name k)) ∧
    ∀ j k, j < k → k < hist.length → name j ≠ name k

/-- Executions of the release of `segs` segments by `n` processes, with any order of their calls. -/
def Releasing (n segs : Nat) (s : Shared) (m : Nat) (t : (Nat → List Call) × Shared) : Prop :=
  ∃ f : Nat → (Nat → List Call) × Shared, f 0 = (fun _ => releaseCalls 0 segs, s) ∧ f m = t ∧ ∀ i, i < m → Release n (f i) (f (i + 1))

end ExtMpi.Segments
