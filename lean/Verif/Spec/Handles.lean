import Verif.Model.Handles

/-!
What a user knows about the handles: which are live, which programs belong to each, how often
it was started, and whether it is running.  `Reach s L` says that some history of API calls on
live handles leads the library into state `s` while the user's knowledge is `L`.
-/
namespace ExtMpi.Handles.Spec

/-- One live collective. -/
structure Coll where
  prog : Nat
  alt : Option Nat
  starts : Nat
  running : Bool
  deriving DecidableEq, Repr

/-- Program used by the current (latest) execution: with alternating buffers, the odd executions
use the alternate program. -/
def Coll.current (c : Coll) : Nat :=
  match c.alt with
  | none => c.prog
  | some b => if c.starts % 2 = 1 then b else c.prog

abbrev Live := Nat → Option Coll

/-- Every history of calls on live handles. -/
inductive Reach : State → Live → Prop
  | init : Reach init (fun _ => none)
  | create {s L} (a : Nat) (alt : Option Nat) : Reach s L →
      Reach (newColl s a alt).1 (upd L (newColl s a alt).2 (some ⟨a, alt, 0, false⟩))
  | start {s L s' h c} : Reach s L → L h = some c → Handles.start s h = some s' →
      Reach s' (upd L h (some { c with starts := c.starts + 1, running := true }))
  | test {s L s' h c fin flag} : Reach s L → L h = some c → Handles.test s h fin = some (s', flag) →
      Reach s' (upd L h (some { c with running := !flag }))
  | wait {s L s' h c} : Reach s L → L h = some c → waitH s h = some s' →
      Reach s' (upd L h (some { c with running := false }))
  | done {s L s' h c} : Reach s L → L h = some c → Handles.done s h = some s' →
      Reach s' (upd L h none)
  | progress {s L s'} (fin : Nat → Bool) : Reach s L → Handles.progress s fin = some s' →
      Reach s' (fun h => (L h).map fun c => { c with running := c.running && !fin h })

end ExtMpi.Handles.Spec
