import Verif.Model.Blocking
import Mathlib.Algebra.BigOperators.Group.List.Basic
/-!
# Effect of the steps of an execution on memory
-/
namespace ExtMpi.Blocking

/-- An element of a buffer of a process. -/
abbrev Loc := Nat × Region × Nat

/-- For elements of `ts` bytes: the element that is copied or added to this one. -/
def Act.upd (ts : Nat) (a : Act) (l : Loc) : Option Loc :=
  if l.1 = a.dp ∧ l.2.1 = a.dr ∧ a.doff / ts ≤ l.2.2 ∧ l.2.2 < a.doff / ts + a.n / ts then
    some (a.sp, a.sr, l.2.2 - a.doff / ts + a.soff / ts)
  else none

/-- Whole elements, and the two ranges do not overlap. -/
def Act.Ok (ts : Nat) (a : Act) : Prop :=
  ts ∣ a.doff ∧ ts ∣ a.soff ∧ ts ∣ a.n ∧
    (a.n = 0 ∨ a.dp ≠ a.sp ∨ a.dr ≠ a.sr ∨ a.doff + a.n ≤ a.soff ∨ a.soff + a.n ≤ a.doff)

instance (ts : Nat) (a : Act) : Decidable (a.Ok ts) := by unfold Act.Ok; infer_instance

/-- Memory after simultaneous updates. -/
def apply {α : Type} [Add α] (add : Bool) (u : Loc → Option Loc) (m : Loc → α) : Loc → α := fun l =>
  match u l with
  | none => m l
  | some s => if add then m l + m s else m s

/-- Execution of steps on memory; `none` when one of them is not defined. -/
def exec {α : Type} [Add α] (ts : Nat) : List (Option Act) → (Loc → α) → Option (Loc → α)
  | [], m => some m
  | none :: _, _ => none
  | some a :: as, m => if a.Ok ts then exec ts as (apply a.add (a.upd ts) m) else none

/-- The steps leave in every receive buffer the sums over the send buffers, for `len` elements of `ts` bytes. -/
def Allreduces (α : Type) [AddCommMonoid α] (procs : List Nat) (len ts : Nat) (acts : List (Option Act)) : Prop :=
  ∀ m : Loc → α, ∃ m', exec ts acts m = some m' ∧
    ∀ q ∈ procs, ∀ i < len, m' (q, .recv, i) = (procs.map fun p => m (p, .send, i)).sum

/-- No step writes to a send buffer. -/
def SendKept (acts : List (Option Act)) : Prop := ∀ a, some a ∈ acts → a.dr ≠ .send

/-- At no time does an element of a receive buffer hold anything the final value of another element depends
on. -/
def InPosition (procs : List Nat) (len ts : Nat) (acts : List (Option Act)) : Prop :=
  ∀ pre suf : List (Option Act), acts = pre ++ suf → ∀ (m1 m2 r1 r2 : Loc → Nat) (p q i k : Nat), q ∈ procs → i < len → k ≠ i →
    (∀ l, l ≠ (p, Region.recv, k) → m1 l = m2 l) → exec ts suf m1 = some r1 → exec ts suf m2 = some r2 →
    r1 (q, .recv, i) = r2 (q, .recv, i)

end ExtMpi.Blocking
