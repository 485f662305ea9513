import Verif.Model.Segments
/-! # Shared memory of the processes of a node -/
namespace ExtMpi.Segments

/-- Two processes belong to one node. -/
def SameNode (g : Grid) (p q : Proc) : Prop :=
  p.1 / (g.cores * g.segs) = q.1 / (g.cores * g.segs) ∧ p.2 / g.columns = q.2 / g.columns

/-- The socket of a process on its node. -/
def socket (g : Grid) (p : Proc) : Nat := p.1 / g.cores % g.segs

/-- Two addresses are those of the same segment. -/
def SameMemory : Seg → Seg → Prop
  | .shm m i _, .shm m' i' _ => m = m' ∧ i = i'
  | .heap p, .heap q => p = q
  | _, _ => False

/-- The process can write there. -/
def Writable : Seg → Prop
  | .shm _ _ w => w = true
  | .heap _ => True
  | .none => False

/-- The system of a machine gives every segment an identifier of its own. -/
def Fresh (machine : Proc → Nat) (get : Proc → Nat → Int) : Prop :=
  ∀ p q i j, machine p = machine q → get p i = get q j → p = q ∧ i = j

/-- The ranks on a machine are consecutive. -/
def Consecutive (n : Nat) (machine : Nat → Nat) : Prop :=
  ∀ r s t, r ≤ s → s ≤ t → t < n → machine r = machine t → machine s = machine r

/-- Processes that share segments are on the same machine. -/
def OneMachine (n : Nat) (machine : Nat → Nat) (sockets : Nat) : Prop :=
  ∀ p q c, p < n → q < n → sharing n machine sockets p = some c → sharing n machine sockets q = some c → machine p = machine q

end ExtMpi.Segments
