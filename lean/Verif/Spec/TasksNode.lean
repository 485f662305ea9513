import Verif.Model.Schedule
/-! What the distribution of the messages of a node among its processes promises. -/
namespace ExtMpi.TasksNode
open Schedule

/-- In the block there is a line that is sent to `p`. -/
def SendsTo (b : Block) (p : Nat) : Prop := ∃ l, l ∈ b ∧ ∃ e, e ∈ l.sendto ∧ e.1 = (p : Int)

/-- In the block there is a line that is received from `p`. -/
def ReceivesFrom (b : Block) (p : Nat) : Prop := ∃ l, l ∈ b ∧ ∃ e, e ∈ l.recvfrom ∧ e.1 = (p : Int)

/-- Every message between the nodes is sent by one process of the one node and received by one process of the other
node, and these two know of each other. `node` has the blocks of the nodes, `proc` those of the processes, process
`p` is on node `p / ns`. -/
structure Distributed (N ns : Nat) (node proc : Nat → Block) : Prop where
  sender : ∀ a q, a < N → q < N → a ≠ q →
    (SendsTo (node a) q ↔ ∃ p, p / ns = a ∧ ∃ p', p' / ns = q ∧ SendsTo (proc p) p')
  receiver : ∀ a q, a < N → q < N → a ≠ q →
    (ReceivesFrom (node q) a ↔ ∃ p, p / ns = q ∧ ∃ p', p' / ns = a ∧ ReceivesFrom (proc p) p')
  single : ∀ p p' q q', p < N * ns → q < N * ns → p / ns ≠ p' / ns → p' < N * ns → q' < N * ns →
    p / ns = q / ns → p' / ns = q' / ns → SendsTo (proc p) p' → SendsTo (proc q) q' → p = q ∧ p' = q'
  matched : ∀ p p', p < N * ns → p' < N * ns → p / ns ≠ p' / ns → (SendsTo (proc p) p' ↔ ReceivesFrom (proc p') p)

end ExtMpi.TasksNode
