import Verif.Model.Waitany
import Mathlib.Algebra.BigOperators.Group.List.Basic
/-!
# What is expected of reductions in the order of arrival
-/
namespace ExtMpi.Waitany

/-- Behaviour MPI may show for `n` requests: every request is transferred once and returned once,
after its transfer. -/
structure Trace (n : Nat) (evs : List Ev) : Prop where
  nodup : evs.Nodup
  bound : ∀ i, (Ev.land i ∈ evs ∨ Ev.complete i ∈ evs) → i < n
  landed : ∀ pre post i, evs = pre ++ Ev.complete i :: post → Ev.land i ∈ pre
  all : ∀ i, i < n → Ev.complete i ∈ evs

/-- Address `a` belongs to the buffer of a receive. -/
def InRecv {V : Type} (reqs : List (Req V)) (a : Nat) : Prop := ∃ q ∈ reqs, q.got a ≠ none

/-- Address `a` belongs to the buffer of a send. -/
def InSend {V : Type} (reqs : List (Req V)) (a : Nat) : Prop :=
  ∃ base len, Req.send base len ∈ reqs ∧ base ≤ a ∧ a < base + len

/-- MPI's rules for the buffers of simultaneous requests. -/
structure Buffers {V : Type} (reqs : List (Req V)) : Prop where
  recv_recv : ∀ (i j a : Nat) (p q : Req V), reqs[i]? = some p → reqs[j]? = some q →
    p.got a ≠ none → q.got a ≠ none → i = j
  recv_send : ∀ a, InRecv reqs a → InSend reqs a → False

/-- The reductions attached to request `i` read only the message of request `i` and do not write
into the buffer of a receive. -/
def ReadsOwn {V : Type} (reqs : List (Req V)) (gs : List (List Red)) : Prop :=
  ∀ (i : Nat) (rs : List Red) (r : Red), gs[i]? = some rs → r ∈ rs → ∃ q, reqs[i]? = some q ∧
    ∀ k, k < r.size → q.got (r.src + k) ≠ none ∧ ¬ InRecv reqs (r.dst + k)

/-- The destinations of the reductions do not lie in the buffers of sends. -/
def NotSent {V : Type} (reqs : List (Req V)) (gs : List (List Red)) : Prop :=
  ∀ rs ∈ gs, ∀ r ∈ rs, ∀ k, k < r.size → ¬ InSend reqs (r.dst + k)

/-- Every request has no reduction or one, and all reductions have the same destination and size. -/
def SameDst (gs : List (List Red)) : Prop :=
  ∃ dst size, ∀ rs ∈ gs, rs = [] ∨ ∃ src, rs = [⟨dst, src, size⟩]

/-- The value that some receive delivers to address `a`. -/
def delivered {V : Type} (reqs : List (Req V)) (a : Nat) : Option V := reqs.findSome? (·.got a)

/-- What reduction `r` adds to address `a` when all messages have arrived. -/
def contribution {V : Type} [Zero V] (reqs : List (Req V)) (r : Red) (a : Nat) : V :=
  if r.dst ≤ a ∧ a < r.dst + r.size then
    (delivered reqs (r.src + (a - r.dst))).getD 0
  else 0

/-- The fixed order: all messages arrive, then the reductions are done in the order of the
program. -/
def fixedOrder {V : Type} [Add V] (reqs : List (Req V)) (gs : List (List Red)) (m : Nat → V) :
    Nat → V :=
  gs.flatten.foldl (fun m r => redLoop r.dst r.src r.size m)
    (fun a => (delivered reqs a).getD (m a))

/-- Every send transmits the contents its buffer had when the wait began. -/
def SentInitial {V : Type} (reqs : List (Req V)) (s s' : St V) : Prop :=
  ∀ i base len, reqs[i]? = some (Req.send base len) →
    s'.out i = some ((List.range len).map fun k => s.mem (base + k))

/-- Lines as they occur before the pass, without lines that produce other code than copies,
reductions and messages. -/
def Plain (ls : List Line) : Prop :=
  ∀ l ∈ ls, (∀ k, l ≠ .loud k) ∧ l ≠ .attached ∧ ∀ n k, l ≠ .waitany n k

/-- The reductions done directly after a wait for `k` requests, at most `k` of them. -/
def following : Nat → List Line → List Red
  | 0, _ => []
  | _ + 1, [] => []
  | k + 1, .reduce r :: ls => r :: following k ls
  | k + 1, l :: ls => if stops l then [] else following (k + 1) ls

/-- The `i`-th of these reductions belongs to request `i`. -/
def attachment (n : Nat) (ls : List Line) : List (List Red) :=
  (following n ls).map (fun r => [r]) ++ List.replicate (n - (following n ls).length) []

/-- In every wait of the program MPI behaves well and the `i`-th reduction that follows reads only the
message of request `i` and writes neither into the buffer of a receive nor of a send. -/
def Assigned {V : Type} : List (Env V) → List Line → Prop
  | _, [] => True
  | es, .waitall n :: ls =>
    if n = 0 then Assigned es ls
    else match es with
      | [] => True
      | e :: es => Trace n e.evs ∧ Buffers e.reqs ∧ ReadsOwn e.reqs (attachment n ls) ∧
          NotSent e.reqs (attachment n ls) ∧ Assigned es ls
  | es, _ :: ls => Assigned es ls

/-- The lines without the marks of the pass. -/
def erase (ls : List Line) : List Line :=
  ls.filterMap fun l => match l with
    | .attached => none
    | .waitany n _ => some (.waitall n)
    | l => some l

end ExtMpi.Waitany
