import Verif.Model.Interface

/-!
What the MPI standard lets a user assume about completion, independently of the wrappers.
-/
namespace ExtMpi.Interface.Spec
open ExtMpi.Interface

variable {L F Req S : Type}

/-- A completion semantics for a pair of components: `lc l h`: the library's collective `h` is
complete in `l`; `fc f r`: the underlying request `r` is complete in `f`.  Testing reports the
state after the test, and no test makes a completed operation incomplete. -/
structure Lawful (m : Mpi L F Req S) (lc : L → Int → Prop) (fc : F → Req → Prop) : Prop where
  ext_flag : ∀ l h, (m.extTest l h).2 = true ↔ lc (m.extTest l h).1 h
  ext_mono : ∀ l h h', lc l h' → lc (m.extTest l h).1 h'
  p_flag : ∀ f r, (m.pTest f r).2.2.2.1 = true ↔ fc (m.pTest f r).1 r
  p_mono : ∀ f r r', fc f r' → fc (m.pTest f r).1 r'
  p_ret : ∀ f r, (m.pTest f r).2.2.1 = SUCCESS

/-- Request `r` (value at the time of the call) is complete. -/
def complete (m : Mpi L F Req S) (lc : L → Int → Prop) (fc : F → Req → Prop)
    (l : L) (f : F) (r : Req) : Prop :=
  if m.search r ≥ 0 then lc l (m.search r) else fc f r

/-- MPI wait calls on foreign requests, one after the other. -/
def foreignWaits (m : Mpi L F Req S) (f : F) (rs : List Req) : F :=
  rs.foldl (fun f r => (m.pWait f r).1) f

/-- No wait of the sequence fails. -/
def WaitsOk (m : Mpi L F Req S) (f : F) : List Req → Prop
  | [] => True
  | r :: rs => (m.pWait f r).2.2.1 = SUCCESS ∧ WaitsOk m (m.pWait f r).1 rs

/-- Library waits on handles, one after the other. -/
def libWaits (m : Mpi L F Req S) (l : L) (hs : List Int) : L := hs.foldl m.extWait l

/-- `counts` and `displs` cut `[0, size*count)` into `size` consecutive blocks of `count`. -/
def IsRegular (size count : Nat) (counts displs : List Nat) : Prop :=
  counts.length = size ∧ displs.length = size ∧
  (∀ c ∈ counts, c = count) ∧ displs.Pairwise (· ≤ ·) ∧
  ∀ x, x < size * count ↔ ∃ i d c : Nat, displs[i]? = some d ∧ counts[i]? = some c ∧ d ≤ x ∧ x < d + c ∧
    ∀ (j d' c' : Nat), displs[j]? = some d' → counts[j]? = some c' → d' ≤ x → x < d' + c' → j = i

/-- Histories of communicators: `live` maps the live communicators to the id the library gave. -/
inductive CommReach {K : Type} [DecidableEq K] (world : K) : Comms K → (K → Option Nat) → Prop
  | init : CommReach world (commsInit world) (updK (fun _ => none) world (some 0))
  | create {s live s' i} (c : K) : CommReach world s live → live c = none →
      addComm s (some c) = some (s', i) → CommReach world s' (updK live c (some i))
  | free {s live s'} (c : K) : CommReach world s live → (live c).isSome → removeComm s c = some s' →
      CommReach world s' (updK live c none)

end ExtMpi.Interface.Spec
