/-! # Tags of the messages of persistent requests

Model of the choice of the tag in `init_epilogue` (`/repo/src/mpi/ext_mpi_native.c:470-479`), of the translation of ranks
(`ext_mpi_native.c:129-165`) and of the matching of the messages of `MPI_Isend` and `MPI_Irecv` of the byte code
(`/repo/src/mpi/ext_mpi_native_exec.c:258-281`).

Simplification: there is no second communicator (`comm_column == MPI_COMM_NULL`), as in all calls of the public functions
(`/repo/src/mpi/ext_mpi.c:290`, `364`). -/
namespace ExtMpi.Tags

/-- A communicator: the ranks of its processes in `MPI_COMM_WORLD`, as they are gathered by `setup_rank_translation`
(`ext_mpi_native.c:156-162`). -/
abbrev Comm := List Nat

/-- `PMPI_Allreduce` with `MPI_MAX` of the values `f p` of the processes (`ext_mpi_native.c:471-472`). -/
def maxOver (f : Nat → Nat) : Comm → Nat
  | [] => 0
  | p :: G => max (f p) (maxOver f G)

/-- The value of `tag_max` of every process after an initialisation on `G` (`ext_mpi_native.c:476`). The variable is static
and is changed nowhere else, also not when a request is freed. -/
def bump (tm : Nat → Nat) (G : Comm) : Nat → Nat := fun p => if p ∈ G then maxOver tm G + 1 else tm p

/-- The tags of the requests of a sequence of initialisations, from the values `tm` of `tag_max`
(`ext_mpi_native.c:470-479`). Both programs of a request with `alt` get the same tag (`ext_mpi_native.c:484`, `535`). -/
def tagsFrom (tm : Nat → Nat) : List Comm → List Nat
  | [] => []
  | G :: Gs => maxOver tm G :: tagsFrom (bump tm G) Gs

/-- At the begin of the program `tag_max` is zero (`ext_mpi_native.c:70`). -/
def tags (Gs : List Comm) : List Nat := tagsFrom (fun _ => 0) Gs

/-- A communication of the byte code: request `req`, from rank `src` of the communicator of this request to rank `dst`. -/
structure Way where
  req : Nat
  src : Nat
  dst : Nat
  deriving DecidableEq, Repr

/-- What MPI sees of a message: sender, receiver and tag. The communicator is always the duplicate of `MPI_COMM_WORLD`
(`ext_mpi_native_exec.c:265`, `277`), and the partner is `global_ranks[rank]` (`/repo/src/mpi/ext_mpi_native.c:466-469`). -/
def envelope (Gs : List Comm) (w : Way) : Nat × Nat × Nat :=
  ((Gs.getD w.req []).getD w.src 0, (Gs.getD w.req []).getD w.dst 0, (tags Gs).getD w.req 0)

/-- Sending and receiving of messages. -/
inductive Ev (X : Type) where
  | send (w : Way) (x : X)
  | recv (w : Way)

/-- MPI takes the first message under way from the sender with the right tag. -/
def takeTag {X : Type} (tag : Nat) : List (Nat × X) → Option (X × List (Nat × X))
  | [] => none
  | (t, x) :: l => if t = tag then some (x, l) else (takeTag tag l).map fun r => (r.1, (t, x) :: r.2)

/-- Messages under way between the processes, in the order in which they have been sent. -/
abbrev Wire (X : Type) := Nat → Nat → List (Nat × X)

/-- The messages that are received, in this order; `none`: something is to be received but there is no matching message. -/
def received {X : Type} (Gs : List Comm) : Wire X → List (Ev X) → Option (List X)
  | _, [] => some []
  | W, .send w x :: es =>
    received Gs (fun p q => if (p, q) = ((envelope Gs w).1, (envelope Gs w).2.1)
      then W p q ++ [((envelope Gs w).2.2, x)] else W p q) es
  | W, .recv w :: es =>
    match takeTag (envelope Gs w).2.2 (W (envelope Gs w).1 (envelope Gs w).2.1) with
    | none => none
    | some (x, l) => (received Gs (fun p q => if (p, q) = ((envelope Gs w).1, (envelope Gs w).2.1)
        then l else W p q) es).map (x :: ·)

end ExtMpi.Tags
