import Verif.Model.Tags
/-! What is expected from the messages of several persistent requests. -/
namespace ExtMpi.Tags

/-- The request exists and the ranks belong to its communicator. -/
def Valid (Gs : List Comm) (w : Way) : Prop :=
  ∃ G, Gs[w.req]? = some G ∧ w.src < G.length ∧ w.dst < G.length

/-- The way of a message. -/
def Ev.way {X : Type} : Ev X → Way
  | .send w _ => w
  | .recv w => w

/-- What is received if every request has its own queue between every two of its processes. -/
def separate {X : Type} : (Way → List X) → List (Ev X) → Option (List X)
  | _, [] => some []
  | C, .send w x :: es => separate (fun v => if v = w then C v ++ [x] else C v) es
  | C, .recv w :: es =>
    match C w with
    | [] => none
    | x :: l => (separate (fun v => if v = w then l else C v) es).map (x :: ·)

end ExtMpi.Tags
