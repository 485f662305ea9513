import Mathlib.Data.Int.Notation
/-! Settings as groups. -/
namespace ExtMpi.Text

/-- Group size and ports. -/
abbrev Group := Nat × List Int

/-- Encoding of a group in the arrays of ports and groups: every port carries the group size, which is
negated for the last one. -/
def encode (x : Group) : List (Int × Int) :=
  x.2.dropLast.map (fun p => (p, (x.1 : Int))) ++ (x.2.getLast?.toList.map fun p => (p, -(x.1 : Int)))

/-- Valid group. -/
def Group.Ok (x : Group) : Prop := 0 < x.1 ∧ x.2 ≠ [] ∧ ∀ p, p ∈ x.2 → p ≠ 0

end ExtMpi.Text
