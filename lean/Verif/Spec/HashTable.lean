import Verif.Model.HashTable

/-! Specification of the request table: a finite map. -/
namespace ExtMpi.HashTable.Spec

/-- live requests and their handles -/
abbrev Map := Key → Option Int

def empty : Map := fun _ => none

/-- -1 stands for "not ours" in the interface. -/
def lookup (m : Map) (k : Key) : Int :=
  match m k with
  | some d => d
  | none => -1

def step (m : Map) : Op → Map × Int
  | .search k => (m, lookup m k)
  | .insert k d => (fun k' => if k' = k then some d else m k', 0)
  | .delete k => (fun k' => if k' = k then none else m k', lookup m k)

def run : Map → List Op → Map × List Int
  | m, [] => (m, [])
  | m, op :: ops =>
    let (m', o) := step m op
    let (m'', os) := run m' ops
    (m'', o :: os)

/-- A history the wrappers can produce: a request is registered only when it is not
registered already, and the null request is never registered or released. -/
def WellFormed (nullKey : Key) : Map → List Op → Prop
  | _, [] => True
  | m, op :: ops =>
    (match op with
      | .search _ => True
      | .insert k _ => k ≠ nullKey ∧ m k = none
      | .delete k => k ≠ nullKey) ∧ WellFormed nullKey (step m op).1 ops

/-- Number of registrations in a history. -/
def inserts : List Op → Nat
  | [] => 0
  | .insert _ _ :: ops => inserts ops + 1
  | _ :: ops => inserts ops

end ExtMpi.HashTable.Spec
