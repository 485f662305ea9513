import Verif.Lemmas.CyclicGather
import Verif.Lemmas.Cyclic
/-! How a user describes several groups of steps. -/
namespace ExtMpi.Groups

/-- Reductions, an optional group in the middle and gathers. A reduction or gather is given by the size of the
group and its port counts, the middle group by its size, its reduction ports and its gather ports. -/
structure Plan where
  downs : List (Nat × List Nat)
  middle : Option (Nat × List Nat × List Nat)
  ups : List (Nat × List Nat)

/-- The steps with their signed ports. -/
def Plan.segs (p : Plan) : List (Nat × List Int) :=
  p.downs.map (fun d => (d.1, d.2.map fun x : Nat => -(x : Int))) ++
    (p.middle.toList.map (fun m => (m.1, (m.2.1.map fun x : Nat => -(x : Int)) ++ m.2.2.map fun x : Nat => (x : Int))) ++
      p.ups.map fun u => (u.1, u.2.map fun x : Nat => (x : Int)))

/-- The entries of a group in the list of group sizes: the last one is negative. -/
def entries (g n : Nat) : List Int := List.replicate (n - 1) (g : Int) ++ [-(g : Int)]

/-- The list of ports given to the library. -/
def Plan.ports (p : Plan) : List Int := p.segs.flatMap fun s => s.2

/-- The list of group sizes given to the library. -/
def Plan.groups (p : Plan) : List Int := p.segs.flatMap fun s => entries s.1 s.2.length

/-- The size of the middle group. -/
def Plan.mid (p : Plan) : Nat := (p.middle.map fun m => m.1).getD 1

/-- The ports of a reduction reach all nodes of the group. -/
structure DownOk (d : Nat × List Nat) : Prop where
  size : 2 ≤ d.1
  pos : ∀ p, p ∈ d.2 → 0 < p
  cover : d.1 ≤ (d.2.map (· + 1)).prod

/-- The ports of a gather reach all nodes of the group and suit their number. -/
structure UpOk (u : Nat × List Nat) : Prop where
  size : 2 ≤ u.1
  pos : ∀ p, p ∈ u.2 → 0 < p
  fit : Cyclic.Suits u.1 1 u.2
  cover : u.1 ≤ (u.2.map (· + 1)).prod

/-- The gather ports of the middle group reach all its nodes and do not overshoot. -/
structure MidOk (m : Nat × List Nat × List Nat) : Prop where
  size : 2 ≤ m.1
  neg : ∀ p, p ∈ m.2.1 → 0 < p
  pos : ∀ p, p ∈ m.2.2 → 0 < p
  fit : CyclicReduce.Fits m.1 1 m.2.2
  cover : m.1 ≤ (m.2.2.map (· + 1)).prod

/-- A description for `N` nodes: there is a reduction; the nodes that the reductions combine are the product of the
gathers, and together with the middle group all nodes are reached. -/
structure Plan.Ok (p : Plan) (N : Nat) : Prop where
  ne : p.downs ≠ []
  downs : ∀ d, d ∈ p.downs → DownOk d
  ups : ∀ u, u ∈ p.ups → UpOk u
  middle : ∀ m, p.middle = some m → MidOk m
  same : (p.ups.map Prod.fst).prod = (p.downs.map Prod.fst).prod
  all : (p.downs.map Prod.fst).prod * p.mid = N

end ExtMpi.Groups
