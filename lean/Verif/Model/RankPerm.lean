import Verif.Model.Schedule
/-!
# Relabelling of nodes

`/repo/src/core/rank_permutation.c`. Simplifications: `qsort` is a parameter, since the order of equal
elements is not specified; sizes are unbounded integers, so the subtraction in the comparison
function (line 9) does not overflow; reading and writing of the buffers is the subject of `Codec`.
-/
namespace ExtMpi.RankPerm
open ExtMpi.Schedule

/-- `node_t` (`rank_permutation.c:16-18`). -/
structure Entry where
  value : Int
  key : Nat
  color : Nat
  deriving DecidableEq, Repr

/-- `value` and `key` of `node_t_s` (`rank_permutation.c:13-15`). -/
abbrev Sum := Int × Nat

/-- `array_org` at the start (`rank_permutation.c:22-25`). -/
def initial (sizes : List Int) : List Entry := sizes.zipIdx.map fun x => ⟨x.1, x.2, x.2⟩

/-- `array` before sorting (`rank_permutation.c:29-38`). -/
def sums (nc : Nat) (l : List Entry) : List Sum :=
  (List.range nc).map fun c =>
    (if nc % 2 = 1 ∧ c = 0 then 0 else ((l.filter fun e => e.color == c).map Entry.value).sum, c)

/-- Positions of `array` in the order of their use (`rank_permutation.c:42-56` for an even,
`64-79` for an odd number of colours). -/
def picks (nc : Nat) : List Nat :=
  if nc % 2 = 0 then (List.range nc).map fun i => if i % 2 = 1 then nc - 1 - i / 2 else i / 2
  else (List.range (nc - 1)).map fun i => if i % 2 = 1 then nc - 1 - i / 2 else i / 2 + 1

/-- Nodes of one colour, recoloured (`rank_permutation.c:43-48`). -/
def ofColor (l : List Entry) (old new : Nat) : List Entry :=
  (l.filter fun e => e.color == old).map fun e => { e with color := new }

/-- `array_org2` after a round (`rank_permutation.c:40-80`). `none`: a position outside of the sorted array. -/
def regroup (nc : Nat) (arr : List Sum) (l : List Entry) : Option (List Entry) :=
  ((picks nc).mapM fun i => arr[i]?).map fun ks =>
    if nc % 2 = 0 then ks.zipIdx.flatMap fun x => ofColor l x.1.2 (x.2 / 2)
    else (l.filter fun e => e.color == 0) ++ ks.zipIdx.flatMap fun x => ofColor l x.1.2 (x.2 / 2 + 1)

/-- One round (`rank_permutation.c:28-83`). `none`: `array_org2` overflows or is not filled, so that the
copy of lines 81 to 83 reads uninitialised memory. -/
def round (sort : List Sum → List Sum) (nc : Nat) (l : List Entry) : Option (List Entry) :=
  (regroup nc (sort (sums nc l)) l).bind fun l' => if l'.length = l.length then some l' else none

/-- The loop over the rounds (`rank_permutation.c:26-86`). The first argument bounds the number of rounds; the
number of nodes is enough. -/
def rounds (sort : List Sum → List Sum) : Nat → Nat → List Entry → Option (List Entry)
  | 0, _, _ => none
  | fuel + 1, nc, l =>
    match round sort nc l with
    | none => none
    | some l' => if (nc + 1) / 2 > 1 then rounds sort fuel ((nc + 1) / 2) l' else some l'

/-- `rank_perm_heuristic` (`rank_permutation.c:12-90`). -/
def heuristic (sort : List Sum → List Sum) (sizes : List Int) : Option (List Nat) :=
  (rounds sort (sizes.length + 1) sizes.length (initial sizes)).map fun l => l.map Entry.key

/-- The part of `struct parameters_block` the passes change. -/
structure Params where
  socket : Nat
  sizes : List Int
  perm : List Nat
  deriving DecidableEq, Repr

/-- `rank_back_perm[x]` (`rank_permutation.c:134-136`): the last position written, `none` if nothing was. -/
def back (perm : List Nat) (x : Nat) : Option Nat :=
  (List.range perm.length).reverse.find? fun i => perm[i]? == some x

/-- `ext_mpi_generate_rank_permutation_forward` (`rank_permutation.c:106-141`), with
`num_sockets` equal to the number of sizes. -/
def forward (sort : List Sum → List Sum) (p : Params) : Option Params :=
  (if p.sizes.any fun s => some s != p.sizes.head? then heuristic sort p.sizes
    else some (List.range p.sizes.length)).bind fun perm =>
  (back perm p.socket).bind fun socket =>
  ((List.range p.sizes.length).mapM fun i => (back perm i).bind fun j => p.sizes[j]?).map fun sizes =>
  { socket := socket, sizes := sizes, perm := perm }

/-- Parameters of `ext_mpi_generate_rank_permutation_backward` (`rank_permutation.c:183-190`). -/
def backward (p : Params) : Option Params :=
  (p.perm[p.socket]?).bind fun socket =>
  ((List.range p.sizes.length).mapM fun i => (p.perm[i]?).bind fun j => p.sizes[j]?).map fun sizes =>
  { socket := socket, sizes := sizes, perm := p.perm }

/-- Partner of a line; negative entries are kept (`rank_permutation.c:201-210`). -/
def relabelPartner (perm : List Nat) (e : Int × Int) : Option (Int × Int) :=
  if e.1 ≥ 0 then (perm[e.1.toNat]?).map fun (q : Nat) => ((q : Int), e.2) else some e

/-- A line (`rank_permutation.c:200-210`). -/
def relabelLine (perm : List Nat) (l : LineD) : Option LineD :=
  (perm[l.frac]?).bind fun frac =>
  (l.sendto.mapM (relabelPartner perm)).bind fun sendto =>
  (l.recvfrom.mapM (relabelPartner perm)).map fun recvfrom =>
  { l with frac := frac, sendto := sendto, recvfrom := recvfrom }

/-- The algorithm (`rank_permutation.c:198-213`). -/
def relabel (perm : List Nat) (a : List Block) : Option (List Block) := a.mapM fun b => b.mapM (relabelLine perm)

end ExtMpi.RankPerm
