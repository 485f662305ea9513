import Verif.Lemmas.RootNode
import Verif.Props.RootedCyclic
import Verif.Props.RootedRecursiveReduce
import Verif.Props.Forward
import Verif.Props.Rooted
/-!
# C79: rooted collectives with several processes per node

The passes on the schedules take the rank of the root for the number of its node. Both are equal if the root is process 0 or if a
node has one process.
-/
namespace ExtMpi.RootNode
open Schedule Rooted Forward

/-- Another node than `d`. -/
theorem other {N : Nat} (h : 2 ≤ N) (d : Nat) : ∃ x < N, x ≠ d := by
  by_cases hd : d = 0
  · exact ⟨1, by omega, by omega⟩
  · exact ⟨0, by omega, by omega⟩

/-- A gather to a process whose rank is not less than the number of nodes is wrong for every schedule. -/
theorem gather_violated {N ns rank : Nat} (hN : 2 ≤ N) (h1 : N ≤ rank) (h2 : rank < N * ns) {rows rows' : List Row} (hw : Wf N rows)
    (hp : toRank N rank rows = some rows') : ¬ GathersTo N ns rank rows' := by
  intro hg
  have hs := toRank_silent h1 hw hp
  have hd : rank / ns < N := Nat.div_lt_of_lt_mul (by rw [Nat.mul_comm]; exact h2)
  obtain ⟨x, hx, hxd⟩ := other hN (rank / ns)
  obtain ⟨⟨out, ho⟩, hr⟩ := hg Nat (fun _ _ => 0) (fun _ _ => 0)
  obtain ⟨out', ho', he⟩ := exec_silent hs ho (fun s _ => if s = x then 1 else 0)
  have a := hr out ho x hx
  have b := (hg Nat (fun s _ => if s = x then 1 else 0) (fun _ _ => 0)).2 out' ho' x hx
  rw [he _ hd (by funext _; rw [if_neg (Ne.symm hxd)]), a] at b
  simp at b

theorem reduce_silent {N ns rank : Nat} (hN : 2 ≤ N) (h2 : rank < N * ns) {rows' : List Row} (hs : ∀ row ∈ rows'.tail, Silent N row) :
    ¬ ReducesTo N ns rank rows' := by
  intro hg
  have hd : rank / ns < N := Nat.div_lt_of_lt_mul (by rw [Nat.mul_comm]; exact h2)
  obtain ⟨x, hx, hxd⟩ := other hN (rank / ns)
  obtain ⟨⟨out, ho⟩, hr⟩ := hg Nat (fun _ _ => 0) (fun _ _ => 0)
  obtain ⟨out', ho', he⟩ := exec_silent hs ho (fun s _ => if s = x then 1 else 0)
  have a := hr out ho x hx
  have b := (hg Nat (fun s _ => if s = x then 1 else 0) (fun _ _ => 0)).2 out' ho' x hx
  rw [he _ hd (by funext _; rw [if_neg (Ne.symm hxd)]), a] at b
  simp [Finset.sum_ite_eq', hx] at b

/-- The same for reduces. -/
theorem reduce_violated {N ns rank : Nat} (hN : 2 ≤ N) (h1 : N ≤ rank) (h2 : rank < N * ns) {rows rows' : List Row} (hw : Wf N rows)
    (hp : toRank N rank rows = some rows') : ¬ ReducesTo N ns rank rows' :=
  reduce_silent hN h2 (toRank_silent h1 hw hp)

/-- The same for broadcasts. -/
theorem bcast_violated {N ns rank : Nat} (hN : 2 ≤ N) (h1 : N ≤ rank) {rows rows' : List Row} (hw : Wf N rows)
    (h0 : ∀ r0 ∈ rows.head?, ∀ t < N, ∀ l ∈ r0 t, l.sendto = []) (hp : fromRank N rank rows = some rows') :
    ¬ BcastsFrom N ns rank rows' := by
  intro hg
  have hs := fromRank_silent h1 hw h0 hp
  obtain ⟨x, hx, hxd⟩ := other hN (rank / ns)
  obtain ⟨⟨out, ho⟩, hr⟩ := hg Nat (fun _ => 0) (fun _ _ => 0)
  obtain ⟨out', ho', he⟩ := execF_silent hs ho (fun _ => 1)
  have a := hr out ho x hx x hx
  have b := (hg Nat (fun _ => 1) (fun _ _ => 0)).2 out' ho' x hx x hx
  rw [he _ hx hxd, a] at b
  simp at b

/-- The same for scatters. -/
theorem scatter_violated {N ns rank : Nat} (hN : 2 ≤ N) (h1 : N ≤ rank) {rows rows' : List Row} (hw : Wf N rows)
    (h0 : ∀ r0 ∈ rows.head?, ∀ t < N, ∀ l ∈ r0 t, l.sendto = []) (hp : fromRank N rank rows = some rows') :
    ¬ ScattersFrom N ns rank rows' := by
  intro hg
  have hs := fromRank_silent h1 hw h0 hp
  obtain ⟨x, hx, hxd⟩ := other hN (rank / ns)
  obtain ⟨⟨out, ho⟩, hr⟩ := hg Nat (fun _ => 0) (fun _ _ => 0)
  obtain ⟨out', ho', he⟩ := execF_silent hs ho (fun _ => 1)
  have a := hr out ho x hx
  have b := (hg Nat (fun _ => 1) (fun _ _ => 0)).2 out' ho' x hx
  rw [he _ hx hxd, a] at b
  simp at b

/-- Four nodes with two processes, root 5: the passes succeed, the schedules are those of the cyclic algorithm. -/
example : ∃ rows rows', (∀ t < 4, Cyclic.allgather 4 [1, 1] t = columns rows t) ∧ Wf 4 rows ∧ toRank 4 5 rows = some rows' ∧
    ¬ GathersTo 4 2 5 rows' := by
  have hw : Wf 4 (rowsOf (Cyclic.allgather 4 [1, 1])) := wfB_sound _ _ (by decide +kernel)
  have hp : (toRank 4 5 (rowsOf (Cyclic.allgather 4 [1, 1]))).isSome = true := by decide +kernel
  obtain ⟨rows', hp⟩ := Option.isSome_iff_exists.1 hp
  exact ⟨_, rows', colB_sound 4 _ (by decide +kernel), hw, hp, gather_violated (by omega) (by omega) (by omega) hw hp⟩

example : ∃ rows', toRank 4 5 (rowsOf (Recursive.allreduce [1, 1] [1, 1])) = some rows' ∧ ¬ ReducesTo 4 2 5 rows' := by
  have hw : Wf 4 (rowsOf (Recursive.allreduce [1, 1] [1, 1])) := wfB_sound _ _ (by decide +kernel)
  have hp : (toRank 4 5 (rowsOf (Recursive.allreduce [1, 1] [1, 1]))).isSome = true := by decide +kernel
  obtain ⟨rows', hp⟩ := Option.isSome_iff_exists.1 hp
  exact ⟨rows', hp, reduce_violated (by omega) (by omega) (by omega) hw hp⟩

/-- Decision procedure for the first row. -/
def firstB (N : Nat) (rows : List Row) : Bool :=
  match rows with
  | [] => true
  | r0 :: _ => (List.range N).all fun t => (r0 t).all fun l => l.sendto.isEmpty

theorem firstB_sound (N : Nat) (rows : List Row) (h : firstB N rows = true) :
    ∀ r0 ∈ rows.head?, ∀ t < N, ∀ l ∈ r0 t, l.sendto = [] := by
  cases rows with
  | nil => intro r0 h0; cases h0
  | cons r0 rs =>
    intro r h0 t ht l hl
    simp only [List.head?_cons, Option.mem_def, Option.some.injEq] at h0
    subst h0
    simpa using List.all_eq_true.1 (List.all_eq_true.1 h t (List.mem_range.2 ht)) l hl

/-- The cyclic allreduce, the empty schedule if there is none. -/
def coreOr (N : Nat) (negs ports : List Nat) (t : Nat) : List Block :=
  match CyclicReduce.core N negs ports t with | some x => x | none => []

/-- The pass succeeds. -/
def passes (N rank : Nat) (rows : List Row) : Bool := (fromRank N rank rows).isSome

theorem passes_sound {N rank : Nat} {rows : List Row} (h : passes N rank rows = true) : ∃ rows', fromRank N rank rows = some rows' :=
  Option.isSome_iff_exists.1 h

example : ∃ rows', fromRank 4 5 (rowsOf (coreOr 4 [1, 1] [1, 1])) = some rows' ∧ ¬ BcastsFrom 4 2 5 rows' := by
  have hw := wfB_sound 4 (rowsOf (coreOr 4 [1, 1] [1, 1])) (by decide +kernel)
  obtain ⟨rows', hp⟩ := passes_sound (show passes 4 5 (rowsOf (coreOr 4 [1, 1] [1, 1])) = true by decide +kernel)
  exact ⟨rows', hp, bcast_violated (by omega) (by omega) hw (firstB_sound 4 _ (by decide +kernel)) hp⟩

example : ∃ rows', fromRank 4 5 (rowsOf (coreOr 4 [1, 1] [])) = some rows' ∧ ¬ ScattersFrom 4 2 5 rows' := by
  have hw := wfB_sound 4 (rowsOf (coreOr 4 [1, 1] [])) (by decide +kernel)
  obtain ⟨rows', hp⟩ := passes_sound (show passes 4 5 (rowsOf (coreOr 4 [1, 1] [])) = true by decide +kernel)
  exact ⟨rows', hp, scatter_violated (by omega) (by omega) hw (firstB_sound 4 _ (by decide +kernel)) hp⟩

/-! ### A rank that is the number of another node -/

/-- Two nodes with two processes: the gather to process 1, which is on node 0, brings the data to node 1. -/
theorem gather_small_violated : ∃ rows', toRank 2 1 (rowsOf (Cyclic.allgather 2 [1])) = some rows' ∧ ¬ GathersTo 2 2 1 rows' := by
  have hp : (toRank 2 1 (rowsOf (Cyclic.allgather 2 [1]))).isSome = true := by decide +kernel
  obtain ⟨rows', hp⟩ := Option.isSome_iff_exists.1 hp
  refine ⟨rows', hp, fun hg => ?_⟩
  have : (toRank 2 1 (rowsOf (Cyclic.allgather 2 [1]))).bind (fun r => dirtyOut 2 0 r 1) = some 777 := by decide +kernel
  rw [hp] at this
  obtain ⟨out, ho, h⟩ := dirtyOut_sound 2 0 rows' 1 777 this
  have := (hg Nat _ _).2 out ho 1 (by omega)
  rw [show (1 : Nat) / 2 = 0 from rfl, h] at this
  simp at this

/-- Result `b` of node `t` in a broadcast whose root is on node `d`. -/
def dirtyF (N d t : Nat) (rows : List Row) (b : Nat) : Option Nat :=
  match rows with
  | [] => none
  | _ :: rs =>
    match rs.getLast?, dirtyRun N rs fun t => copyInRoot N d t (fun x => x) fun _ => 555 with
    | some last, some s => copyOut (last t) (s t) b
    | _, _ => none

theorem dirtyF_sound (N d t : Nat) (rows : List Row) (b x : Nat) (h : dirtyF N d t rows b = some x) :
    ∃ out, ExecF N d copyOut rows (fun x => x) (fun _ _ => 555) out ∧ out t b = some x := by
  unfold dirtyF at h
  split at h
  · cases h
  · rename_i r0 rs
    split at h
    · rename_i last s hl hs
      exact ⟨fun t => copyOut (last t) (s t), ⟨r0, rs, last, s, rfl, hl, dirtyRun_sound N rs _ _ hs, fun _ _ => rfl⟩, h⟩
    · cases h

/-- Two nodes with two processes: the broadcast from process 1, which is on node 0, sends memory of node 1 nobody wrote. -/
theorem bcast_small_violated : ∃ rows', fromRank 2 1 (rowsOf (coreOr 2 [1] [1])) = some rows' ∧ ¬ BcastsFrom 2 2 1 rows' := by
  obtain ⟨rows', hp⟩ := passes_sound (show passes 2 1 (rowsOf (coreOr 2 [1] [1])) = true by decide +kernel)
  refine ⟨rows', hp, fun hg => ?_⟩
  have : (fromRank 2 1 (rowsOf (coreOr 2 [1] [1]))).bind (fun r => dirtyF 2 0 1 r 1) = some 555 := by decide +kernel
  rw [hp] at this
  obtain ⟨out, ho, h⟩ := dirtyF_sound 2 0 1 rows' 1 555 this
  have := (hg Nat _ _).2 out ho 1 (by omega) 1 (by omega)
  rw [h] at this
  simp at this

/-! ### A rank that is the number of its node -/

/-- The rank is the number of the node only for process 0 and with one process per node. -/
theorem same_node {ns rank : Nat} (hns : 0 < ns) : rank / ns = rank ↔ rank = 0 ∨ ns = 1 := by
  constructor
  · intro h
    by_cases h0 : rank = 0
    · exact Or.inl h0
    · right
      by_contra h1
      have := Nat.div_lt_self (n := rank) (k := ns) (by omega) (by omega)
      omega
  · rintro (rfl | rfl)
    · exact Nat.zero_div _
    · exact Nat.div_one _

/-- C79 for the cyclic algorithm if the number of nodes is the product of the numbers of ports plus one and the root is process 0 or a
node has one process. Missing: other roots, where it is false (`gather_violated` and the others). -/
theorem rooted_partial (negs ports : List Nat) (hprod : (negs.map (· + 1)).prod = (ports.map (· + 1)).prod) (hne : ports ≠ [])
    (hp : ∀ p, p ∈ ports → 0 < p) (ns rank : Nat) (hns : 0 < ns) (hrank : rank = 0 ∨ ns = 1) (hroot : rank < (ports.map (· + 1)).prod) :
    (∃ rows rows', (∀ t, Cyclic.allgather (ports.map (· + 1)).prod ports t = columns rows t) ∧
      toRank (ports.map (· + 1)).prod rank rows = some rows' ∧ GathersTo (ports.map (· + 1)).prod ns rank rows') ∧
    (∃ rows rows', (∀ t, CyclicReduce.core (ports.map (· + 1)).prod negs ports t = some (columns rows t)) ∧
      toRank (ports.map (· + 1)).prod rank rows = some rows' ∧ ReducesTo (ports.map (· + 1)).prod ns rank rows') ∧
    (∃ rows rows', (∀ t, CyclicReduce.core (ports.map (· + 1)).prod negs ports t = some (columns rows t)) ∧
      fromRank (ports.map (· + 1)).prod rank rows = some rows' ∧ BcastsFrom (ports.map (· + 1)).prod ns rank rows') ∧
    ∃ rows rows', (∀ t, CyclicReduce.core (ports.map (· + 1)).prod negs [] t = some (columns rows t)) ∧
      fromRank (ports.map (· + 1)).prod rank rows = some rows' ∧ ScattersFrom (ports.map (· + 1)).prod ns rank rows' := by
  have hs := (same_node hns).2 hrank
  refine ⟨?_, ?_, ?_, ?_⟩
  · obtain ⟨rows, rows', v, a, b, c⟩ := gather_exact ports hp rank hroot
    refine ⟨rows, rows', a, by rw [toRank, b]; rfl, fun V _ inp junk => ?_⟩
    rw [hs]
    exact c V inp junk
  · obtain ⟨rows, rows', v, a, b, c⟩ := reduce_exact negs ports rank hroot (by omega) hne hp
    refine ⟨rows, rows', a, by rw [toRank, b]; rfl, fun V _ inp junk => ?_⟩
    rw [hs]
    exact c V inp junk
  · obtain ⟨rows, rows', v, a, b, c⟩ := bcast_exact negs ports rank (by omega) hprod hne hp
    rw [hprod] at a b c
    refine ⟨rows, rows', a, by rw [fromRank, b]; rfl, fun V _ inp junk => ?_⟩
    rw [hs]
    exact c V inp junk
  · obtain ⟨rows, rows', v, a, b, c⟩ := scatter_exact negs rank (by omega)
    rw [hprod] at a b c
    refine ⟨rows, rows', a, by rw [fromRank, b]; rfl, fun V _ inp junk => ?_⟩
    rw [hs]
    exact c V inp junk

/-- Six nodes with four processes, root 0; six nodes with one process, root 5. -/
example := rooted_partial [2, 1] [1, 2] (by decide) (by decide) (by decide) 4 0 (by decide) (by decide) (by decide)
example := rooted_partial [2, 1] [1, 2] (by decide) (by decide) (by decide) 1 5 (by decide) (by decide) (by decide)

/-- C79 for gathers and reduces of the recursive algorithm with any list of ports (reduces: balanced) if the root is process 0 or a node has one
process. Missing: other roots, where it is false (`gather_violated`, `reduce_violated`), and broadcasts, where it is false for other nodes than 0. -/
theorem rooted_recursive_partial (negs mids gs : List Nat) (hne : mids ++ gs ≠ []) (hn : ∀ p, p ∈ negs → 0 < p) (hm : ∀ p, p ∈ mids → 0 < p)
    (hg : ∀ p, p ∈ gs → 0 < p) (hbal : (negs.map fun p => p + 1).prod = (gs.map fun p => p + 1).prod) (ns rank : Nat) (hns : 0 < ns)
    (hrank : rank = 0 ∨ ns = 1) (hroot : rank < ((mids ++ gs).map (· + 1)).prod) :
    (∃ rows rows', (∀ t, Recursive.generate true ((mids ++ gs).map fun p : Nat => (p : Int)) t = some (columns rows t)) ∧
      toRank ((mids ++ gs).map (· + 1)).prod rank rows = some rows' ∧ GathersTo ((mids ++ gs).map (· + 1)).prod ns rank rows') ∧
    ∃ rows rows', (∀ t, Recursive.generate false ((negs.map fun p : Nat => -(p : Int)) ++ ((mids ++ gs).map fun p : Nat => (p : Int))) t =
        some (columns rows t)) ∧
      toRank ((mids ++ gs).map (· + 1)).prod rank rows = some rows' ∧ ReducesTo ((mids ++ gs).map (· + 1)).prod ns rank rows' := by
  have hs := (same_node hns).2 hrank
  constructor
  · obtain ⟨rows, rows', v, a, b, _, c⟩ := gather_recursive (mids ++ gs)
      (fun p h => (List.mem_append.mp h).elim (hm p) (hg p)) rank hroot
    refine ⟨rows, rows', a, by rw [toRank, b]; rfl, fun V _ inp junk => ?_⟩
    rw [hs]
    exact c V inp junk
  · obtain ⟨rows, rows', v, a, b, _, c⟩ := reduce_recursive negs mids gs hne hn hm hg hbal rank hroot
    refine ⟨rows, rows', a, by rw [toRank, b]; rfl, fun V _ inp junk => ?_⟩
    rw [hs]
    exact c V inp junk

/-- 24 nodes with four processes, root 0; with one process, root 17. -/
example := rooted_recursive_partial [2, 1] [3] [5] (by decide) (by decide) (by decide) (by decide) (by decide) 4 0 (by decide) (by decide) (by decide)
example := rooted_recursive_partial [2, 1] [3] [5] (by decide) (by decide) (by decide) (by decide) (by decide) 1 17 (by decide) (by decide) (by decide)

/-! ### The recursive gather with a root on another node -/

/-- Whether the pass succeeds does not depend on the root. -/
theorem prune_some (N r r' : Nat) (rows : List Row) : ∀ b, (prune N r b rows).isSome = true → (prune N r' b rows).isSome = true := by
  induction rows with
  | nil => intro b h; exact h
  | cons row rows ih =>
    intro b h
    cases rows with
    | nil => rfl
    | cons next rest =>
      rw [prune] at h ⊢
      cases h1 : prune N r false (next :: rest) with
      | none => rw [h1] at h; cases h
      | some x =>
        obtain ⟨y, h2⟩ := Option.isSome_iff_exists.1 (ih false (by rw [h1]; rfl))
        rw [h1] at h
        rw [h2]
        dsimp only at h ⊢
        split_ifs at h ⊢ <;> first | rfl | exact h

/-- With the recursive algorithm and any list of ports the pass makes a schedule for every rank, and for ranks from the number of nodes on the gather is
wrong. -/
theorem gather_recursive_violated (ports : List Nat) (hp : ∀ p, p ∈ ports → 0 < p) (hne : ports ≠ []) (ns rank : Nat)
    (h1 : (ports.map (· + 1)).prod ≤ rank) (h2 : rank < (ports.map (· + 1)).prod * ns) :
    ∃ rows rows', (∀ t, Recursive.generate true (ports.map fun p : Nat => (p : Int)) t = some (columns rows t)) ∧
      toRank (ports.map (· + 1)).prod rank rows = some rows' ∧ ¬ GathersTo (ports.map (· + 1)).prod ns rank rows' := by
  obtain ⟨lb, hlb⟩ : ∃ lb, lb = Recursive.factor ports := ⟨_, rfl⟩
  have hprod : (ports.map (· + 1)).prod = lb := hlb.symm
  rw [hprod] at h1 h2 ⊢
  have hN : 2 ≤ lb := by
    cases ports with
    | nil => exact absurd rfl hne
    | cons p ps =>
      rw [hlb, Recursive.factor_cons]
      have := hp p List.mem_cons_self
      have : 2 * 1 ≤ (p + 1) * Recursive.factor ps := Nat.mul_le_mul (by omega) (Recursive.factor_pos ps)
      omega
  obtain ⟨rows, hrows⟩ : ∃ rows : List Row, rows = (fun t => Recursive.gatherFirst lb t) :: (recRows lb 1 ports ++ [fun _ => Recursive.gatherLast lb]) :=
    ⟨_, rfl⟩
  have hcol : ∀ t, Recursive.allgather ports t = columns rows t := by
    intro t
    unfold Recursive.allgather
    rw [← hlb, recRows_columns, hrows]
    unfold columns
    rw [List.map_cons, List.map_append]
    rfl
  have hw : Wf lb rows := by
    rw [hrows]
    exact recRows_wf lb ports 1 (by omega) (by omega) _ _ fun t _ => by simp [Recursive.gatherFirst, Recursive.mk]
  obtain ⟨r1, v1, f1, _⟩ := prunes_first lb 0 (fun t => Recursive.gatherFirst lb t) _ (by simp) _
    (recRows_prunes lb 0 (by omega) ports 1 (by omega) (by omega))
  rw [← hrows] at f1
  obtain ⟨⟨rows', v⟩, hpr⟩ := Option.isSome_iff_exists.1 (prune_some lb 0 rank rows true (by rw [f1]; rfl))
  have hto : toRank lb rank rows = some rows' := by rw [toRank, hpr]; rfl
  exact ⟨rows, rows', fun t => by rw [Recursive.generate_allgather ports hp t, hcol t], hto, gather_violated hN h1 h2 hw hto⟩

/-- Six nodes with four processes, root 23. -/
example := gather_recursive_violated [2, 1] (by decide) (by decide) 4 23 (by decide) (by decide)

/-- The same for reduces with any balanced list of ports. -/
theorem reduce_recursive_violated (negs mids gs : List Nat) (hne : mids ++ gs ≠ []) (hn : ∀ p, p ∈ negs → 0 < p) (hm : ∀ p, p ∈ mids → 0 < p)
    (hg : ∀ p, p ∈ gs → 0 < p) (hbal : (negs.map fun p => p + 1).prod = (gs.map fun p => p + 1).prod) (ns rank : Nat)
    (h1 : ((mids ++ gs).map (· + 1)).prod ≤ rank) (h2 : rank < ((mids ++ gs).map (· + 1)).prod * ns) :
    ∃ rows rows', (∀ t, Recursive.generate false ((negs.map fun p : Nat => -(p : Int)) ++ ((mids ++ gs).map fun p : Nat => (p : Int))) t =
        some (columns rows t)) ∧
      toRank ((mids ++ gs).map (· + 1)).prod rank rows = some rows' ∧ ¬ ReducesTo ((mids ++ gs).map (· + 1)).prod ns rank rows' := by
  have hN : 2 ≤ ((mids ++ gs).map (· + 1)).prod := by
    cases hx : mids ++ gs with
    | nil => exact absurd hx hne
    | cons p ps =>
      have hp : 0 < p := (List.mem_append.mp (hx ▸ List.mem_cons_self : p ∈ mids ++ gs)).elim (hm p) (hg p)
      have : 2 * 1 ≤ (p + 1) * Recursive.factor ps := Nat.mul_le_mul (by omega) (Recursive.factor_pos ps)
      exact this
  obtain ⟨r0, rs, a, b, c⟩ := allreduce_rows negs mids gs hne hn hm hg hbal
  obtain ⟨r1, v1, f1, _⟩ := c 0 (by omega)
  obtain ⟨⟨rows', v⟩, hpr⟩ := Option.isSome_iff_exists.1 (prune_some _ 0 rank (r0 :: rs) true (by rw [f1]; rfl))
  have hto : toRank ((mids ++ gs).map (· + 1)).prod rank (r0 :: rs) = some rows' := by rw [toRank, hpr]; rfl
  exact ⟨r0 :: rs, rows', a, hto, reduce_silent hN h2 (toRank_sound h1 (b rank) hto)⟩

/-- 24 nodes with two processes, root 40. -/
example := reduce_recursive_violated [2, 1] [3] [5] (by decide) (by decide) (by decide) (by decide) (by decide) 2 40 (by decide) (by decide)

end ExtMpi.RootNode
