import Verif.Props.ClusterAlternate
import Verif.Lemmas.ClusterCleanRun
/-! # Removal of barriers from the programs of several processes on each of several nodes (C104) -/
namespace ExtMpi.Cluster
open RawCode Schedule RankPerm
open TasksNode
open OnNode (Par)

/-- The number of barriers at the start of the programs, the sizes `S`, `R` of the send and receive buffers of the processes,
the lines of the programs of the processes for one request, and what one execution is to do: the collectives of C68, C69 and C70. -/
inductive CText {X : Type} [AddCommMonoid X] (N ns : Nat) (u : Users) :
    Nat → (Nat → Nat) → (Nat → Nat) → (Nat → List PLine) → ((Nat → Mem X) → (Nat → Mem X) → Prop) → Prop
  | allreduce {negs mids gs : List Nat} {sz : Nat → Nat} {ts : Nat} {P : Par} {sched : Nat → List Block}
      {lines : Nat → List PLine} :
      mids ++ gs ≠ [] → (∀ p, p ∈ negs → 0 < p) → (∀ p, p ∈ mids → 0 < p) → (∀ p, p ∈ gs → 0 < p) →
      (negs.map fun p => p + 1).prod = (gs.map fun p => p + 1).prod → N = ((mids ++ gs).map fun p => p + 1).prod →
      0 < ∑ k ∈ Finset.range N, sz k → P ∈ OnNode.largeChoices ns ts (∑ k ∈ Finset.range N, sz k) →
      Apart ns u (∑ k ∈ Finset.range N, sz k) →
      (∀ t, Recursive.generate false ((negs.map fun p : Nat => -(p : Int)) ++
        ((mids ++ gs).map fun p : Nat => (p : Int))) t = some (sched t)) →
      (∀ p, p < N * ns → allreduceLines N ns P sz (List.range N) u (sched (p / ns)) (p / ns) (p % ns) = some (lines p)) →
      CText N ns u 2 (fun _ => ∑ k ∈ Finset.range N, sz k) (fun _ => ∑ k ∈ Finset.range N, sz k) lines
        (CAllreduceMem N ns u (∑ k ∈ Finset.range N, sz k))
  | allreduceCyclic {negs ports : List Nat} {sz : Nat → Nat} {ts : Nat} {P : Par} {sched : Nat → List Block}
      {lines : Nat → List PLine} :
      0 < N → ports ≠ [] → (∀ p, p ∈ ports → 0 < p) → N ≤ (ports.map fun p => p + 1).prod → CyclicReduce.Fits N 1 ports →
      0 < ∑ k ∈ Finset.range N, sz k → P ∈ OnNode.largeChoices ns ts (∑ k ∈ Finset.range N, sz k) →
      Apart ns u (∑ k ∈ Finset.range N, sz k) →
      (∀ t, CyclicReduce.core N negs ports t = some (sched t)) →
      (∀ p, p < N * ns → allreduceLines N ns P sz (List.range N) u (sched (p / ns)) (p / ns) (p % ns) = some (lines p)) →
      CText N ns u 2 (fun _ => ∑ k ∈ Finset.range N, sz k) (fun _ => ∑ k ∈ Finset.range N, sz k) lines
        (CAllreduceMem N ns u (∑ k ∈ Finset.range N, sz k))
  | reduceScatter {ports : List Nat} {cnt : Nat → Nat} {ts : Nat} {P : Par} {sched : Nat → List Block}
      {lines : Nat → List PLine} :
      ports ≠ [] → (∀ p, p ∈ ports → 0 < p) → N = (ports.map fun p => p + 1).prod →
      0 < ∑ k ∈ Finset.range (N * ns), cnt k → P ∈ OnNode.largeChoices ns ts (∑ k ∈ Finset.range (N * ns), cnt k) →
      ApartBy ns u cnt →
      (∀ t, Recursive.generate false (ports.map fun p : Nat => -(p : Int)) t = some (sched t)) →
      (∀ p, p < N * ns → reduceScatterLines N ns P cnt (List.range N) u (sched (p / ns)) (p / ns) (p % ns) = some (lines p)) →
      CText N ns u 2 (fun _ => ∑ k ∈ Finset.range (N * ns), cnt k) cnt lines (CReduceScatterMem N ns u cnt)
  | reduceScatterCyclic {negs : List Nat} {cnt : Nat → Nat} {ts : Nat} {P : Par} {sched : Nat → List Block}
      {lines : Nat → List PLine} :
      0 < N → N ≤ (negs.map fun p => p + 1).prod →
      0 < ∑ k ∈ Finset.range (N * ns), cnt k → P ∈ OnNode.largeChoices ns ts (∑ k ∈ Finset.range (N * ns), cnt k) →
      ApartBy ns u cnt → (∀ t, CyclicReduce.core N negs [] t = some (sched t)) →
      (∀ p, p < N * ns → reduceScatterLines N ns P cnt (List.range N) u (sched (p / ns)) (p / ns) (p % ns) = some (lines p)) →
      CText N ns u 2 (fun _ => ∑ k ∈ Finset.range (N * ns), cnt k) cnt lines (CReduceScatterMem N ns u cnt)
  | allgather {ports : List Nat} {cnt : Nat → Nat} {perm : List Nat} {sched sched' : Nat → List Block}
      {lines : Nat → List PLine} :
      (∀ p, p ∈ ports → 0 < p) → N = (ports.map fun p => p + 1).prod → IsPerm N perm →
      Apart ns u (∑ k ∈ Finset.range (N * ns), cnt k) →
      (∀ t, Recursive.generate true (ports.map fun p : Nat => (p : Int)) t = some (sched t)) →
      Relabelled N perm sched sched' →
      (∀ p, p < N * ns → allgatherLines N ns cnt perm u (sched' (p / ns)) (p / ns) (p % ns) = some (lines p)) →
      CText N ns u 1 cnt (fun _ => ∑ k ∈ Finset.range (N * ns), cnt k) lines (TAllgatherMem N ns u cnt)
  | allgatherCyclic {ports : List Nat} {cnt : Nat → Nat} {lines : Nat → List PLine} :
      0 < N → (∀ p, p ∈ ports → 0 < p) → Cyclic.Suits N 1 ports → N ≤ (ports.map fun p => p + 1).prod →
      Apart ns u (∑ k ∈ Finset.range (N * ns), cnt k) →
      (∀ p, p < N * ns →
        allgatherLines N ns cnt (List.range N) u (Cyclic.allgather N ports (p / ns)) (p / ns) (p % ns) = some (lines p)) →
      CText N ns u 1 cnt (fun _ => ∑ k ∈ Finset.range (N * ns), cnt k) lines (TAllgatherMem N ns u cnt)

variable {X : Type} [AddCommMonoid X]

/-- Programs of lines. -/
def codeOf (ns : Nat) (lines : Nat → List PLine) (p : Nat) : List CInstr := (lines p).flatMap (lineCode ns (p % ns))

theorem code_lines {ns : Nat} {lines : Nat → List PLine} {p : Nat} {x : Option (List PLine)} (h : x = some (lines p)) :
    (x.map fun l => l.flatMap (lineCode ns (p % ns))) = some (codeOf ns lines p) := by rw [h]; rfl

/-- The programs of the lines are those of C102. -/
theorem ctext_library {N ns d : Nat} (hns : 0 < ns) {u : Users} {S R : Nat → Nat} {lines : Nat → List PLine}
    {post : (Nat → Mem X) → (Nat → Mem X) → Prop} (h : CText N ns u d S R lines post) : CLibrary N ns u d S R (codeOf ns lines) post := by
  have hr : ∀ p, p % ns < ns := fun p => Nat.mod_lt _ hns
  cases h with
  | allreduce h1 h2 h3 h4 h5 h6 h7 h8 h9 h10 h11 =>
    exact .allreduce h1 h2 h3 h4 h5 h6 h7 h8 h9 h10 fun p hp => (reduceLines_code (hr p)).trans (code_lines (h11 p hp))
  | allreduceCyclic h1 h2 h3 h4 h5 h6 h7 h8 h9 h10 =>
    exact .allreduceCyclic h1 h2 h3 h4 h5 h6 h7 h8 h9 fun p hp => (reduceLines_code (hr p)).trans (code_lines (h10 p hp))
  | reduceScatter h1 h2 h3 h4 h5 h6 h7 h8 =>
    exact .reduceScatter h1 h2 h3 h4 h5 h6 h7 fun p hp => (reduceLines_code (hr p)).trans (code_lines (h8 p hp))
  | reduceScatterCyclic h1 h2 h3 h4 h5 h6 h7 =>
    exact .reduceScatterCyclic h1 h2 h3 h4 h5 h6 fun p hp => (reduceLines_code (hr p)).trans (code_lines (h7 p hp))
  | allgather h1 h2 h3 h4 h5 h6 h7 =>
    exact .allgather h1 h2 h3 h4 h5 h6 fun p hp => (allgatherLines_code (hr p)).trans (code_lines (h7 p hp))
  | allgatherCyclic h1 h2 h3 h4 h5 h6 =>
    exact .allgatherCyclic h1 h2 h3 h4 h5 fun p hp => (allgatherLines_code (hr p)).trans (code_lines (h6 p hp))

/-- The programs start with a barrier. -/
theorem ctext_head {N ns d : Nat} {u : Users} {S R : Nat → Nat} {lines : Nat → List PLine}
    {post : (Nat → Mem X) → (Nat → Mem X) → Prop} (h : CText N ns u d S R lines post) {p : Nat} (hp : p < N * ns) :
    ∃ l, lines p = .barrier 0 :: l := by
  have hg : ∀ {cnt : Nat → Nat} {perm : List Nat} {sched : List Block} {a r : Nat},
      allgatherLines N ns cnt perm u sched a r = some (lines p) → ∃ l, lines p = .barrier 0 :: l := fun h => by
    unfold allgatherLines at h
    obtain ⟨l, hl, e⟩ := Option.map_eq_some_iff.1 h
    obtain ⟨l', rfl, _⟩ := gatherProgram_head hl
    exact ⟨_, e.symm⟩
  cases h with
  | allreduce _ _ _ _ _ _ _ _ _ _ h => exact reduceLines_head (h p hp)
  | allreduceCyclic _ _ _ _ _ _ _ _ _ h => exact reduceLines_head (h p hp)
  | reduceScatter _ _ _ _ _ _ _ h => exact reduceLines_head (h p hp)
  | reduceScatterCyclic _ _ _ _ _ _ h => exact reduceLines_head (h p hp)
  | allgather _ _ _ _ _ _ h => exact hg (h p hp)
  | allgatherCyclic _ _ _ _ _ h => exact hg (h p hp)

/-- One execution. -/
theorem ctext_lined {N ns d : Nat} (hns : 0 < ns) {u : Users} {S R : Nat → Nat} {lines : Nat → List PLine}
    {post : (Nat → Mem X) → (Nat → Mem X) → Prop} (h : CText N ns u d S R lines post) (m : Nat → Mem X) :
    0 < d ∧ ∃ gen pr, (∀ p, p < N * ns → gen p = some (lines p)) ∧ Lined N ns d gen pr m (post m) := by
  cases h with
  | @allreduce negs mids gs sz ts P sched _ h1 h2 h3 h4 h5 h6 h7 h8 h9 h10 h11 =>
    subst h6
    obtain ⟨sched', pr, g1, g2, g3⟩ := allreduce_recursive_serial negs mids gs h1 h2 h3 h4 h5 hns sz h7 h8 u h9 m
    obtain rfl : sched' = sched := funext fun t => Option.some.inj ((g1 t).symm.trans (h10 t))
    exact ⟨by decide, _, pr, h11, g3⟩
  | @allreduceCyclic negs ports sz ts P sched _ h1 h2 h3 h4 h5 h6 h7 h8 h9 h10 =>
    obtain ⟨sched', pr, g1, g2, g3⟩ := allreduce_cyclic_serial N h1 negs ports h2 h3 h4 h5 hns sz h6 h7 u h8 m
    obtain rfl : sched' = sched := funext fun t => Option.some.inj ((g1 t).symm.trans (h9 t))
    exact ⟨by decide, _, pr, h10, g3⟩
  | @reduceScatter ports _ ts P sched _ h1 h2 h3 h4 h5 h6 h7 h8 =>
    subst h3
    obtain ⟨sched', pr, g1, g2, g3⟩ := reduceScatter_recursive_serial ports h1 h2 hns R h4 h5 u h6 m
    obtain rfl : sched' = sched := funext fun t => Option.some.inj ((g1 t).symm.trans (h7 t))
    exact ⟨by decide, _, pr, h8, g3⟩
  | @reduceScatterCyclic negs _ ts P sched _ h1 h2 h3 h4 h5 h6 h7 =>
    obtain ⟨sched', pr, g1, g2, g3⟩ := reduceScatter_cyclic_serial N h1 negs h2 hns R h3 h4 u h5 m
    obtain rfl : sched' = sched := funext fun t => Option.some.inj ((g1 t).symm.trans (h6 t))
    exact ⟨by decide, _, pr, h7, g3⟩
  | @allgather ports _ perm sched sched' _ h1 h2 h3 h4 h5 h6 h7 =>
    subst h2
    obtain ⟨sc, sc', pr, g1, g2, g3, g4⟩ := allgather_recursive_serial ports h1 hns S perm h3 u m h4
    refine ⟨by decide, _, pr, fun t ht => ?_, g4⟩
    have ha : t / ns < (ports.map fun p => p + 1).prod := div_lt ht
    obtain ⟨x, e1, e2⟩ := g2 _ ha
    obtain ⟨x', e1', e2'⟩ := h6 _ ha
    obtain rfl : x = x' := Option.some.inj (e1.symm.trans e1')
    rw [Option.some.inj ((g1 x).symm.trans (h5 x))] at e2
    rw [Option.some.inj (e2.symm.trans e2')]
    exact h7 t ht
  | @allgatherCyclic ports _ _ h1 h2 h3 h4 h5 h6 =>
    obtain ⟨pr, g2, g3⟩ := allgather_cyclic_serial N h1 ports h2 h3 h4 hns S u m h5
    exact ⟨by decide, _, pr, h6, g3⟩

section
variable {N ns d : Nat} {u : Users} {S R : Nat → Nat} {lines text : Nat → List PLine} {post : (Nat → Mem X) → (Nat → Mem X) → Prop}

/-- What the pass removes barriers from. -/
theorem ctext_piece (hns : 0 < ns) (h : CText N ns u d S R lines post) (ht : ∀ p, p < N * ns → shape (text p) = shape (lines p))
    (m : Nat → Mem X) : ∃ (E : Nat → Master) (ws : Nat → List (Nat → Nat)) (pr : Nat → List CInstr), Piece N ns E ws pr m (post m) ∧
      Led N ns d E ws ∧ (∀ a, a < N → Cut ns (E a) (ws a) fun r => shape (text (a * ns + r))) ∧
      (d = 2 → ∀ a, a < N → Worked ns (E a) (ws a)) ∧ 0 < d := by
  obtain ⟨hd, gen, pr, hg, _, E, ws, l, h1, h2, h3, h4, h5⟩ := ctext_lined hns h m
  refine ⟨E, ws, pr, h1, h2, fun a ha => (h4 a ha).congr fun r hr => ?_, h5, hd⟩
  have hp := proc_lt hr ha
  rw [ht _ hp, Option.some.inj ((hg _ hp).symm.trans (h3 _ hp).1)]

theorem ctext_shape (h : CText N ns u d S R lines post) (ht : ∀ p, p < N * ns → shape (text p) = shape (lines p)) {p : Nat}
    (hp : p < N * ns) : ∃ s, shape (text p) = none :: s := by
  obtain ⟨l, e⟩ := ctext_head h hp
  exact ⟨shape l, by rw [ht p hp, e]; rfl⟩

/-- Instructions of the programs after the passes. -/
theorem finish_own (hns : 0 < ns) (h : CText N ns u d S R lines post) (ht : ∀ p, p < N * ns → shape (text p) = shape (lines p))
    {early alt : Bool} {out : Nat → Nat → List CInstr} (ho : ∀ a, a < N → finish early alt ns text a = some (out a)) (p : Nat) (j : Instr)
    (hj : .op j ∈ if p < N * ns then out (p / ns) (p % ns) else []) : OwnI u S R p j := by
  by_cases hp : p < N * ns
  · rw [if_pos hp] at hj
    have hr : p % ns < ns := Nat.mod_lt _ hns
    refine clibrary_own hns (ctext_library hns h) hp ?_
    unfold codeOf
    rw [shape_code, ← ht p hp, ← shape_code]
    obtain ⟨o, h1, h2⟩ := Option.map_eq_some_iff.1 (ho _ (div_lt hp))
    rw [← h2] at hj
    obtain ⟨x, hx, hj⟩ := List.mem_flatMap.1 hj
    refine List.mem_flatMap.2 ⟨x, ?_, hj⟩
    have key : ∀ {l : List PLine}, x ∈ (if alt = true then BarrierPasses.noFirst true l else l) → x ∈ l := fun h => by
      split at h
      · exact mem_noFirst h
      · exact h
    unfold finishLines at h1
    dsimp only at h1
    have hp' := Nat.div_add_mod' p ns
    split at h1
    · obtain ⟨o', h3, rfl⟩ := Option.map_eq_some_iff.1 h1
      have := mem_cleanLines h3 hr (key hx)
      rwa [hp'] at this
    · have := mem_cleanLines h1 hr hx
      rw [hp'] at this
      exact key this
  · rw [if_neg hp] at hj
    cases hj

/-- The pass without the other one. -/
theorem finish_plain (early : Bool) (a : Nat) : finish early false ns text a = cleanNode ns text a := by
  cases early
  · rfl
  · unfold finish finishLines cleanNode
    simp only [Bool.false_eq_true, if_false, if_true, Option.map_map]
    rfl

theorem finish_piece (hns : 0 < ns) (h : CText N ns u d S R lines post) (ht : ∀ p, p < N * ns → shape (text p) = shape (lines p))
    (early : Bool) (m : Nat → Mem X) : ∃ (out : Nat → Nat → List CInstr) (E : Nat → Master) (ws : Nat → List (Nat → Nat)),
      (∀ a, a < N → finish early false ns text a = some (out a)) ∧ Piece N ns E ws (fun p => out (p / ns) (p % ns)) m (post m) ∧
      Starts N ns E ws := by
  obtain ⟨E, ws, pr, h1, h2, h3, _, hd⟩ := ctext_piece hns h ht m
  obtain ⟨out, E', ws', g1, g2, g3⟩ := h1.clean hns h3 (Begins ns) (fun A wa B wb _ => begins_undouble) (h2.starts hd)
  exact ⟨out, E', ws', fun a ha => by rw [finish_plain]; exact g1 a ha, g2, g3⟩

theorem finish_first (hns : 0 < ns) (h : CText N ns u d S R lines post) (ht : ∀ p, p < N * ns → shape (text p) = shape (lines p))
    {early : Bool} (he : early = true → d = 2) (m : Nat → Mem X) :
    ∃ (out : Nat → Nat → List CInstr) (E : Nat → Master) (ws : Nat → List (Nat → Nat)),
      (∀ a, a < N → finish early true ns text a = some (out a)) ∧ Piece N ns E ws (fun p => out (p / ns) (p % ns)) m (post m) ∧
      ∀ a, a < N → Full ns (E a) (ws a) := by
  obtain ⟨E, ws, pr, h1, h2, h3, h4, hd⟩ := ctext_piece hns h ht m
  have hsh : ∀ p, ∃ s, p < N * ns → shape (text p) = none :: s := fun p => by
    by_cases hp : p < N * ns
    · obtain ⟨s, hs⟩ := ctext_shape h ht hp
      exact ⟨s, fun _ => hs⟩
    · exact ⟨[], fun h => absurd h hp⟩
  choose s hs using hsh
  cases early with
  | false =>
    have : ∀ a, ∃ E' ws', a < N → E a = nodeBar ns ++ E' ∧ ws a = nodeWs ns ++ ws' ∧
        Cut ns E' ws' fun r => shape (BarrierPasses.noFirst true (text (a * ns + r))) := fun a => by
      by_cases ha : a < N
      · obtain ⟨E', ws', e1, e2, e3⟩ := (h3 a ha).tail hns (h1.wf a ha) fun r hr => hs _ (proc_lt hr ha)
        exact ⟨E', ws', fun _ => ⟨e1, e2, e3.congr fun r hr => shape_noFirst (hs _ (proc_lt hr ha))⟩⟩
      · exact ⟨[], [], fun h => absurd h ha⟩
    choose E' ws' hE using this
    have hp := h1.drop (E' := E') (ws' := ws') (nodeWs ns) (fun a ha => by rw [nodeWs_length]; exact (hE a ha).1) fun a ha => (hE a ha).2.1
    have hq : ∀ a, a < N → Full ns (E' a) (ws' a) := fun a ha => by
      obtain ⟨F, wf, e1, e2, e3⟩ := h2 a ha
      obtain ⟨k, rfl⟩ : ∃ k, d = 1 + k := ⟨d - 1, by omega⟩
      rw [(hE a ha).1, Nat.mul_add, Nat.mul_one, List.replicate_add, List.append_assoc] at e1
      rw [(hE a ha).2.1, lead_add, syncs_append, syncs_lead_one, List.append_assoc] at e2
      rw [List.append_cancel_left (show nodeBar ns ++ _ = nodeBar ns ++ _ from e1),
        List.append_cancel_left (show nodeWs ns ++ _ = nodeWs ns ++ _ from e2)]
      exact e3.after (by rw [syncs_lead_length, bars_replicate])
    obtain ⟨out, E2, ws2, g1, g2, g3⟩ := hp.clean hns (lines := fun p => BarrierPasses.noFirst true (text p)) (fun a ha => (hE a ha).2.2)
      (Full ns) (fun A wa B wb hl _ => full_undouble hl) hq
    exact ⟨out, E2, ws2, fun a ha => g1 a ha, g2, g3⟩
  | true =>
    obtain ⟨out, E', ws', g1, g2, g3⟩ := h1.clean hns h3 (Worked ns) (fun A wa B wb hl => worked_undouble hl) (h4 (he rfl))
    have : ∀ a, ∃ E2 ws2, a < N → E' a = nodeBar ns ++ E2 ∧ ws' a = nodeWs ns ++ ws2 ∧ Full ns E2 ws2 := fun a => by
      by_cases ha : a < N
      · obtain ⟨G, wg, x, L, wl, e1, e2, e3, e4, e5⟩ := g3 a ha
        have hx0 : bars [x] = 0 := by
          obtain ⟨o, i⟩ := x
          cases i with
          | barrier => exact absurd rfl e4
          | copy red d s n => rfl
          | irecv b n q => rfl
          | isend b n q => rfl
          | waitall => rfl
        refine ⟨_, _, fun _ => ⟨e1, e2, ?_⟩⟩
        have := e5.after (A := G ++ [x]) (w := wg) (by rw [bars_append, hx0, e3]; rfl)
        rwa [List.append_assoc] at this
      · exact ⟨[], [], fun h => absurd h ha⟩
    choose E2 ws2 hE using this
    have hp := g2.drop (E' := E2) (ws' := ws2) (nodeWs ns) (fun a ha => by rw [nodeWs_length]; exact (hE a ha).1) fun a ha => (hE a ha).2.1
    have ho : ∀ a, ∃ o : Nat → List PLine, a < N → cleanLines ns text a = some o ∧ out a = fun r => (o r).flatMap (lineCode ns r) := fun a => by
      by_cases ha : a < N
      · obtain ⟨o, e1, e2⟩ := Option.map_eq_some_iff.1 (g1 a ha)
        exact ⟨o, fun _ => ⟨e1, e2.symm⟩⟩
      · exact ⟨fun _ => [], fun h => absurd h ha⟩
    choose o ho using ho
    refine ⟨fun a r => (BarrierPasses.noFirst true (o a r)).flatMap (lineCode ns r), E2, ws2, fun a ha => ?_, hp.congr fun p hpn => ?_,
      fun a ha => (hE a ha).2.2⟩
    · unfold finish finishLines
      simp only [if_true]
      rw [(ho a ha).1]
      rfl
    · have ha := div_lt hpn
      have hr : p % ns < ns := Nat.mod_lt _ hns
      obtain ⟨s', hs'⟩ := cleanLines_head hns (ho _ ha).1 (fun r hr => hs _ (proc_lt hr ha)) hr
      dsimp only
      rw [code_noFirst hs', (ho _ ha).2, nodeWs_length]

/-- The programs after the passes do not depend on the memories. -/
theorem finish_same {early alt : Bool} {out out' : Nat → Nat → List CInstr} (h : ∀ a, a < N → finish early alt ns text a = some (out a))
    (h' : ∀ a, a < N → finish early alt ns text a = some (out' a)) {p : Nat} (hp : p < N * ns) :
    out (p / ns) (p % ns) = out' (p / ns) (p % ns) := by
  rw [Option.some.inj ((h _ (div_lt hp)).symm.trans (h' _ (div_lt hp)))]

/-- C104: removal of barriers by `ext_mpi_clean_barriers` on every node. The lines can contain more that has no effect. The pass
ends on all nodes, no execution of the programs after it gets stuck or has a race, and `K` executions, with changes of the buffers
by the processes before every one, end as if they took place one at a time. -/
theorem clean_executions (hns : 0 < ns) (h : CText N ns u d S R lines post) (ht : ∀ p, p < N * ns → shape (text p) = shape (lines p))
    (early : Bool) : ∃ out : Nat → Nat → List CInstr, (∀ a, a < N → finish early false ns text a = some (out a)) ∧
      ∀ {fills : Nat → Nat → List Change}, OwnData ns u S R fills → ∀ (K : Nat) (m : Nat → Mem X),
        CCorrect N ns (repeated N ns fills (fun p => out (p / ns) (p % ns)) K) m (Serially N ns fills post 0 K m) := by
  obtain ⟨out, _, _, h1, _⟩ := finish_piece hns h ht early fun _ _ _ => 0
  refine ⟨out, h1, fun hf K m => repeat_starts hns (private_of_own hf (finish_own hns h ht h1)) (fun m => ?_) K m⟩
  obtain ⟨out', E, ws, g1, g2, g3⟩ := finish_piece hns h ht early m
  exact ⟨E, ws, g2.congr fun p hp => finish_same h1 g1 hp, g3⟩

/-- C104: the same with two alternating programs, of which the first barrier is removed as well: before the pass or, for
reductions, after it. -/
theorem clean_alternating (hns : 0 < ns) (h : CText N ns u d S R lines post) (ht : ∀ p, p < N * ns → shape (text p) = shape (lines p))
    {early : Bool} (he : early = true → d = 2) : ∃ out : Nat → Nat → List CInstr,
      (∀ a, a < N → finish early true ns text a = some (out a)) ∧
      ∀ {fills : Nat → Nat → List Change}, OwnData ns u S R fills → ∀ (K : Nat) (m : Nat → Mem X),
        ACorrect N ns (alternating N ns fills (fun p => out (p / ns) (p % ns)) K) m (Serially N ns fills post 0 K m) := by
  obtain ⟨out, _, _, h1, _⟩ := finish_first hns h ht he fun _ _ _ => 0
  have hl := ctext_library hns h
  refine ⟨out, h1, fun hf K m => alternate_full hns (alternates_of_own hf (clibrary_apart hl) (finish_own hns h ht h1)) (clibrary_bank hl)
    (fun m => ?_) K m⟩
  obtain ⟨out', E, ws, g1, g2, g3⟩ := finish_first hns h ht he m
  exact ⟨E, ws, g2.congr fun p hp => finish_same h1 g1 hp, g3⟩

end

/-! ## Examples -/

/-- A reduction on six nodes of two processes: lines that have no effect are among those of the program. -/
example (m : Nat → Mem Nat) : ∃ (sched : Nat → List Block) (lines : Nat → List PLine) (P : Par) (out : Nat → Nat → List CInstr),
    (∀ p, p < 6 * 2 →
      allreduceLines 6 2 P (fun k => k + 1) (List.range 6) twoUsers (sched (p / 2)) (p / 2) (p % 2) = some (lines p)) ∧
    (∀ a, a < 6 → finish true true 2 (fun p => lines p ++ [.work []]) a = some (out a)) ∧
    ACorrect 6 2 (alternating 6 2 feedback (fun p => out (p / 2) (p % 2)) 10) m
      (Serially 6 2 feedback (CAllreduceMem 6 2 twoUsers 21) 0 10 m) := by
  obtain ⟨P, hP⟩ := choices_ne 2 8 21
  obtain ⟨sched, pr, h1, _, _, _, _, lines, _, _, h2, _⟩ := allreduce_recursive_serial (X := Nat) [1] [2] [1] (by decide) (by decide) (by decide)
    (by decide) (by decide) (by decide) (fun k => k + 1) (by decide) hP twoUsers (twoUsers_apart (by decide)) m
  have h := CText.allreduce (X := Nat) (ns := 2) (lines := lines) (negs := [1]) (mids := [2]) (gs := [1]) (N := 6) (by decide)
    (by decide) (by decide) (by decide) (by decide) (by decide) (by decide) hP (twoUsers_apart (by decide)) h1 fun p hp => (h2 p hp).1
  obtain ⟨out, g1, g2⟩ := clean_alternating (text := fun p => lines p ++ [.work []]) (by decide) h
    (fun p _ => by simp [shape]) (early := true) fun _ => rfl
  exact ⟨sched, lines, P, out, fun p hp => (h2 p hp).1, g1, g2 feedback_own 10 m⟩

/-- Number of barriers among lines. -/
def barriersIn (l : List PLine) : Nat := (shape l).countP Option.isNone

/-- Lines of an allgather of one element on one node of two processes. -/
def pairLines (p : Nat) : List PLine :=
  ((Recursive.generate true [] 0).bind fun sched => allgatherLines 1 2 (fun _ => 1) [0] twoUsers sched 0 p).getD []

/-- Barriers are removed. -/
example : ((List.range 2).map fun p => barriersIn (pairLines p), (cleanLines 2 pairLines 0).map fun out => (List.range 2).map fun p =>
    barriersIn (out p)) = ([5, 5], some [3, 3]) := by decide +kernel

end ExtMpi.Cluster
