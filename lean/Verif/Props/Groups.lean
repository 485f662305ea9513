import Verif.Lemmas.GroupsJoin
import Verif.Props.PortChoice
/-! # Several groups of steps (C76-C78) -/
namespace ExtMpi.Groups
open Schedule PortChoice

/-! ### C76 -/

theorem Exec.congr' {V O : Type} [Add V] {N : Nat} {co : Block → (Nat → V) → O} {p q : Nat → List Block}
    {inp junk : Nat → Nat → V} {out : Nat → O} (h : Exec N co p inp junk out) (hpq : ∀ t, t < N → q t = p t) :
    Exec N co q inp junk out := by
  obtain ⟨b0, bs, last, s', h1, h2, h3⟩ := h
  refine ⟨b0, bs, last, s', fun t ht => ?_, h2, h3⟩
  rw [hpq t ht]
  exact h1 t ht

theorem Plan.Ok.exec {p : Plan} {N : Nat} (h : p.Ok N) {V : Type} [AddCommMonoid V] :
    ∃ sched : Nat → List Block, (∀ t, t < N → Groups.generate false N p.ports p.groups t = some (sched t)) ∧
      ∀ inp junk : Nat → Nat → V, ∃ out, Exec N copyOut sched inp junk out ∧ AllreducePost N inp out := by
  obtain ⟨d, ds, hd⟩ := List.exists_cons_of_ne_nil h.ne
  obtain ⟨u, us, hu⟩ := List.exists_cons_of_ne_nil h.ups_ne
  have hds : ∀ x, x ∈ d :: ds → DownOk x := fun x hx => h.downs x (by rw [hd]; exact hx)
  have hus : ∀ x, x ∈ u :: us → UpOk x := fun x hx => h.ups x (by rw [hu]; exact hx)
  have hdp := h.all
  have hup := h.same
  rw [← hup] at hdp
  have hdp' := h.all
  rw [hd] at hdp'
  rw [hu] at hdp
  cases hm : p.middle with
  | none =>
    have hmid : p.mid = 1 := by unfold Plan.mid; rw [hm]; rfl
    rw [hmid, Nat.mul_one] at hdp hdp'
    obtain ⟨sched, h1, h2⟩ := plain_exec (V := V) N h.pos d u ds us hds hus hdp' hdp
    refine ⟨sched, fun t _ => ?_, h2⟩
    rw [h.generate t, hm, hmid, hd, hu]
    simp only [Option.isSome_none, Bool.false_eq_true, if_false, Option.bind_some, List.append_nil]
    exact h1 t
  | some m =>
    have hmid : p.mid = m.1 := by unfold Plan.mid; rw [hm]; rfl
    have hmk := h.middle m hm
    obtain ⟨body, last, hcore, hl⟩ := mid_local m hmk
    rw [hmid] at hdp hdp'
    obtain ⟨sched, h1, h2⟩ := middle_exec (V := V) N h.pos d u ds us hds hus m.1 (by have := hmk.size; omega) body last hl
      hdp' hdp
    refine ⟨sched, fun t ht => ?_, h2⟩
    rw [h.generate t, hm, hmid, hd, hu]
    simp only [Option.isSome_some, if_true]
    rw [h.part_mid m hm body last hcore t, Option.bind_some]
    exact h1 t ht

/-- C76: an allreduce in several groups of steps, with reductions, an optional middle group and gathers. If every group
reaches its nodes and the groups together make up all nodes, every node gets the sum of all contributions to every block,
every contribution exactly once, for every number and size of groups and every choice of ports. -/
theorem allreduce_correct (p : Plan) (N : Nat) (h : p.Ok N) :
    ∃ sched : Nat → List Block,
      (∀ t, t < N → generate false N p.ports p.groups t = some (sched t)) ∧
      ∀ (V : Type) [AddCommMonoid V], Computes (V := V) N copyOut sched (AllreducePost N) := by
  obtain ⟨sched, h1, _⟩ := h.exec (V := Nat)
  refine ⟨sched, h1, ?_⟩
  intro V _
  obtain ⟨sched', h3, h4⟩ := h.exec (V := V)
  apply Computes.of
  · intro inp out out' h hpost t b ht hb
    rw [← h t ht]; exact hpost t b ht hb
  · intro inp junk
    obtain ⟨out, e1, e2⟩ := h4 inp junk
    refine ⟨out, Exec.congr' e1 fun t ht => ?_, e2⟩
    have := h1 t ht
    rw [h3 t ht] at this
    exact (Option.some.inj this).symm

/-- Two reductions, a middle group of three nodes that first reduces and then gathers, and one gather. -/
def plan18 : Plan where
  downs := [(2, [1]), (3, [1, 1])]
  middle := some (3, [1], [2])
  ups := [(6, [1, 2])]

theorem plan18_ok : plan18.Ok 18 where
  ne := by decide
  downs := by
    intro d hd
    have : d = (2, [1]) ∨ d = (3, [1, 1]) := by simpa [plan18] using hd
    rcases this with rfl | rfl
    · exact ⟨by decide, by decide, by decide⟩
    · exact ⟨by decide, by decide, by decide⟩
  ups := by
    intro u hu
    have : u = (6, [1, 2]) := by simpa [plan18] using hu
    subst this
    exact ⟨by decide, by decide, ⟨by decide, by decide, trivial⟩, by decide⟩
  middle := by
    intro m hm
    have : m = (3, [1], [2]) := by simpa [plan18] using hm.symm
    subst this
    exact ⟨by decide, by decide, by decide, ⟨by decide, trivial⟩, by decide⟩
  same := by decide
  all := by decide

example : plan18.ports = [-1, -1, -1, -1, 2, 1, 2] ∧ plan18.groups = [-2, 3, -3, 3, -3, 6, -6] := by decide

example : ∃ sched : Nat → List Block,
    (∀ t, t < 18 → generate false 18 [-1, -1, -1, -1, 2, 1, 2] [-2, 3, -3, 3, -3, 6, -6] t = some (sched t)) ∧
    ∀ (V : Type) [AddCommMonoid V], Computes (V := V) 18 copyOut sched (AllreducePost 18) :=
  allreduce_correct plan18 18 plan18_ok

/-! ### C77 -/

/-- Halvings and doublings on `N` nodes. -/
def halvingPlan (N : Nat) : Plan where
  downs := [(N, List.replicate (slots N) 1)]
  middle := none
  ups := [(N, List.replicate (slots N) 1)]

theorem halving_fits (N : Nat) (hN : 2 ≤ N) : Cyclic.Fits N 1 (List.replicate (slots N) 1) := by
  have h := tight_fits (twos_tight N hN)
  unfold stepPorts at h
  rwa [List.map_replicate] at h

theorem halving_ok (N : Nat) (hN : 2 ≤ N) : (halvingPlan N).Ok N := by
  have hs := slots_spec N hN
  have hpos : ∀ p, p ∈ List.replicate (slots N) 1 → 0 < p := by
    intro p hp
    rw [List.eq_of_mem_replicate hp]
    omega
  have hcov : N ≤ ((List.replicate (slots N) 1).map (· + 1)).prod := by
    rw [List.map_replicate, List.prod_replicate]
    exact hs.2.1
  refine ⟨by simp [halvingPlan], ?_, ?_, ?_, rfl, ?_⟩
  · intro d hd
    rw [List.mem_singleton.1 hd]
    exact ⟨hN, hpos, hcov⟩
  · intro u hu
    rw [List.mem_singleton.1 hu]
    exact ⟨hN, hpos, (halving_fits N hN).suits, hcov⟩
  · intro m hm
    cases hm
  · simp [halvingPlan, Plan.mid]

theorem halving_lists (N : Nat) : (halvingPlan N).ports = List.replicate (slots N) (-1) ++ List.replicate (slots N) 1 ∧
    (halvingPlan N).groups = groupsOf N (slots N) ++ groupsOf N (slots N) := by
  unfold Plan.ports Plan.groups Plan.segs halvingPlan
  constructor
  · simp
  · simp [entries, groupsOf]

/-- C77: with the option for minimal computation, halvings followed by doublings, an allreduce gives every node the sum of
all contributions, for every number of nodes and whether the recursive or the cyclic generator is chosen. -/
theorem minimal_computation {V α : Type} [AddCommMonoid V] [LinearOrder α] (size cores sockets : Nat)
    (hN : 2 ≤ size / cores) (cost : List Int → Option α) (ps gs : List Int)
    (h : numPortsFactors size cores sockets false true cost = some (ps, gs)) :
    ∃ sched : Nat → List Block,
      (∀ t, t < size / cores →
        generateAny (notRecursive (size / cores) ps) (size / cores) ps gs t = some (sched t)) ∧
      Computes (V := V) (size / cores) copyOut sched (AllreducePost (size / cores)) := by
  have hps : ps = List.replicate (slots (size / cores)) (-1) ++ List.replicate (slots (size / cores)) 1 ∧
      gs = groupsOf (size / cores) (slots (size / cores)) ++ groupsOf (size / cores) (slots (size / cores)) := by
    unfold numPortsFactors at h
    have hh : halvings (size / cores) = slots (size / cores) := by
      unfold halvings
      rw [if_neg (by omega)]
    simp only [if_true, hh] at h
    split at h
    · cases h
    · split at h
      · cases h
        exact ⟨rfl, rfl⟩
      · cases h
  obtain ⟨rfl, rfl⟩ := hps
  generalize size / cores = N at *
  unfold generateAny
  by_cases hr : notRecursive N (List.replicate (slots N) (-1) ++ List.replicate (slots N) 1) = true
  · obtain ⟨sched, h1, h2⟩ := allreduce_correct (halvingPlan N) N (halving_ok N hN)
    rw [(halving_lists N).1, (halving_lists N).2] at h1
    refine ⟨sched, fun t ht => ?_, h2 V⟩
    rw [if_pos hr]
    exact h1 t ht
  · have hone : ∀ p, p ∈ List.replicate (slots N) 1 → 0 < p := by
      intro p hp
      rw [List.eq_of_mem_replicate hp]
      omega
    have hlist : List.replicate (slots N) (-1 : Int) ++ List.replicate (slots N) 1 =
        (List.replicate (slots N) 1).map (fun p : Nat => -(p : Int)) ++
          (List.replicate (slots N) 1).map fun p : Nat => (p : Int) := by
      rw [List.map_replicate, List.map_replicate]
      rfl
    have hg : groupSize (List.replicate (slots N) (-1) ++ List.replicate (slots N) 1) = (N : Int) := by
      unfold notRecursive at hr; simpa using hr
    have hprod : ((List.replicate (slots N) 1).map fun p => p + 1).prod = N := by
      have := groupSize_eq (List.replicate (slots N) 1) (List.replicate (slots N) 1) hone (by rw [← hlist, hg]; omega)
      rw [← hlist, hg] at this
      exact_mod_cast this.symm
    have hs := (slots_spec N hN).1
    obtain ⟨sched, s1, s2⟩ := Recursive.allreduce_correct (V := V) (List.replicate (slots N) 1) [] (List.replicate (slots N) 1)
      (by simp; omega) hone (fun _ h => by cases h) hone rfl
    rw [List.nil_append, hprod] at s2
    refine ⟨sched, fun t _ => ?_, s2⟩
    rw [if_neg hr, hlist]
    exact s1 t

/-- Every list takes the same time. -/
def flat : List Int → Option Nat := fun _ => some 0

example : numPortsFactors 12 2 1 false true flat = some ([-1, -1, -1, 1, 1, 1], [6, 6, -6, 6, 6, -6]) := by decide

example : ∃ sched : Nat → List Block,
    (∀ t, t < 6 → generate false 6 [-1, -1, -1, 1, 1, 1] [6, 6, -6, 6, 6, -6] t = some (sched t)) ∧
    Computes (V := Nat) 6 copyOut sched (AllreducePost 6) := by
  have h := minimal_computation (V := Nat) 12 2 1 (by decide) flat [-1, -1, -1, 1, 1, 1] [6, 6, -6, 6, 6, -6] (by decide)
  rw [show notRecursive (12 / 2) [-1, -1, -1, 1, 1, 1] = true by decide, show 12 / 2 = 6 from rfl] at h
  unfold generateAny at h
  simp only [if_true] at h
  exact h

example : ∃ sched : Nat → List Block,
    (∀ t, t < 8 → Recursive.generate false [-1, -1, -1, 1, 1, 1] t = some (sched t)) ∧
    Computes (V := Nat) 8 copyOut sched (AllreducePost 8) := by
  have h := minimal_computation (V := Nat) 8 1 1 (by decide) flat [-1, -1, -1, 1, 1, 1] [8, 8, -8, 8, 8, -8] (by decide)
  rw [show notRecursive (8 / 1) [-1, -1, -1, 1, 1, 1] = false by decide, Nat.div_one] at h
  unfold generateAny at h
  simp only [Bool.false_eq_true, if_false] at h
  exact h

/-! ### C78 -/

theorem side_counts (segs : List (Nat × List Int)) (h : ∀ s, s ∈ segs → s.2 ≠ [] ∧ 2 ≤ s.1) :
    (segs.flatMap fun s => entries s.1 s.2.length).take (segs.flatMap fun s => s.2).length =
      segs.flatMap fun s => entries s.1 s.2.length := by
  rw [segs_length _ fun s hs => (h s hs).1, List.take_length]

/-- C78 for a single group: an allgather with ports that suit the number of nodes. -/
theorem allgather_partial {V : Type} [Add V] (N : Nat) (hN : 2 ≤ N) (ps : List Nat) (hpos : ∀ p, p ∈ ps → 0 < p)
    (hfit : Cyclic.Suits N 1 ps) (hcov : N ≤ (ps.map (· + 1)).prod) :
    ∃ sched : Nat → List Block,
      (∀ t, generate true N (ps.map fun x : Nat => (x : Int)) (entries N ps.length) t = some (sched t)) ∧
      Computes (V := V) N copyOut sched (AllgatherPost N) := by
  have hne : ps ≠ [] := by
    intro e
    rw [e] at hcov
    simp at hcov
    omega
  refine ⟨Cyclic.allgather N ps, fun t => ?_, Cyclic.allgather_suits N (by omega) ps hpos hfit hcov⟩
  have hsing : single (ps.map fun x : Nat => (x : Int)) (groupsOf N (ps.map fun x : Nat => (x : Int)).length) = true := by
    apply single_mixed N hN
    have := (take_neg [] ps (by simp) hpos).1
    simp only [List.map_nil, List.nil_append] at this
    rw [this]
    simpa using List.length_pos_of_ne_nil hne
  rw [List.length_map] at hsing
  have hall : (ps.map fun x : Nat => (x : Int)).all (0 < ·) = true := by
    rw [List.all_eq_true]; intro x hx
    obtain ⟨p, hp, rfl⟩ := List.mem_map.1 hx
    simpa using hpos p hp
  unfold generate
  rw [if_pos (show single _ (entries N ps.length) = true from hsing), generateSingle, if_pos rfl, if_pos hall, List.map_map]
  congr 2
  exact List.map_id'' (fun x => by simp) _

/-- C78 for a single group: a reduce_scatter. -/
theorem reduceScatter_partial {V : Type} [AddCommMonoid V] (N : Nat) (hN : 2 ≤ N) (ps : List Nat) (hpos : ∀ p, p ∈ ps → 0 < p)
    (hcov : N ≤ (ps.map (· + 1)).prod) :
    ∃ sched : Nat → List Block,
      (∀ t, generate false N (ps.map fun x : Nat => -(x : Int)) (entries N ps.length) t = some (sched t)) ∧
      Computes (V := V) N copyOutFirst sched (ReduceScatterPost N) := by
  have hne : ps ≠ [] := by
    intro e
    rw [e] at hcov
    simp at hcov
    omega
  obtain ⟨sched, s1, s2⟩ := CyclicReduce.reduceScatter_correct (V := V) N (by omega) ps hcov
  obtain ⟨tk, dr⟩ := take_neg ps [] hpos (by simp)
  simp only [List.map_nil, List.append_nil] at tk dr
  refine ⟨sched, fun t => ?_, s2⟩
  have hsing : single (ps.map fun x : Nat => -(x : Int)) (groupsOf N (ps.map fun x : Nat => -(x : Int)).length) = true := by
    apply single_negative N hN
    · simpa using hne
    · exact tk
  rw [List.length_map] at hsing
  unfold generate
  rw [if_pos (show single _ (entries N ps.length) = true from hsing), generateSingle, if_neg (by simp), tk, dr,
    if_pos (by simp), List.map_map, ← s1 t]
  congr 1
  exact List.map_id'' (fun x => by simp) _

example : ∃ sched : Nat → List Block, (∀ t, generate true 7 [1, 1, 1] [7, 7, -7] t = some (sched t)) ∧
    Computes (V := Nat) 7 copyOut sched (AllgatherPost 7) :=
  allgather_partial 7 (by decide) [1, 1, 1] (by decide) ⟨by decide, by decide, by decide, trivial⟩ (by decide)

example : ∃ sched : Nat → List Block, (∀ t, generate false 7 [-2, -2] [7, -7] t = some (sched t)) ∧
    Computes (V := Nat) 7 copyOutFirst sched (ReduceScatterPost 7) :=
  reduceScatter_partial 7 (by decide) [2, 2] (by decide) (by decide)

/-- C78 is violated: an allgather in several groups is not generated. All groups count as middle groups, and only the
first one is filled in. -/
theorem allgather_violated (segs : List (Nat × List Nat)) (hlen : 2 ≤ segs.length)
    (h : ∀ s, s ∈ segs → 2 ≤ s.1 ∧ s.2 ≠ []) (hpos : ∀ s, s ∈ segs → ∀ p, p ∈ s.2 → 0 < p) (N t : Nat) :
    generate true N (segs.flatMap fun s => s.2.map fun x : Nat => (x : Int))
      (segs.flatMap fun s => entries s.1 s.2.length) t = none := by
  obtain ⟨sg, hsg⟩ : ∃ sg, sg = segs.map fun s => (s.1, s.2.map fun x : Nat => (x : Int)) := ⟨_, rfl⟩
  have e1 : (segs.flatMap fun s => s.2.map fun x : Nat => (x : Int)) = sg.flatMap fun s => s.2 := by
    rw [hsg, List.flatMap_map]
  have e2 : (segs.flatMap fun s => entries s.1 s.2.length) = sg.flatMap fun s => entries s.1 s.2.length := by
    rw [hsg, List.flatMap_map]
    simp
  have hk : ∀ s, s ∈ sg → s.2 ≠ [] ∧ 2 ≤ s.1 := by
    intro s hs
    rw [hsg] at hs
    obtain ⟨x, hx, rfl⟩ := List.mem_map.1 hs
    have := h x hx
    exact ⟨by simpa using this.2, this.1⟩
  have hl : sg.length = segs.length := by rw [hsg, List.length_map]
  have htk : (sg.flatMap fun s => s.2).takeWhile (fun x => decide (x < 0)) = [] := by
    rw [← e1]
    cases hs : (segs.flatMap fun s => s.2.map fun x : Nat => (x : Int)) with
    | nil => rfl
    | cons a as =>
      rw [List.takeWhile_cons_of_neg]
      have ha : a ∈ segs.flatMap fun s => s.2.map fun x : Nat => (x : Int) := by rw [hs]; exact List.mem_cons_self
      obtain ⟨s, _, ha⟩ := List.mem_flatMap.1 ha
      obtain ⟨x, _, rfl⟩ := List.mem_map.1 ha
      simp
  have hd : ngroupsDown (sg.flatMap fun s => s.2) (sg.flatMap fun s => entries s.1 s.2.length) = 0 := by
    unfold ngroupsDown
    rw [htk]
    rfl
  have hu : ngroupsUp (sg.flatMap fun s => s.2) (sg.flatMap fun s => entries s.1 s.2.length) = 0 := by
    unfold ngroupsUp
    rw [htk, side_counts sg hk, reverse_flatMap']
    simp only [List.length_nil, List.take_zero, List.filter_nil, List.map_nil, List.prod_nil]
    exact upLoop_stop _ fun s hs => (hk s (List.mem_reverse.1 hs)).2
  have hm : ngroupsMiddle (sg.flatMap fun s => s.2) (sg.flatMap fun s => entries s.1 s.2.length) = segs.length := by
    unfold ngroupsMiddle
    rw [hd, hu, groups_neg _ fun s hs => by have := (hk s hs).2; omega, List.length_map, hl]
    omega
  rw [e1, e2]
  unfold generate
  rw [if_neg, if_neg]
  · rw [hm]
    omega
  · unfold single
    rw [hd, hu, hm]
    rw [decide_eq_true_iff]
    omega

/-- C78 is violated: a reduce_scatter in several groups is not generated. The groups are counted as reductions and once
more as gathers, so the number of middle groups is negative, and an entry behind the end of the table is written. -/
theorem reduceScatter_violated (segs : List (Nat × List Nat)) (hlen : 2 ≤ segs.length)
    (h : ∀ s, s ∈ segs → 2 ≤ s.1 ∧ s.2 ≠ []) (hpos : ∀ s, s ∈ segs → ∀ p, p ∈ s.2 → 0 < p) (N t : Nat) :
    generate false N (segs.flatMap fun s => s.2.map fun x : Nat => -(x : Int))
      (segs.flatMap fun s => entries s.1 s.2.length) t = none := by
  obtain ⟨sg, hsg⟩ : ∃ sg, sg = segs.map fun s => (s.1, s.2.map fun x : Nat => -(x : Int)) := ⟨_, rfl⟩
  have e1 : (segs.flatMap fun s => s.2.map fun x : Nat => -(x : Int)) = sg.flatMap fun s => s.2 := by
    rw [hsg, List.flatMap_map]
  have e2 : (segs.flatMap fun s => entries s.1 s.2.length) = sg.flatMap fun s => entries s.1 s.2.length := by
    rw [hsg, List.flatMap_map]
    simp
  have hk : ∀ s, s ∈ sg → s.2 ≠ [] ∧ 2 ≤ s.1 := by
    intro s hs
    rw [hsg] at hs
    obtain ⟨x, hx, rfl⟩ := List.mem_map.1 hs
    have := h x hx
    exact ⟨by simpa using this.2, this.1⟩
  have hl : sg.length = segs.length := by rw [hsg, List.length_map]
  have htk : (sg.flatMap fun s => s.2).takeWhile (fun x => decide (x < 0)) = sg.flatMap fun s => s.2 := by
    rw [List.takeWhile_eq_self_iff]
    intro a ha
    rw [← e1] at ha
    obtain ⟨s, hs, ha⟩ := List.mem_flatMap.1 ha
    obtain ⟨x, hx, rfl⟩ := List.mem_map.1 ha
    have := hpos s hs x hx
    simp
    omega
  have hneg := groups_neg sg fun s hs => by have := (hk s hs).2; omega
  have hd : ngroupsDown (sg.flatMap fun s => s.2) (sg.flatMap fun s => entries s.1 s.2.length) = segs.length := by
    unfold ngroupsDown
    rw [htk, side_counts sg hk, hneg, List.length_map, hl]
  have hu : ngroupsUp (sg.flatMap fun s => s.2) (sg.flatMap fun s => entries s.1 s.2.length) = segs.length := by
    unfold ngroupsUp
    rw [htk, side_counts sg hk, hneg, reverse_flatMap', List.map_map]
    have e3 : (sg.map (Int.natAbs ∘ fun s => -(s.1 : Int))).prod = (sg.reverse.map Prod.fst).prod := by
      rw [List.map_reverse, List.prod_reverse]
      congr 1
      apply List.map_congr_left
      intro s _
      simp
    have h4 := upLoop_segs sg.reverse (fun s hs => by have := (hk s (List.mem_reverse.1 hs)).2; omega) []
    rw [List.append_nil, ← e3] at h4
    rw [h4, upLoop, List.length_reverse, hl, Nat.add_zero]
  have hm : ngroupsMiddle (sg.flatMap fun s => s.2) (sg.flatMap fun s => entries s.1 s.2.length) = -(segs.length : Int) := by
    unfold ngroupsMiddle
    rw [hd, hu, hneg, List.length_map, hl]
    push_cast
    omega
  rw [e1, e2]
  unfold generate
  rw [if_neg, if_neg]
  · rw [hm]
    omega
  · unfold single
    rw [hd, hu, hm]
    rw [decide_eq_true_iff]
    omega

example : generate true 12 [2, 1, 1] [-3, 4, -4] 5 = none :=
  allgather_violated [(3, [2]), (4, [1, 1])] (by decide) (by decide) (by decide) 12 5

example : generate false 12 [-2, -1, -1] [-3, 4, -4] 5 = none :=
  reduceScatter_violated [(3, [2]), (4, [1, 1])] (by decide) (by decide) (by decide) 12 5

end ExtMpi.Groups
