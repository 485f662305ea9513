import Verif.Lemmas.BlockingPorts
import Verif.Lemmas.Poison
import Verif.Props.PortChoice
import Mathlib.Data.Nat.Prime.Basic
/-! # Properties C95 to C97: the preparation of the blocking collectives -/
namespace ExtMpi.BlockingPorts
open Schedule PortChoice

/-! ### The choices -/

theorem fastest_chosen {α : Type} [LinearOrder α] (N : Nat) (ag : Bool) (cost : List Int → Option α) (p : List Int × List Int)
    (h : fastestPorts N ag cost = some p) :
    ∃ fs nums l, Tight N nums ∧ l ≤ nums.length ∧ (ag = true → l = 0) ∧ Shaped nums l fs ∧ p = (fs.map portOf, groupsOf N fs.length) := by
  unfold fastestPorts at h
  cases hc : candidates N ag with
  | none => rw [hc] at h; cases h
  | some ls =>
    rw [hc] at h; dsimp only at h
    cases hm : minCost cost none ls with
    | none => rw [hm] at h; cases h
    | some r =>
      obtain ⟨fs, t⟩ := r
      rw [hm] at h; dsimp only at h
      cases h
      rcases minCost_mem cost _ _ _ _ hm with h | h
      · cases h
      · obtain ⟨nums, l, n1, n2, n3, n4⟩ := candidates_shape _ _ _ hc fs h
        exact ⟨fs, nums, l, n1, n2, n3, n4, rfl⟩

theorem fastest_defined {α : Type} [LinearOrder α] (N : Nat) (hN : 2 ≤ N) (hmax : N ≤ 3564) (ag : Bool) (cost : List Int → Option α)
    (hcost : ∀ fs, cost fs ≠ none) : ∃ p, fastestPorts N ag cost = some p := by
  obtain ⟨ls, hls⟩ := candidates_some N hN hmax ag
  have hmem : ((List.replicate (slots N) 2).map fun n : Nat => (n : Int)) ∈ ls :=
    candidates_all N hN hmax ag ls hls _ (twos_tight N hN) _
      ((mem_emit ag _ _).2 ⟨0, by omega, fun _ => rfl, by unfold Shaped; simp⟩)
  unfold fastestPorts
  rw [hls]; dsimp only
  cases hm : minCost cost none ls with
  | none => exact absurd hm (minCost_some cost _ _ (.inr ⟨_, hmem, hcost _⟩))
  | some r => exact ⟨_, rfl⟩

theorem single_id (N n : Nat) (hN : 2 ≤ N) (ps gs : List Int) : setPortsSingleNode (ps, gs ++ groupsOf N n) = (ps, gs ++ groupsOf N n) := by
  unfold setPortsSingleNode
  rw [if_neg]
  intro h
  have := congrArg List.getLast? h
  unfold groupsOf at this
  simp at this
  omega

theorem single_id' (N n : Nat) (hN : 2 ≤ N) (ps : List Int) : setPortsSingleNode (ps, groupsOf N n) = (ps, groupsOf N n) := by
  have := single_id N n hN ps []
  simpa using this

theorem room_some {n : Nat} {p q : List Int × List Int} (h : room n p = some q) : p = q ∧ p.1.length < n := by
  unfold room at h
  split at h
  · cases h; exact ⟨rfl, by assumption⟩
  · cases h

theorem allreduce_chosen {α : Type} [LinearOrder α] (size cores : Nat) (cost : List Int → Option α) (hN : 2 ≤ size / cores)
    (ps gs : List Int) (h : allreducePorts size cores none false cost = some (ps, gs)) :
    ∃ fs nums l, Tight (size / cores) nums ∧ l ≤ nums.length ∧ Shaped nums l fs ∧ ps = fs.map portOf := by
  have hne : size ≠ cores := by
    rintro rfl
    have : size / size ≤ 1 := by
      rcases Nat.eq_zero_or_pos size with h0 | h0
      · rw [h0]; decide
      · rw [Nat.div_self h0]
    omega
  unfold allreducePorts at h
  simp only [if_neg hne, Bool.false_eq_true, if_false] at h
  obtain ⟨p, h1, h2⟩ := Option.bind_eq_some_iff.1 h
  obtain ⟨q, h3, h4⟩ := Option.map_eq_some_iff.1 h2
  obtain ⟨rfl, -⟩ := room_some h3
  obtain ⟨fs, nums, l, n1, n2, -, n4, rfl⟩ := fastest_chosen _ _ _ _ h1
  rw [single_id' _ _ hN] at h4
  cases h4
  exact ⟨fs, nums, l, n1, n2, n4, rfl⟩

theorem allgather_chosen {α : Type} [LinearOrder α] (size cores : Nat) (cost : List Int → Option α)
    (ps gs : List Int) (h : allgatherPorts size cores none false cost = some (ps, gs)) :
    ∃ fs nums, Tight (size / cores) nums ∧ Shaped nums 0 fs ∧ ps = fs.map portOf := by
  unfold allgatherPorts at h
  simp only [Bool.false_eq_true, if_false, and_true] at h
  by_cases hN : 1 < size / cores
  · rw [if_pos hN] at h
    obtain ⟨p, h1, h2⟩ := Option.bind_eq_some_iff.1 h
    obtain ⟨rfl, -⟩ := room_some h2
    obtain ⟨fs, nums, l, n1, n2, n3, n4, e⟩ := fastest_chosen _ _ _ _ h1
    cases e
    obtain rfl := n3 rfl
    exact ⟨fs, nums, n1, n4, rfl⟩
  · rw [if_neg hN] at h; cases h

theorem costSimple_sound {α : Type} [LinearOrder α] [Add α] (N pm nports : Nat) (hN : 0 < N) (limit : α) (cost : Nat → Nat → α)
    (p : List Int × List Int) (h : costSimple N pm nports limit cost = some p) :
    ∃ r rs, Steps N (max 1 (min pm nports)) (r :: rs) ∧ p = ((r :: rs).map (fun r : Nat => (r : Int) - 1), groupsOf N (r :: rs).length) ∧
      time cost 1 r rs < limit ∧ simpleRec N nports limit cost (N + 1) 1 pm = some (time cost 1 r rs, r :: rs) := by
  unfold costSimple at h
  obtain ⟨x, hx, rfl⟩ := Option.map_eq_some_iff.1 h
  obtain ⟨h1, r, rs, h2, h3, h4⟩ := simpleRec_sound N nports (cap pm nports) hN limit cost (N + 1) 1 pm x (by omega)
    (fun fac' _ => portBound_eq N nports fac' pm) hx
  refine ⟨r, rs, (steps_legal N _ r rs).2 h3, by rw [h2], by rw [← h4]; exact h1, ?_⟩
  rw [hx, ← h4, ← h2]

/-! ### C97 -/

theorem single_one (N : Nat) (P r : Nat) (rs : List Nat) (hN : 0 < N) (h : Steps N P (r :: rs)) :
    setPortsSingleNode (((r :: rs).reverse.map fun r : Nat => 1 - (r : Int)), groupsOf N (r :: rs).length) =
      ((r :: rs).reverse.map (fun r : Nat => 1 - (r : Int)), groupsOf N (r :: rs).length) := by
  by_cases h2 : 2 ≤ N
  · exact single_id' N _ h2 _
  · have hN1 : N = 1 := by omega
    subst hN1
    have hrs : rs = [] := by
      rcases h.before with e | e
      · simpa using e
      · have h0 := Nat.lt_one_iff.1 e
        have := prod_ge_pow (r :: rs).dropLast fun n hn => (h.range n (List.dropLast_subset _ hn)).1
        have h3 := Nat.two_pow_pos (r :: rs).dropLast.length
        omega
    subst hrs
    have h4 := h.last r rfl
    have h5 := (h.range r List.mem_cons_self).1
    simp only [List.dropLast_singleton, List.prod_nil, Nat.one_mul] at h4
    have : r = 2 := by omega
    subst this
    rfl

theorem reduceScatter_chosen {α : Type} [LinearOrder α] [Add α] (size cores nports : Nat) (hN : 0 < size / cores) (limit : α)
    (cost : Nat → Nat → α) (ps gs : List Int) (h : reduceScatterPorts size cores nports none false limit cost = some (ps, gs)) :
    ∃ r rs, Steps (size / cores) (max 1 (min (if 1 < cores then cores else 12) nports)) (r :: rs) ∧
      ps = (r :: rs).reverse.map (fun r : Nat => 1 - (r : Int)) ∧ gs = groupsOf (size / cores) (r :: rs).length ∧ time cost 1 r rs < limit ∧
      simpleRec (size / cores) nports limit cost (size / cores + 1) 1 (if 1 < cores then cores else 12) = some (time cost 1 r rs, r :: rs) := by
  unfold reduceScatterPorts at h
  simp only [Bool.false_eq_true, if_false] at h
  obtain ⟨p, h1, h2⟩ := Option.bind_eq_some_iff.1 h
  obtain ⟨p', h5, rfl⟩ := Option.map_eq_some_iff.1 h1
  obtain ⟨q, h3, h4⟩ := Option.map_eq_some_iff.1 h2
  obtain ⟨rfl, -⟩ := room_some h3
  obtain ⟨r, rs, k1, rfl, k3, k4⟩ := costSimple_sound _ _ _ hN _ _ _ h5
  refine ⟨r, rs, k1, ?_, ?_, k3, k4⟩
  all_goals
    dsimp only at h4
    rw [revertGroups_one] at h4
    have e : revertPorts ((r :: rs).map fun r : Nat => (r : Int) - 1) = (r :: rs).reverse.map fun r : Nat => 1 - (r : Int) := by
      unfold revertPorts
      rw [List.map_map, List.map_reverse]
      congr 1
      apply List.map_congr_left
      intro n _
      simp only [Function.comp]
      omega
    rw [e, single_one _ _ r rs hN k1] at h4
    cases h4
  · rfl
  · rfl

/-- C97: the port counts of the blocking reduce_scatter are those of factors that connect all nodes with the number of partners that the table of
times and the number of processes of a node allow, largest stride first, and all nodes form one group. -/
theorem reduceScatter_ports {α : Type} [LinearOrder α] [Add α] (size cores nports : Nat) (hN : 0 < size / cores) (limit : α)
    (cost : Nat → Nat → α) (ps gs : List Int) (h : reduceScatterPorts size cores nports none false limit cost = some (ps, gs)) :
    ∃ rs, Steps (size / cores) (max 1 (min (if 1 < cores then cores else 12) nports)) rs ∧
      ps = rs.reverse.map (fun r : Nat => 1 - (r : Int)) ∧
      gs = List.replicate (rs.length - 1) ((size / cores : Nat) : Int) ++ [-((size / cores : Nat) : Int)] := by
  obtain ⟨r, rs, h1, h2, h3, -⟩ := reduceScatter_chosen size cores nports hN limit cost ps gs h
  exact ⟨r :: rs, h1, h2, h3⟩

/-- C97: no other such factors take less time, if times are not negative and addition is monotone. -/
theorem reduceScatter_least {α : Type} [LinearOrder α] [Add α] (size cores nports : Nat) (hN : 0 < size / cores) (limit : α)
    (cost : Nat → Nat → α) (hmono : ∀ a b c : α, b ≤ c → a + b ≤ a + c) (hpos : ∀ fac r (x : α), x ≤ cost fac r + x)
    (ps gs : List Int) (h : reduceScatterPorts size cores nports none false limit cost = some (ps, gs)) :
    ∃ r rs, ps = (r :: rs).reverse.map (fun r : Nat => 1 - (r : Int)) ∧
      ∀ r' rs', Steps (size / cores) (max 1 (min (if 1 < cores then cores else 12) nports)) (r' :: rs') →
        time cost 1 r rs ≤ time cost 1 r' rs' := by
  obtain ⟨r, rs, h1, h2, h3, h4, h5⟩ := reduceScatter_chosen size cores nports hN limit cost ps gs h
  refine ⟨r, rs, h2, fun r' rs' hs => ?_⟩
  by_cases hl : time cost 1 r' rs' < limit
  · obtain ⟨x, x1, x2⟩ := simpleRec_least (size / cores) nports _ limit cost hmono hpos (size / cores + 1) 1 _ r' rs' (by omega)
      (fun fac' _ => portBound_eq _ nports fac' (if 1 < cores then cores else 12)) (by omega) (.inr (by omega))
      ((steps_legal _ _ r' rs').1 hs) hl
    rw [h5] at x1
    cases x1
    exact x2
  · exact (lt_of_lt_of_le h4 (not_lt.1 hl)).le

/-- A table of times: partners share the bandwidth, every step has a latency. -/
def steps3 (_ r : Nat) : Nat := r * r + 7

example : reduceScatterPorts 7 1 12 none false 1000 steps3 = some ([-2, -2], [7, -7]) := by decide +kernel

example : ∃ rs, Steps 7 12 rs ∧ [-2, -2] = rs.reverse.map (fun r : Nat => 1 - (r : Int)) ∧ [7, -7] = List.replicate (rs.length - 1) (7 : Int) ++ [-7] :=
  reduceScatter_ports 7 1 12 (by decide) 1000 steps3 [-2, -2] [7, -7] (by decide +kernel)

/-! ### C95 -/

theorem steps_length {N P : Nat} {rs : List Nat} (hN : 0 < N) (h : Steps N P rs) : rs.length ≤ N := by
  rcases h.before with e | e
  · omega
  · have h1 := prod_ge_pow rs.dropLast fun n hn => (h.range n (List.dropLast_subset _ hn)).1
    rw [List.length_dropLast] at h1
    have h2 : rs.length - 1 < 2 ^ (rs.length - 1) := Nat.lt_two_pow_self
    omega

theorem slots_le_self (N : Nat) (hN : 2 ≤ N) : slots N ≤ N := slots_le N hN N Nat.lt_two_pow_self.le

theorem twos_steps (N P : Nat) (hN : 2 ≤ N) (hP : 1 ≤ P) : Steps N P (List.replicate (slots N) 2) := by
  have h := twos_tight N hN
  refine ⟨h.nonempty, fun r hr => ?_, h.covers, .inr h.before, fun l hl => ?_⟩
  · rw [(List.mem_replicate.1 hr).2]; omega
  · have := (List.mem_replicate.1 (List.mem_of_getLast? hl)).2
    subst this
    simp; omega

/-- C95 for two to 3564 nodes: preparing the blocking collectives of a communicator succeeds if the times are finite. -/
theorem init_defined_partial {α : Type} [LinearOrder α] [Add α] (N cores nports : Nat) (hN : 2 ≤ N) (hmax : N ≤ 3564) (hc : 0 < cores) (limit : α)
    (cost1 cost3 : List Int → Option α) (cost2 : Nat → Nat → α) (h1 : ∀ fs, cost1 fs ≠ none) (h3 : ∀ fs, cost3 fs ≠ none)
    (hmono : ∀ a b c : α, b ≤ c → a + b ≤ a + c) (hpos : ∀ fac r (x : α), x ≤ cost2 fac r + x)
    (hlim : ∀ r rs, Steps N (max 1 (min (if 1 < cores then cores else 12) nports)) (r :: rs) → time cost2 1 r rs < limit) :
    ∃ a b c, initBlockingComm (N * cores) cores nports none false limit cost1 cost3 cost2 = some (a, b, c) := by
  have hdiv : N * cores / cores = N := Nat.mul_div_cancel _ hc
  have hsize : N ≤ N * cores := Nat.le_mul_of_pos_right _ hc
  have hne : N * cores ≠ cores := by
    intro h
    rw [h, Nat.div_self hc] at hdiv
    omega
  have ha : ∃ a, allreducePorts (N * cores) cores none false cost1 = some a := by
    obtain ⟨p, hp⟩ := fastest_defined N hN hmax false cost1 h1
    obtain ⟨fs, nums, l, n1, n2, -, n4, rfl⟩ := fastest_chosen _ _ _ _ hp
    unfold allreducePorts
    simp only [if_neg hne, Bool.false_eq_true, if_false, hdiv, hp]
    have hl : (fs.map portOf).length < 2 * (N * cores) + 1 := by
      have hlen : fs.length = l + nums.length := by rw [n4]; simp [n2]
      have := (tight_length hN n1).2
      have := slots_le_self N hN
      rw [List.length_map]; omega
    exact ⟨_, by rw [Option.bind_some, room, if_pos hl, Option.map_some]⟩
  have hb : ∃ b, reduceScatterPorts (N * cores) cores nports none false limit cost2 = some b := by
    have hst := twos_steps N (max 1 (min (if 1 < cores then cores else 12) nports)) hN (by omega)
    obtain ⟨r, rs, hrs⟩ : ∃ r rs, List.replicate (slots N) 2 = r :: rs := by
      cases e : List.replicate (slots N) 2 with
      | nil => exact absurd e hst.nonempty
      | cons r rs => exact ⟨r, rs, rfl⟩
    rw [hrs] at hst
    obtain ⟨x, x1, x2⟩ := simpleRec_least N nports _ limit cost2 hmono hpos (N + 1) 1 _ r rs (by omega)
      (fun fac' _ => portBound_eq N nports fac' (if 1 < cores then cores else 12)) (by omega) (.inr (by omega)) ((steps_legal _ _ r rs).1 hst)
      (hlim r rs hst)
    have hcs : costSimple N (if 1 < cores then cores else 12) nports limit cost2 =
        some (x.2.map (fun r : Nat => (r : Int) - 1), groupsOf N x.2.length) := by unfold costSimple; rw [x1]; rfl
    obtain ⟨r', rs', k1, k2, -, k4⟩ := costSimple_sound N _ nports (by omega) limit cost2 _ hcs
    rw [x1] at k4
    have hx : x.2 = r' :: rs' := by rw [Option.some.inj k4]
    unfold reduceScatterPorts
    simp only [Bool.false_eq_true, if_false, hdiv]
    rw [hcs, Option.map_some, Option.bind_some]
    have hl : (revertPorts (x.2.map fun r : Nat => (r : Int) - 1)).length < N * cores + 1 := by
      unfold revertPorts
      have := steps_length (by omega) k1
      rw [List.length_reverse, List.length_map, List.length_map, hx]
      omega
    exact ⟨_, by rw [room, if_pos hl, Option.map_some]⟩
  have hg : ∃ c, allgatherPorts (N * cores) cores none false cost3 = some c := by
    obtain ⟨p, hp⟩ := fastest_defined N hN hmax true cost3 h3
    obtain ⟨fs, nums, l, n1, n2, n3, n4, rfl⟩ := fastest_chosen _ _ _ _ hp
    obtain rfl := n3 rfl
    unfold allgatherPorts
    simp only [hdiv, and_true]
    rw [if_pos (by omega), hp, Option.bind_some]
    have hl : (fs.map portOf).length < N * cores + 1 := by
      have hlen : fs.length = nums.length := by rw [n4]; simp
      have := (tight_length hN n1).2
      have := slots_le_self N hN
      rw [List.length_map]; omega
    exact ⟨_, by rw [room, if_pos hl]⟩
  obtain ⟨a, ha⟩ := ha
  obtain ⟨b, hb⟩ := hb
  obtain ⟨c, hg⟩ := hg
  refine ⟨a, b, c, ?_⟩
  unfold initBlockingComm
  rw [ha, hb, hg]

/-- C95 is violated on a single node: without settings of the user preparing the allgather follows a null pointer, whatever the tables of times. -/
theorem init_violated {α : Type} [LinearOrder α] [Add α] (size cores nports : Nat) (h : size / cores ≤ 1) (limit : α)
    (cost1 cost3 : List Int → Option α) (cost2 : Nat → Nat → α) :
    initBlockingComm size cores nports none false limit cost1 cost3 cost2 = none := by
  have hg : allgatherPorts size cores none false cost3 = none := by
    unfold allgatherPorts
    simp only [Bool.false_eq_true, if_false, and_true]
    rw [if_neg (by omega)]
    rfl
  unfold initBlockingComm
  rw [hg]
  split <;> simp_all

/-- C95 is violated from 3565 nodes on, as the table of candidates has too many lines. -/
theorem init_table_violated {α : Type} [LinearOrder α] [Add α] (size cores nports : Nat) (h : 3565 ≤ size / cores) (limit : α)
    (cost1 cost3 : List Int → Option α) (cost2 : Nat → Nat → α) :
    initBlockingComm size cores nports none false limit cost1 cost3 cost2 = none := by
  have hlm : linesMax (size / cores) = none := by
    have h1 : 3565 * 3565 ≤ (size / cores) * (size / cores) := Nat.mul_le_mul h h
    unfold linesMax factorMax
    rw [if_neg (by omega)]
  have hg : allgatherPorts size cores none false cost3 = none := by
    unfold allgatherPorts fastestPorts candidates
    rw [hlm]
    simp only [and_true]
    rw [if_pos (by omega)]
    rfl
  unfold initBlockingComm
  rw [hg]
  split <;> simp_all

/-- C95 with the option for minimal computation: preparing succeeds on any number of nodes. -/
theorem init_minimum {α : Type} [LinearOrder α] [Add α] (N cores nports : Nat) (hN : 0 < N) (hc : 0 < cores) (limit : α)
    (cost1 cost3 : List Int → Option α) (cost2 : Nat → Nat → α) :
    ∃ a b c, initBlockingComm (N * cores) cores nports none true limit cost1 cost3 cost2 = some (a, b, c) := by
  have hdiv : N * cores / cores = N := Nat.mul_div_cancel _ hc
  have hsize : N ≤ N * cores := Nat.le_mul_of_pos_right _ hc
  have hh : halvings N ≤ N := by
    unfold halvings
    split
    · omega
    · exact slots_le_self N (by omega)
  have ha : ∃ a, allreducePorts (N * cores) cores none true cost1 = some a := by
    unfold allreducePorts
    simp only [if_true, hdiv]
    split
    · refine ⟨setPortsSingleNode (setPortsSingleNode ([], [])), ?_⟩
      rw [Option.bind_some, room, if_pos, Option.map_some]
      have : (setPortsSingleNode ([], [])).1.length = 0 := by decide
      omega
    · rw [Option.bind_some, room, if_pos, Option.map_some]
      · exact ⟨_, rfl⟩
      · simp only [List.length_append, List.length_replicate]; omega
  have hb : ∃ b, reduceScatterPorts (N * cores) cores nports none true limit cost2 = some b := by
    unfold reduceScatterPorts
    simp only [if_true, hdiv]
    rw [Option.bind_some, room, if_pos, Option.map_some]
    · exact ⟨_, rfl⟩
    · simp only [List.length_replicate]; omega
  have hg : ∃ c, allgatherPorts (N * cores) cores none true cost3 = some c := by
    unfold allgatherPorts
    simp only [Bool.true_eq_false, and_false, if_false, if_true, hdiv]
    rw [Option.bind_some, room, if_pos]
    · exact ⟨_, rfl⟩
    · simp only [List.length_replicate]; omega
  obtain ⟨a, ha⟩ := ha
  obtain ⟨b, hb⟩ := hb
  obtain ⟨c, hg⟩ := hg
  refine ⟨a, b, c, ?_⟩
  unfold initBlockingComm
  rw [ha, hb, hg]

/-- A table of times that prefers many steps. -/
def longest (fs : List Int) : Option Nat := some (100 - fs.length)

example : initBlockingComm 7 1 12 none false 1000 longest longest steps3 =
    some (([-1, -1, -1, 1, 1, 1], [7, 7, 7, 7, 7, -7]), ([-2, -2], [7, -7]), ([1, 1, 1], [7, 7, -7])) := by decide +kernel

/-! ### C96 -/

/-- The blocking collectives always use the recursive generator: `ext_mpi_not_recursive` is never 0. -/
theorem generateB_recursive (allgatherv allreduce : Bool) (N : Nat) (ps gs : List Int) (notRec : Int) (hnr : notRec = -1 ∨ notRec = 1) (t : Nat) :
    generateB allgatherv allreduce N ps gs notRec t = Recursive.generate allgatherv ps t := by
  have h : (notRec == 0) = false := by rcases hnr with rfl | rfl <;> rfl
  unfold generateB arecursive PortChoice.generate
  rw [h, Bool.and_false]
  rfl

theorem tight_split {N : Nat} {nums : List Nat} (h : Tight N nums) (hne : nums.prod ≠ N) :
    ∃ qs p, stepPorts nums = qs ++ [p] ∧ Recursive.factor qs < N ∧ N ≤ Recursive.factor (qs ++ [p]) ∧ ¬ Recursive.factor qs ∣ N := by
  obtain ⟨ns, n, hn⟩ : ∃ ns n, nums = ns ++ [n] :=
    ⟨nums.dropLast, nums.getLast h.nonempty, (List.dropLast_append_getLast h.nonempty).symm⟩
  have hl := h.last n (by rw [hn]; simp)
  have hr := h.range n (by rw [hn]; simp)
  have hb := stepPorts_back h
  have hbef := h.before
  have hcov := h.covers
  rw [hn] at hl hb hbef hcov hne
  rw [stepPorts, List.map_append] at hb
  rw [List.map_append] at hb
  have hb' := (List.append_inj' hb (by simp)).1
  simp only [List.dropLast_concat] at hl hbef
  rw [List.prod_append, List.prod_singleton] at hcov hne
  refine ⟨ns.map (· - 1), n - 1, ?_, ?_, ?_, ?_⟩
  · rw [hn, stepPorts]; simp
  · unfold Recursive.factor; rw [hb']; exact hbef
  · unfold Recursive.factor
    rw [List.map_append, hb', List.prod_append]
    simp only [List.map_cons, List.map_nil, List.prod_singleton]
    have : n - 1 + 1 = n := by omega
    rw [this]; exact hcov
  · unfold Recursive.factor; rw [hb']
    rintro ⟨c, hc⟩
    rw [hc] at hl hcov hne
    have h1 : n - 1 < c := Nat.lt_of_mul_lt_mul_left hl
    have h2 : c ≤ n := Nat.le_of_mul_le_mul_left hcov (Nat.pos_of_ne_zero fun h0 => by rw [h0] at hl; simp at hl)
    have : c = n := by omega
    exact hne (by rw [this])

/-- The number of nodes the steps of a list of ports are made for. -/
theorem tight_prod {N : Nat} {nums : List Nat} (h : Tight N nums) : Recursive.factor (stepPorts nums) = nums.prod := by
  unfold Recursive.factor; rw [stepPorts_back h]

theorem ports_prod {N : Nat} {nums : List Nat} (ht : Tight N nums) (l : Nat) (fs : List Int) (hs : Shaped nums l fs) :
    (((fs.map portOf).filter (0 < ·)).map fun p => p.natAbs + 1).prod = nums.prod := by
  have hpos := stepPorts_pos ht
  rw [ports_eq ht l fs hs, List.filter_append]
  have h1 : (((stepPorts nums).reverse.take l).map fun p : Nat => -(p : Int)).filter (0 < ·) = [] := by
    rw [List.filter_eq_nil_iff]
    intro x hx
    obtain ⟨p, -, rfl⟩ := List.mem_map.1 hx
    simp
  have h2 : ((stepPorts nums).map fun p : Nat => (p : Int)).filter (0 < ·) = (stepPorts nums).map fun p : Nat => (p : Int) := by
    rw [List.filter_eq_self]
    intro x hx
    obtain ⟨p, hp, rfl⟩ := List.mem_map.1 hx
    simp [hpos p hp]
  rw [h1, h2, List.nil_append, List.map_map]
  conv_rhs => rw [← stepPorts_back ht]
  rfl

theorem tight_ne {N : Nat} {nums : List Nat} (ht : Tight N nums) : stepPorts nums ≠ [] := by
  unfold stepPorts; intro h; exact ht.nonempty (List.map_eq_nil_iff.1 h)

/-- What the allreduce generator makes of a candidate. -/
theorem allreduce_generated {N : Nat} {nums : List Nat} (ht : Tight N nums) (l : Nat) (fs : List Int) (hs : Shaped nums l fs) (t : Nat) :
    Recursive.generate false (fs.map portOf) t = some (Recursive.allreduce ((stepPorts nums).reverse.take l) (stepPorts nums) t) := by
  have hpos := stepPorts_pos ht
  have := Recursive.generate_allreduce ((stepPorts nums).reverse.take l) [] (stepPorts nums) (by simpa using tight_ne ht)
    (fun p hp => hpos p (List.mem_reverse.1 (List.mem_of_mem_take hp))) (by simp) hpos t
  rw [List.nil_append] at this
  rw [ports_eq ht l fs hs]
  exact this

theorem tight_allreduce {V : Type} [AddCommMonoid V] {N : Nat} {nums : List Nat} (ht : Tight N nums) (l : Nat) (hp : nums.prod = N) :
    Computes (V := V) N copyOut (Recursive.allreduce ((stepPorts nums).reverse.take l) (stepPorts nums)) (AllreducePost N) := by
  have hpos := stepPorts_pos ht
  have hlen : (stepPorts nums).length = nums.length := by unfold stepPorts; simp
  have hsplit : (stepPorts nums).take (nums.length - l) ++ (stepPorts nums).drop (nums.length - l) = stepPorts nums :=
    List.take_append_drop _ _
  have hrev : (stepPorts nums).reverse.take l = ((stepPorts nums).drop (nums.length - l)).reverse := by
    rw [List.take_reverse, hlen]
  have hnpos : ∀ p, p ∈ (stepPorts nums).reverse.take l → 0 < p := fun p hp =>
    hpos p (List.mem_reverse.1 (List.mem_of_mem_take hp))
  have hgen := Recursive.generate_allreduce ((stepPorts nums).reverse.take l) ((stepPorts nums).take (nums.length - l))
    ((stepPorts nums).drop (nums.length - l)) (by rw [hsplit]; exact tight_ne ht) hnpos (fun p hp => hpos p (List.mem_of_mem_take hp))
    (fun p hp => hpos p (List.mem_of_mem_drop hp))
  obtain ⟨sched, s1, s2⟩ := Recursive.allreduce_correct (V := V) ((stepPorts nums).reverse.take l)
    ((stepPorts nums).take (nums.length - l)) ((stepPorts nums).drop (nums.length - l))
    (by rw [hsplit]; exact tight_ne ht) hnpos (fun p hp => hpos p (List.mem_of_mem_take hp))
    (fun p hp => hpos p (List.mem_of_mem_drop hp)) (by rw [hrev, List.map_reverse, List.prod_reverse])
  have hsched : sched = Recursive.allreduce ((stepPorts nums).reverse.take l) (stepPorts nums) := by
    funext t
    have h1 := s1 t
    rw [hgen t, hsplit] at h1
    exact (Option.some.inj h1).symm
  rw [hsched, hsplit, stepPorts_back ht, hp] at s2
  exact s2

theorem tight_allreduce_wrong {N : Nat} {nums : List Nat} (ht : Tight N nums) (l : Nat) (hp : nums.prod ≠ N) :
    ¬ Computes (V := Nat) N copyOut (Recursive.allreduce ((stepPorts nums).reverse.take l) (stepPorts nums)) (AllreducePost N) := by
  have hpos := stepPorts_pos ht
  obtain ⟨qs, p, e, h1, h2, h3⟩ := tight_split ht hp
  rw [e] at hpos ⊢
  cases l with
  | zero =>
    rw [List.take_zero]
    exact Recursive.allreduce_uncovered' qs p N hpos h1 h3
  | succ l =>
    have hrev : (qs ++ [p]).reverse.take (l + 1) = p :: qs.reverse.take l := by simp
    have hqs : qs = qs.take (qs.length - l) ++ (qs.reverse.take l).reverse := by
      rw [List.take_reverse, List.reverse_reverse, List.take_append_drop]
    rw [hrev]
    have := Recursive.allreduce_uncovered (qs.take (qs.length - l)) (qs.reverse.take l) p N
      (fun x hx => hpos x (List.mem_append_left _ (List.mem_of_mem_take hx))) (by rw [← hqs]; exact h1) (by rw [← hqs]; exact h2)
      (by rw [← hqs]; exact h3)
    rw [← hqs] at this
    exact this

/-- C96 for the allreduce: with the port counts chosen at initialisation every node gets all sums if the product of the factors is the number of
nodes. -/
theorem allreduce_partial {V α : Type} [AddCommMonoid V] [LinearOrder α] (size cores : Nat) (hN : 2 ≤ size / cores) (cost : List Int → Option α)
    (notRec : Int) (hnr : notRec = -1 ∨ notRec = 1) (ps gs : List Int) (h : allreducePorts size cores none false cost = some (ps, gs))
    (hp : ((ps.filter (0 < ·)).map fun p => p.natAbs + 1).prod = size / cores) :
    ∃ sched : Nat → List Block, (∀ t, generateB false true (size / cores) ps gs notRec t = some (sched t)) ∧
      Computes (V := V) (size / cores) copyOut sched (AllreducePost (size / cores)) := by
  obtain ⟨fs, nums, l, n1, n2, n3, rfl⟩ := allreduce_chosen size cores cost hN ps gs h
  rw [ports_prod n1 l fs n3] at hp
  exact ⟨_, fun t => by rw [generateB_recursive _ _ _ _ _ _ hnr]; exact allreduce_generated n1 l fs n3 t, tight_allreduce n1 l hp⟩

/-- C96 is violated for the allreduce whenever the product of the factors is not the number of nodes. -/
theorem allreduce_violated {α : Type} [LinearOrder α] (size cores : Nat) (hN : 2 ≤ size / cores) (cost : List Int → Option α)
    (notRec : Int) (hnr : notRec = -1 ∨ notRec = 1) (ps gs : List Int) (h : allreducePorts size cores none false cost = some (ps, gs))
    (hp : ((ps.filter (0 < ·)).map fun p => p.natAbs + 1).prod ≠ size / cores) (sched : Nat → List Block)
    (hs : ∀ t, generateB false true (size / cores) ps gs notRec t = some (sched t)) :
    ¬ Computes (V := Nat) (size / cores) copyOut sched (AllreducePost (size / cores)) := by
  obtain ⟨fs, nums, l, n1, n2, n3, rfl⟩ := allreduce_chosen size cores cost hN ps gs h
  rw [ports_prod n1 l fs n3] at hp
  have e : sched = Recursive.allreduce ((stepPorts nums).reverse.take l) (stepPorts nums) := by
    funext t
    have h1 := hs t
    rw [generateB_recursive _ _ _ _ _ _ hnr, allreduce_generated n1 l fs n3 t] at h1
    exact (Option.some.inj h1).symm
  rw [e]
  exact tight_allreduce_wrong n1 l hp

theorem allgather_generated {N : Nat} {nums : List Nat} (ht : Tight N nums) (fs : List Int) (hs : Shaped nums 0 fs) (t : Nat) :
    Recursive.generate true (fs.map portOf) t = some (Recursive.allgather (stepPorts nums) t) := by
  have := ports_eq ht 0 fs hs
  simp only [List.take_zero, List.map_nil, List.nil_append] at this
  rw [this]
  exact Recursive.generate_allgather _ (stepPorts_pos ht) t

/-- C96 for the allgather: every node gets all blocks if the product of the factors is the number of nodes. -/
theorem allgather_partial {V α : Type} [Add V] [LinearOrder α] (size cores : Nat) (cost : List Int → Option α)
    (notRec : Int) (hnr : notRec = -1 ∨ notRec = 1) (ps gs : List Int) (h : allgatherPorts size cores none false cost = some (ps, gs))
    (hp : ((ps.filter (0 < ·)).map fun p => p.natAbs + 1).prod = size / cores) :
    ∃ sched : Nat → List Block, (∀ t, generateB true false (size / cores) ps gs notRec t = some (sched t)) ∧
      Computes (V := V) (size / cores) copyOut sched (AllgatherPost (size / cores)) := by
  obtain ⟨fs, nums, n1, n3, rfl⟩ := allgather_chosen size cores cost ps gs h
  rw [ports_prod n1 0 fs n3] at hp
  obtain ⟨sched, s1, s2⟩ := Recursive.allgather_correct (V := V) (stepPorts nums) (stepPorts_pos n1)
  have e : sched = Recursive.allgather (stepPorts nums) := by
    funext t
    have h1 := s1 t
    rw [Recursive.generate_allgather _ (stepPorts_pos n1)] at h1
    exact (Option.some.inj h1).symm
  rw [stepPorts_back n1, hp, e] at s2
  exact ⟨_, fun t => by rw [generateB_recursive _ _ _ _ _ _ hnr]; exact allgather_generated n1 fs n3 t, s2⟩

/-- C96 is violated for the allgather whenever the product of the factors is not the number of nodes. -/
theorem allgather_violated {α : Type} [LinearOrder α] (size cores : Nat) (cost : List Int → Option α)
    (notRec : Int) (hnr : notRec = -1 ∨ notRec = 1) (ps gs : List Int) (h : allgatherPorts size cores none false cost = some (ps, gs))
    (hp : ((ps.filter (0 < ·)).map fun p => p.natAbs + 1).prod ≠ size / cores) (sched : Nat → List Block)
    (hs : ∀ t, generateB true false (size / cores) ps gs notRec t = some (sched t)) :
    ¬ Computes (V := Nat) (size / cores) copyOut sched (AllgatherPost (size / cores)) := by
  obtain ⟨fs, nums, n1, n3, rfl⟩ := allgather_chosen size cores cost ps gs h
  rw [ports_prod n1 0 fs n3] at hp
  have e : sched = Recursive.allgather (stepPorts nums) := by
    funext t
    have h1 := hs t
    rw [generateB_recursive _ _ _ _ _ _ hnr, allgather_generated n1 fs n3 t] at h1
    exact (Option.some.inj h1).symm
  obtain ⟨qs, p, e2, h1, h2, h3⟩ := tight_split n1 hp
  rw [e, e2]
  exact Recursive.allgather_uncovered qs p _ h1 h3

theorem reduceScatter_generated {N P r : Nat} {rs : List Nat} (h : Steps N P (r :: rs)) (t : Nat) :
    Recursive.generate false ((r :: rs).reverse.map fun r : Nat => 1 - (r : Int)) t =
      some (Recursive.reduceScatter ((r :: rs).reverse.map (· - 1)) t) := by
  have hr : ∀ x, x ∈ (r :: rs).reverse → 2 ≤ x := fun x hx => (h.range x (List.mem_reverse.1 hx)).1
  have e : ((r :: rs).reverse.map fun r : Nat => 1 - (r : Int)) = ((r :: rs).reverse.map (· - 1)).map fun p : Nat => -(p : Int) := by
    rw [List.map_map]
    apply List.map_congr_left
    intro x hx
    have := hr x hx
    simp only [Function.comp]
    omega
  rw [e]
  refine Recursive.generate_reduceScatter _ (by simp) (fun p hp => ?_) t
  obtain ⟨x, hx, rfl⟩ := List.mem_map.1 hp
  have := hr x hx
  omega

theorem reverse_prod (rs : List Nat) (h : ∀ x, x ∈ rs → 2 ≤ x) : Recursive.factor (rs.reverse.map (· - 1)) = rs.prod := by
  unfold Recursive.factor
  rw [List.map_map]
  have : rs.reverse.map ((fun x => x + 1) ∘ fun x => x - 1) = rs.reverse := by
    conv_rhs => rw [← List.map_id rs.reverse]
    apply List.map_congr_left
    intro x hx
    have := h x (List.mem_reverse.1 hx)
    simp only [Function.comp, id]
    omega
  rw [this, List.prod_reverse]

theorem shift_prod (rs : List Nat) (h : ∀ x, x ∈ rs → 2 ≤ x) :
    ((rs.reverse.map fun r : Nat => 1 - (r : Int)).map fun p => p.natAbs + 1).prod = rs.prod := by
  rw [List.map_map]
  have : rs.reverse.map ((fun p : Int => p.natAbs + 1) ∘ fun r : Nat => 1 - (r : Int)) = rs.reverse := by
    conv_rhs => rw [← List.map_id rs.reverse]
    apply List.map_congr_left
    intro x hx
    have := h x (List.mem_reverse.1 hx)
    simp only [Function.comp, id]
    omega
  rw [this, List.prod_reverse]

/-- C96 for the reduce_scatter: every node gets its sum if the product of the factors is the number of nodes. -/
theorem reduceScatter_partial {V α : Type} [AddCommMonoid V] [LinearOrder α] [Add α] (size cores nports : Nat) (hN : 2 ≤ size / cores) (limit : α)
    (cost : Nat → Nat → α) (notRec : Int) (hnr : notRec = -1 ∨ notRec = 1) (ps gs : List Int)
    (h : reduceScatterPorts size cores nports none false limit cost = some (ps, gs))
    (hp : (ps.map fun p => p.natAbs + 1).prod = size / cores) :
    ∃ sched : Nat → List Block, (∀ t, generateB false false (size / cores) ps gs notRec t = some (sched t)) ∧
      Computes (V := V) (size / cores) copyOutFirst sched (ReduceScatterPost (size / cores)) := by
  obtain ⟨r, rs, h1, rfl, -, -, -⟩ := reduceScatter_chosen size cores nports (by omega) limit cost ps gs h
  have hr : ∀ x, x ∈ r :: rs → 2 ≤ x := fun x hx => (h1.range x hx).1
  rw [shift_prod _ hr] at hp
  have hpos : ∀ p, p ∈ (r :: rs).reverse.map (· - 1) → 0 < p := by
    intro p hp
    obtain ⟨x, hx, rfl⟩ := List.mem_map.1 hp
    have := hr x (List.mem_reverse.1 hx)
    omega
  obtain ⟨sched, s1, s2⟩ := Recursive.reduceScatter_correct (V := V) ((r :: rs).reverse.map (· - 1)) (by simp) hpos
  have e : sched = Recursive.reduceScatter ((r :: rs).reverse.map (· - 1)) := by
    funext t
    have h1 := s1 t
    rw [Recursive.generate_reduceScatter _ (by simp) hpos] at h1
    exact (Option.some.inj h1).symm
  have e2 : (((r :: rs).reverse.map (· - 1)).map fun p => p + 1).prod = size / cores := by
    have := reverse_prod _ hr
    rw [hp] at this
    exact this
  rw [e2, e] at s2
  exact ⟨_, fun t => by rw [generateB_recursive _ _ _ _ _ _ hnr]; exact reduceScatter_generated h1 t, s2⟩

/-- C96 is violated for the reduce_scatter whenever the product of the factors is not the number of nodes: memory that was never written is
added to the result of a node. The values have an element that remains in every sum, like a NaN. -/
theorem reduceScatter_violated {α : Type} [LinearOrder α] [Add α] (size cores nports : Nat) (hN : 2 ≤ size / cores) (limit : α)
    (cost : Nat → Nat → α) (notRec : Int) (hnr : notRec = -1 ∨ notRec = 1) (ps gs : List Int)
    (h : reduceScatterPorts size cores nports none false limit cost = some (ps, gs))
    (hp : (ps.map fun p => p.natAbs + 1).prod ≠ size / cores) (sched : Nat → List Block)
    (hs : ∀ t, generateB false false (size / cores) ps gs notRec t = some (sched t)) :
    ¬ Computes (V := WithTop Nat) (size / cores) copyOutFirst sched (ReduceScatterPost (size / cores)) := by
  obtain ⟨r, rs, h1, rfl, -, -, -⟩ := reduceScatter_chosen size cores nports (by omega) limit cost ps gs h
  have hr : ∀ x, x ∈ r :: rs → 2 ≤ x := fun x hx => (h1.range x hx).1
  have e : sched = Recursive.reduceScatter ((r :: rs).reverse.map (· - 1)) := by
    funext t
    have h2 := hs t
    rw [generateB_recursive _ _ _ _ _ _ hnr, reduceScatter_generated h1 t] at h2
    exact (Option.some.inj h2).symm
  rw [shift_prod _ hr] at hp
  have hpos : ∀ p, p ∈ (r :: rs).reverse.map (· - 1) → 0 < p := by
    intro p hp
    obtain ⟨x, hx, rfl⟩ := List.mem_map.1 hp
    have := hr x (List.mem_reverse.1 hx)
    omega
  have hf2 := reverse_prod _ hr
  obtain ⟨ns, n, hn⟩ : ∃ ns n, r :: rs = ns ++ [n] :=
    ⟨(r :: rs).dropLast, (r :: rs).getLast (by simp), (List.dropLast_append_getLast (by simp)).symm⟩
  have hbef := h1.before
  have hcov := h1.covers
  rw [e]
  rw [hn] at hp hr hbef hcov hpos hf2 ⊢
  have hns : ∀ x, x ∈ ns → 2 ≤ x := fun x hx => hr x (List.mem_append_left _ hx)
  have e2 : (ns ++ [n]).reverse.map (· - 1) = (n - 1) :: ns.reverse.map (· - 1) := by simp
  have hf := reverse_prod ns hns
  rw [e2] at hf2 hpos ⊢
  refine Recursive.reduceScatter_short _ _ _ hpos ?_ (by rw [hf2]; omega)
  rw [hf]
  simp only [List.dropLast_concat] at hbef
  rcases hbef with hb | hb
  · have : ns = [] := by
      simp only [List.length_append, List.length_singleton] at hb
      exact List.length_eq_zero_iff.1 (by omega)
    rw [this, List.prod_nil]
    omega
  · omega

/-- C96 is violated for the reduce_scatter even without regard to such memory if the product of all factors but the one used first does not divide the number of nodes. -/
theorem reduceScatter_lost_violated {α : Type} [LinearOrder α] [Add α] (size cores nports : Nat) (hN : 2 ≤ size / cores) (limit : α)
    (cost : Nat → Nat → α) (notRec : Int) (hnr : notRec = -1 ∨ notRec = 1) (ps gs : List Int)
    (h : reduceScatterPorts size cores nports none false limit cost = some (ps, gs))
    (hp : ¬ (ps.tail.map fun p => p.natAbs + 1).prod ∣ size / cores) (sched : Nat → List Block)
    (hs : ∀ t, generateB false false (size / cores) ps gs notRec t = some (sched t)) :
    ¬ Computes (V := Nat) (size / cores) copyOutFirst sched (ReduceScatterPost (size / cores)) := by
  obtain ⟨r, rs, h1, rfl, -, -, -⟩ := reduceScatter_chosen size cores nports (by omega) limit cost ps gs h
  have hr : ∀ x, x ∈ r :: rs → 2 ≤ x := fun x hx => (h1.range x hx).1
  have e : sched = Recursive.reduceScatter ((r :: rs).reverse.map (· - 1)) := by
    funext t
    have h2 := hs t
    rw [generateB_recursive _ _ _ _ _ _ hnr, reduceScatter_generated h1 t] at h2
    exact (Option.some.inj h2).symm
  obtain ⟨ns, n, hn⟩ : ∃ ns n, r :: rs = ns ++ [n] :=
    ⟨(r :: rs).dropLast, (r :: rs).getLast (by simp), (List.dropLast_append_getLast (by simp)).symm⟩
  have hbef := h1.before
  have hcov := h1.covers
  rw [e]
  rw [hn] at hp hr hbef hcov ⊢
  have hns : ∀ x, x ∈ ns → 2 ≤ x := fun x hx => hr x (List.mem_append_left _ hx)
  have e1 : ((ns ++ [n]).reverse.map fun r : Nat => 1 - (r : Int)).tail = ns.reverse.map fun r : Nat => 1 - (r : Int) := by simp
  have e2 : (ns ++ [n]).reverse.map (· - 1) = (n - 1) :: ns.reverse.map (· - 1) := by simp
  rw [e1, shift_prod ns hns] at hp
  have hf := reverse_prod ns hns
  have hf2 := reverse_prod _ hr
  rw [e2] at hf2 ⊢
  refine Recursive.reduceScatter_uncovered _ _ _ ?_ (by rw [hf2]; exact hcov) (by rw [hf]; exact hp)
  rw [hf]
  simp only [List.dropLast_concat] at hbef
  rcases hbef with hb | hb
  · have : ns = [] := by
      simp only [List.length_append, List.length_singleton] at hb
      exact List.length_eq_zero_iff.1 (by omega)
    rw [this] at hp ⊢
    simp only [List.prod_nil] at hp ⊢
    omega
  · exact hb

/-! Minimal computation -/

theorem twos_prod (N : Nat) (hN : 2 ≤ N) : (List.replicate (slots N) 2).prod = N ↔ ∃ k, N = 2 ^ k := by
  rw [List.prod_replicate]
  constructor
  · intro h; exact ⟨_, h.symm⟩
  · rintro ⟨k, rfl⟩
    have ht := twos_tight (2 ^ k) hN
    have h1 := ht.covers
    have h2 := ht.before
    rw [List.prod_replicate] at h1
    rw [List.dropLast_replicate, List.prod_replicate] at h2
    have h3 : k ≤ slots (2 ^ k) := (Nat.pow_le_pow_iff_right (by omega)).1 h1
    have h4 : slots (2 ^ k) - 1 < k := (Nat.pow_lt_pow_iff_right (by omega)).1 h2
    have : slots (2 ^ k) = k := by omega
    rw [this]

theorem twos_shaped (N : Nat) : Shaped (List.replicate (slots N) 2) (slots N)
    (List.replicate (slots N) (-2 : Int) ++ List.replicate (slots N) 2) := by
  unfold Shaped
  simp

/-- C96 with minimal computation: the allreduce is right exactly on a power of two of nodes. -/
theorem allreduce_minimum_iff {α : Type} [LinearOrder α] (N cores : Nat) (hN : 2 ≤ N) (hc : 0 < cores) (cost : List Int → Option α)
    (notRec : Int) (hnr : notRec = -1 ∨ notRec = 1) :
    ∃ ps gs, ∃ sched : Nat → List Block, allreducePorts (N * cores) cores none true cost = some (ps, gs) ∧
      (∀ t, generateB false true N ps gs notRec t = some (sched t)) ∧
      (Computes (V := Nat) N copyOut sched (AllreducePost N) ↔ ∃ k, N = 2 ^ k) := by
  have hdiv : N * cores / cores = N := Nat.mul_div_cancel _ hc
  have hsize : N ≤ N * cores := Nat.le_mul_of_pos_right _ hc
  have hne : N * cores ≠ cores := by
    intro h
    rw [h, Nat.div_self hc] at hdiv
    omega
  have hh : halvings N = slots N := by unfold halvings; rw [if_neg (by omega)]
  have hle := slots_le_self N hN
  have ht := twos_tight N hN
  refine ⟨List.replicate (slots N) (-1) ++ List.replicate (slots N) 1, groupsOf N (slots N) ++ groupsOf N (slots N),
    Recursive.allreduce ((stepPorts (List.replicate (slots N) 2)).reverse.take (slots N)) (stepPorts (List.replicate (slots N) 2)), ?_, ?_, ?_⟩
  · unfold allreducePorts
    simp only [if_neg hne, if_true, hdiv, hh]
    rw [Option.bind_some, room, if_pos, Option.map_some, single_id _ _ hN]
    simp only [List.length_append, List.length_replicate]; omega
  · intro t
    rw [generateB_recursive _ _ _ _ _ _ hnr, ← allreduce_generated ht (slots N) _ (twos_shaped N) t]
    congr 1
    rw [List.map_append, List.map_replicate, List.map_replicate]
    rfl
  · rw [← twos_prod N hN]
    refine ⟨fun h => by_contra fun hp => tight_allreduce_wrong ht _ hp h, fun h => tight_allreduce ht _ h⟩

/-- C96 with minimal computation: the reduce_scatter is right exactly on a power of two of nodes. -/
theorem reduceScatter_minimum_iff {α : Type} [LinearOrder α] [Add α] (N cores nports : Nat) (hN : 2 ≤ N) (hc : 0 < cores) (limit : α)
    (cost : Nat → Nat → α) (notRec : Int) (hnr : notRec = -1 ∨ notRec = 1) :
    ∃ ps gs, ∃ sched : Nat → List Block, reduceScatterPorts (N * cores) cores nports none true limit cost = some (ps, gs) ∧
      (∀ t, generateB false false N ps gs notRec t = some (sched t)) ∧
      (Computes (V := Nat) N copyOutFirst sched (ReduceScatterPost N) ↔ ∃ k, N = 2 ^ k) := by
  have hdiv : N * cores / cores = N := Nat.mul_div_cancel _ hc
  have hsize : N ≤ N * cores := Nat.le_mul_of_pos_right _ hc
  have hh : halvings N = slots N := by unfold halvings; rw [if_neg (by omega)]
  have hle := slots_le_self N hN
  have ht := twos_tight N hN
  have hone : stepPorts (List.replicate (slots N) 2) = List.replicate (slots N) 1 := by unfold stepPorts; rw [List.map_replicate]
  have hs0 : List.replicate (slots N) 1 ≠ [] := by rw [← hone]; exact tight_ne ht
  have hpos : ∀ p, p ∈ List.replicate (slots N) 1 → 0 < p := fun p hp => by rw [(List.mem_replicate.1 hp).2]; omega
  have hgen := Recursive.generate_reduceScatter (List.replicate (slots N) 1) hs0 hpos
  refine ⟨List.replicate (slots N) (-1), groupsOf N (slots N), Recursive.reduceScatter (List.replicate (slots N) 1), ?_, ?_, ?_⟩
  · unfold reduceScatterPorts
    simp only [if_true, hdiv, hh]
    rw [Option.bind_some, room, if_pos, Option.map_some, single_id' _ _ hN]
    simp only [List.length_replicate]; omega
  · intro t
    rw [generateB_recursive _ _ _ _ _ _ hnr, ← hgen t, List.map_replicate]
    rfl
  · rw [← twos_prod N hN]
    constructor
    · refine fun h => by_contra fun hp => ?_
      obtain ⟨qs, p, e, h1, h2, h3⟩ := tight_split ht hp
      rw [hone] at e
      have hr : List.replicate (slots N) 1 = p :: qs.reverse := by
        have := congrArg List.reverse e
        rw [List.reverse_replicate, List.reverse_append] at this
        exact this
      have hf : Recursive.factor qs.reverse = Recursive.factor qs := by
        unfold Recursive.factor; rw [List.map_reverse, List.prod_reverse]
      rw [hr] at h
      refine Recursive.reduceScatter_uncovered qs.reverse p N (by rw [hf]; exact h1) ?_ (by rw [hf]; exact h3) h
      have : Recursive.factor (p :: qs.reverse) = Recursive.factor (qs ++ [p]) := by rw [← hr, e]
      rw [this]; exact h2
    · intro h
      obtain ⟨sched, s1, s2⟩ := Recursive.reduceScatter_correct (V := Nat) (List.replicate (slots N) 1) hs0 hpos
      have e : sched = Recursive.reduceScatter (List.replicate (slots N) 1) := by
        funext t
        have h1 := s1 t
        rw [hgen] at h1
        exact (Option.some.inj h1).symm
      rw [e, List.map_replicate, h] at s2
      exact s2

/-! Prime numbers of nodes -/

theorem prod_prime (l : List Nat) : (∀ x, x ∈ l → 2 ≤ x) → ∀ N, N.Prime → l.prod = N → l = [N] := by
  induction l with
  | nil =>
    intro _ N hN h
    rw [List.prod_nil] at h
    exact absurd hN (by rw [← h]; exact Nat.not_prime_one)
  | cons a l ih =>
    intro hl N hN h
    rw [List.prod_cons] at h
    have ha := hl a List.mem_cons_self
    have h1 : l.prod = 1 := by
      have : a ∣ N := ⟨_, h.symm⟩
      rcases (Nat.dvd_prime hN).1 this with e | e
      · omega
      · rw [e] at h
        exact Nat.eq_of_mul_eq_mul_left hN.pos (by rw [h, Nat.mul_one])
    cases l with
    | nil => rw [← h]; simp
    | cons b l =>
      have h2 := prod_ge_pow (b :: l) fun x hx => hl x (List.mem_cons_of_mem _ hx)
      have h3 : 2 ^ 1 ≤ 2 ^ (b :: l).length := Nat.pow_le_pow_right (by omega) (by simp)
      omega

/-- C96 is violated on a prime number of nodes above 13, for the allreduce and the allgather, whatever the table of times. -/
theorem prime_violated {α : Type} [LinearOrder α] (size cores : Nat) (hN : (size / cores).Prime) (h13 : 13 < size / cores) (cost : List Int → Option α)
    (notRec : Int) (hnr : notRec = -1 ∨ notRec = 1) (ps gs : List Int) (sched : Nat → List Block) :
    (allreducePorts size cores none false cost = some (ps, gs) → (∀ t, generateB false true (size / cores) ps gs notRec t = some (sched t)) →
      ¬ Computes (V := Nat) (size / cores) copyOut sched (AllreducePost (size / cores))) ∧
    (allgatherPorts size cores none false cost = some (ps, gs) → (∀ t, generateB true false (size / cores) ps gs notRec t = some (sched t)) →
      ¬ Computes (V := Nat) (size / cores) copyOut sched (AllgatherPost (size / cores))) := by
  have key : ∀ nums, Tight (size / cores) nums → nums.prod ≠ size / cores := by
    intro nums ht he
    have := prod_prime nums (fun x hx => (ht.range x hx).1) _ hN he
    have h1 := ht.range (size / cores) (by rw [this]; simp)
    omega
  constructor
  · intro h hs
    refine allreduce_violated size cores (by omega) cost notRec hnr ps gs h ?_ sched hs
    obtain ⟨fs, nums, l, n1, n2, n3, rfl⟩ := allreduce_chosen size cores cost (by omega) ps gs h
    rw [ports_prod n1 l fs n3]
    exact key nums n1
  · intro h hs
    refine allgather_violated size cores cost notRec hnr ps gs h ?_ sched hs
    obtain ⟨fs, nums, n1, n3, rfl⟩ := allgather_chosen size cores cost ps gs h
    rw [ports_prod n1 0 fs n3]
    exact key nums n1

/-- C96 is violated for the reduce_scatter on a prime number of nodes that one step cannot connect, whatever the table of times. -/
theorem reduceScatter_prime_violated {α : Type} [LinearOrder α] [Add α] (size cores nports : Nat) (hN : (size / cores).Prime)
    (hP : max 1 (min (if 1 < cores then cores else 12) nports) + 1 < size / cores) (limit : α)
    (cost : Nat → Nat → α) (notRec : Int) (hnr : notRec = -1 ∨ notRec = 1) (ps gs : List Int)
    (h : reduceScatterPorts size cores nports none false limit cost = some (ps, gs)) (sched : Nat → List Block)
    (hs : ∀ t, generateB false false (size / cores) ps gs notRec t = some (sched t)) :
    ¬ Computes (V := Nat) (size / cores) copyOutFirst sched (ReduceScatterPost (size / cores)) := by
  refine reduceScatter_lost_violated size cores nports (by omega) limit cost notRec hnr ps gs h ?_ sched hs
  obtain ⟨r, rs, h1, rfl, -, -, -⟩ := reduceScatter_chosen size cores nports (by omega) limit cost ps gs h
  have hr : ∀ x, x ∈ r :: rs → 2 ≤ x := fun x hx => (h1.range x hx).1
  obtain ⟨ns, n, hn⟩ : ∃ ns n, r :: rs = ns ++ [n] :=
    ⟨(r :: rs).dropLast, (r :: rs).getLast (by simp), (List.dropLast_append_getLast (by simp)).symm⟩
  have hbef := h1.before
  have hcov := h1.covers
  have hrange := h1.range
  rw [hn] at hr hbef hcov hrange ⊢
  have hns : ∀ x, x ∈ ns → 2 ≤ x := fun x hx => hr x (List.mem_append_left _ hx)
  have e1 : ((ns ++ [n]).reverse.map fun r : Nat => 1 - (r : Int)).tail = ns.reverse.map fun r : Nat => 1 - (r : Int) := by simp
  rw [e1, shift_prod ns hns]
  simp only [List.dropLast_concat] at hbef
  have hn2 := (hrange n (by simp)).2
  rw [List.prod_append, List.prod_singleton] at hcov
  have hns2 : ns ≠ [] := by
    rintro rfl
    simp only [List.prod_nil, Nat.one_mul] at hcov
    omega
  have hlt : ns.prod < size / cores := by
    rcases hbef with hb | hb
    · simp only [List.length_append, List.length_singleton] at hb
      exact absurd (List.length_eq_zero_iff.1 (by omega)) hns2
    · exact hb
  intro hd
  rcases (Nat.dvd_prime hN).1 hd with e | e
  · have h2 := prod_ge_pow ns hns
    have h3 : 2 ^ 1 ≤ 2 ^ ns.length := Nat.pow_le_pow_right (by omega) (List.length_pos_of_ne_nil hns2)
    omega
  · omega

/-- On 7 nodes, with the table above, all three blocking collectives are wrong. -/
example (sched : Nat → List Block) (hs : ∀ t, generateB true false 7 [1, 1, 1] [7, 7, -7] (-1) t = some (sched t)) :
    ¬ Computes (V := Nat) 7 copyOut sched (AllgatherPost 7) :=
  allgather_violated 7 1 longest (-1) (.inl rfl) [1, 1, 1] [7, 7, -7] (by decide +kernel) (by decide) sched hs

example (sched : Nat → List Block) (hs : ∀ t, generateB false true 7 [-1, -1, -1, 1, 1, 1] [7, 7, 7, 7, 7, -7] (-1) t = some (sched t)) :
    ¬ Computes (V := Nat) 7 copyOut sched (AllreducePost 7) :=
  allreduce_violated 7 1 (by decide) longest (-1) (.inl rfl) _ [7, 7, 7, 7, 7, -7] (by decide +kernel) (by decide) sched hs

example (sched : Nat → List Block) (hs : ∀ t, generateB false false 7 [-2, -2] [7, -7] (-1) t = some (sched t)) :
    ¬ Computes (V := Nat) 7 copyOutFirst sched (ReduceScatterPost 7) :=
  reduceScatter_lost_violated 7 1 12 (by decide) 1000 steps3 (-1) (.inl rfl) [-2, -2] [7, -7] (by decide +kernel) (by decide) sched hs

/-- Two nodes and a factor 3. -/
example (sched : Nat → List Block) (hs : ∀ t, generateB false false 2 [-2] [-2] (-1) t = some (sched t)) :
    ¬ Computes (V := WithTop Nat) 2 copyOutFirst sched (ReduceScatterPost 2) :=
  reduceScatter_violated 2 1 12 (by decide) 1000 (fun _ r => if r = 2 then 5 else 1) (-1) (.inl rfl) [-2] [-2] (by decide +kernel) (by decide) sched hs

/-- On 8 nodes the allreduce is right. -/
example : ∃ sched : Nat → List Block, (∀ t, generateB false true 8 [-1, -1, -1, 1, 1, 1] [8, 8, 8, 8, 8, -8] (-1) t = some (sched t)) ∧
    Computes (V := Nat) 8 copyOut sched (AllreducePost 8) :=
  allreduce_partial 8 1 (by decide) longest (-1) (.inl rfl) _ _ (by decide +kernel) (by decide)

end ExtMpi.BlockingPorts
