import Verif.Lemmas.PortAll
import Verif.Props.Cyclic
import Verif.Props.CyclicReduce
import Verif.Props.Recursive
/-! # Properties C73 to C75: the port counts the library chooses itself -/
namespace ExtMpi.PortChoice
open Schedule

theorem candidates_two (N : Nat) (ag : Bool) (ls : List (List Int)) (h : candidates N ag = some ls) : 2 ≤ N := by
  by_contra hn
  have : N = 0 ∨ N = 1 := by omega
  have hz : candidates 0 ag = none ∧ candidates 1 ag = none := by cases ag <;> decide
  rcases this with rfl | rfl
  · rw [hz.1] at h; cases h
  · rw [hz.2] at h; cases h

theorem candidates_shape (N : Nat) (ag : Bool) (ls : List (List Int)) (h : candidates N ag = some ls) :
    ∀ fs, fs ∈ ls → ∃ nums l, Tight N nums ∧ l ≤ nums.length ∧ (ag = true → l = 0) ∧ Shaped nums l fs := by
  have hN := candidates_two N ag ls h
  rw [candidates_eq N hN] at h
  obtain ⟨room, -, h2⟩ := Option.bind_eq_some_iff.1 h
  obtain ⟨s1, s2⟩ := start_state N hN
  exact enumerate_spec N hN ag _ _ _ _ s1 s2 h2

/-- What a successful choice looks like. -/
theorem chosen {α : Type} [LinearOrder α] (size cores sockets : Nat) (ag : Bool) (cost : List Int → Option α)
    (ps gs : List Int) (h : numPortsFactors size cores sockets ag false cost = some (ps, gs)) :
    ∃ ls fs t nums l, candidates (size / cores) ag = some ls ∧ minCost cost none (cancelFactors ls) = some (fs, t) ∧
      fs ∈ cancelFactors ls ∧ Tight (size / cores) nums ∧ l ≤ nums.length ∧ (ag = true → l = 0) ∧
      Shaped nums l fs ∧ ps = fs.map portOf ∧ gs = groupsOf (size / cores) fs.length := by
  unfold numPortsFactors at h
  simp only [Bool.false_eq_true, if_false] at h
  by_cases hs : size = cores * sockets
  · rw [if_pos hs] at h; cases h
  · rw [if_neg hs] at h
    cases hc : candidates (size / cores) ag with
    | none => rw [hc] at h; cases h
    | some ls =>
      rw [hc] at h; dsimp only at h
      cases hm : minCost cost none (cancelFactors ls) with
      | none => rw [hm] at h; cases h
      | some r =>
        obtain ⟨fs, t⟩ := r
        rw [hm] at h; dsimp only at h
        have hmem : fs ∈ cancelFactors ls := by
          rcases minCost_mem cost _ _ _ _ hm with h | h
          · cases h
          · exact h
        have hmem' : fs ∈ ls := by
          rw [cancelFactors_eq] at hmem; exact (List.mem_filter.1 hmem).1
        obtain ⟨nums, l, n1, n2, n3, n4⟩ := candidates_shape _ _ _ hc fs hmem'
        split at h
        · obtain ⟨rfl, rfl⟩ := Prod.mk.inj (Option.some.inj h)
          exact ⟨ls, fs, t, nums, l, rfl, hm, hmem, n1, n2, n3, n4, rfl, rfl⟩
        · cases h

/-- The port counts of the steps. -/
def stepPorts (nums : List Nat) : List Nat := nums.map (· - 1)

theorem stepPorts_pos {N : Nat} {nums : List Nat} (h : Tight N nums) : ∀ p, p ∈ stepPorts nums → 0 < p := by
  intro p hp
  obtain ⟨n, h1, rfl⟩ := List.mem_map.1 hp
  have := h.range n h1
  omega

theorem stepPorts_back {N : Nat} {nums : List Nat} (h : Tight N nums) : (stepPorts nums).map (· + 1) = nums := by
  rw [stepPorts, List.map_map]
  conv_rhs => rw [← List.map_id nums]
  apply List.map_congr_left
  intro n hn
  have := h.range n hn
  simp only [Function.comp, id]
  omega

theorem ports_eq {N : Nat} {nums : List Nat} (h : Tight N nums) (l : Nat) (fs : List Int) (hs : Shaped nums l fs) :
    fs.map portOf = ((stepPorts nums).reverse.take l).map (fun p : Nat => -(p : Int)) ++
      (stepPorts nums).map fun p : Nat => (p : Int) := by
  rw [hs, List.map_append, List.map_map, List.map_map, stepPorts, ← List.map_reverse, ← List.map_take, List.map_map,
    List.map_map]
  congr 1
  · apply List.map_congr_left
    intro n hn
    have hn' : n ∈ nums := List.mem_reverse.1 (List.mem_of_mem_take hn)
    have := h.range n hn'
    simp only [Function.comp, portOf]
    rw [if_neg (by omega)]; omega
  · apply List.map_congr_left
    intro n hn
    have := h.range n hn
    simp only [Function.comp, portOf]
    rw [if_pos (by omega)]; omega

theorem tight_fits {N : Nat} {nums : List Nat} (h : Tight N nums) : Cyclic.Fits N 1 (stepPorts nums) := by
  obtain ⟨ns, n, hn⟩ : ∃ ns n, nums = ns ++ [n] :=
    ⟨nums.dropLast, nums.getLast h.nonempty, (List.dropLast_append_getLast h.nonempty).symm⟩
  have hl := h.last n (by rw [hn]; simp)
  have hr := h.range n (by rw [hn]; simp)
  have hb := stepPorts_back h
  rw [hn] at hl hb ⊢
  rw [stepPorts, List.map_append] at hb ⊢
  rw [List.map_append] at hb
  have hb' := (List.append_inj' hb (by simp)).1
  apply Cyclic.fits_of_exact N 1 _ _ (by omega) _ (by simp only; omega)
  rw [hb', Nat.one_mul]
  simp at hl
  simp only
  omega

theorem fits_weaken (N : Nat) (ps : List Nat) : ∀ G, Cyclic.Fits N G ps → CyclicReduce.Fits N G ps := by
  induction ps with
  | nil => intro _ _; trivial
  | cons p ps ih => intro G h; exact ⟨fun hg => .inr (h.1 hg), ih _ h.2⟩

theorem take_neg (a b : List Nat) (ha : ∀ p, p ∈ a → 0 < p) (hb : ∀ p, p ∈ b → 0 < p) :
    ((a.map (fun p : Nat => -(p : Int)) ++ b.map fun p : Nat => (p : Int)).takeWhile (· < 0)) =
        a.map (fun p : Nat => -(p : Int)) ∧
      ((a.map (fun p : Nat => -(p : Int)) ++ b.map fun p : Nat => (p : Int)).dropWhile (· < 0)) =
        b.map fun p : Nat => (p : Int) := by
  induction a with
  | nil =>
    cases b with
    | nil => simp
    | cons p b => simp
  | cons q a ih =>
    have hq := ha q List.mem_cons_self
    obtain ⟨i1, i2⟩ := ih fun p hp => ha p (List.mem_cons_of_mem _ hp)
    have hneg : decide (-(q : Int) < 0) = true := by simp; omega
    simp only [List.map_cons, List.cons_append, List.takeWhile_cons, List.dropWhile_cons, hneg, if_true, i1, i2,
      and_self]

theorem upLoop_pos (n fac : Nat) (N : Nat) : upLoop fac (List.replicate n (N : Int)) = 0 := by
  induction n with
  | zero => rfl
  | succ n ih =>
    rw [List.replicate_succ, upLoop, if_neg (by omega), ih]

theorem filter_pos (n N : Nat) : (List.replicate n (N : Int)).filter (· < 0) = [] := by
  rw [List.filter_eq_nil_iff]
  intro x hx
  rw [(List.mem_replicate.1 hx).2]; simp

theorem groups_filter (N n : Nat) (hN : 2 ≤ N) : (groupsOf N n).filter (· < 0) = [-(N : Int)] := by
  unfold groupsOf
  rw [List.filter_append, filter_pos]
  simp; omega

theorem groups_length (N n : Nat) (hn : 0 < n) : (groupsOf N n).length = n := by
  unfold groupsOf
  simp; omega

theorem groups_reverse (N n : Nat) : (groupsOf N n).reverse = -(N : Int) :: List.replicate (n - 1) (N : Int) := by
  unfold groupsOf
  simp

/-- All nodes form one group, so the cyclic generator is used directly. -/
theorem single_mixed (N : Nat) (hN : 2 ≤ N) (ports : List Int) (h : (ports.takeWhile (· < 0)).length < ports.length) :
    single ports (groupsOf N ports.length) = true := by
  have hd : ((groupsOf N ports.length).take (ports.takeWhile (· < 0)).length).filter (· < 0) = [] := by
    unfold groupsOf
    rw [List.take_append_of_le_length (by simp; omega), List.take_replicate, filter_pos]
  have hup : ngroupsUp ports (groupsOf N ports.length) = 0 := by
    unfold ngroupsUp
    rw [hd, List.take_of_length_le (by rw [groups_length _ _ (by omega)]), groups_reverse, upLoop, if_pos (by omega),
      if_neg (by simp; omega)]
  unfold single ngroupsMiddle
  rw [groups_filter N _ hN, hup]
  unfold ngroupsDown
  rw [hd]; simp

theorem single_negative (N : Nat) (hN : 2 ≤ N) (ports : List Int) (hne : ports ≠ [])
    (h : ports.takeWhile (· < 0) = ports) : single ports (groupsOf N ports.length) = true := by
  have hpos := List.length_pos_of_ne_nil hne
  have hg := groups_length N ports.length hpos
  have ht : (groupsOf N ports.length).take ports.length = groupsOf N ports.length :=
    List.take_of_length_le (by rw [hg])
  have hup : ngroupsUp ports (groupsOf N ports.length) = 1 := by
    unfold ngroupsUp
    rw [h, ht, groups_filter N _ hN, groups_reverse, upLoop, if_pos (by omega)]
    simp only [List.map_cons, List.map_nil, List.prod_cons, List.prod_nil, Int.natAbs_neg, Int.natAbs_natCast,
      Nat.mul_one]
    rw [Nat.div_self (by omega), if_pos (by omega), upLoop_pos]
  unfold single ngroupsMiddle
  rw [groups_filter N _ hN, hup]
  unfold ngroupsDown
  rw [h, ht, groups_filter N _ hN]; simp

theorem tight_two {N : Nat} {nums : List Nat} (h : Tight N nums) : 2 ≤ N := by
  have h1 := h.before
  have : 0 < nums.dropLast.prod := by
    have := prod_ge_pow nums.dropLast fun n hn => (h.range n (List.dropLast_subset _ hn)).1
    exact Nat.lt_of_lt_of_le (Nat.pos_of_ne_zero (by positivity)) this
  omega

theorem foldl_mul (l : List Nat) : ∀ g : Int,
    (l.map fun p : Nat => (p : Int)).foldl (fun (g : Int) (p : Int) => g * ((Int.natAbs p : Int) + 1)) g = g * ((l.map (· + 1)).prod : Nat) := by
  induction l with
  | nil => intro g; simp
  | cons p l ih =>
    intro g
    rw [List.map_cons, List.foldl_cons, ih, List.map_cons, List.prod_cons]
    rw [Int.natAbs_natCast]
    push_cast
    ring

theorem groupSize_eq (a b : List Nat) (hb : ∀ p, p ∈ b → 0 < p)
    (hN : groupSize (a.map (fun p : Nat => -(p : Int)) ++ b.map fun p : Nat => (p : Int)) ≠ 0) :
    groupSize (a.map (fun p : Nat => -(p : Int)) ++ b.map fun p : Nat => (p : Int)) = ((b.map (· + 1)).prod : Nat) := by
  have hf : (a.map (fun p : Nat => -(p : Int)) ++ b.map fun p : Nat => (p : Int)).filter (0 < ·) =
      b.map fun p : Nat => (p : Int) := by
    rw [List.filter_append]
    have h1 : (a.map fun p : Nat => -(p : Int)).filter (0 < ·) = [] := by
      rw [List.filter_eq_nil_iff]
      intro x hx
      obtain ⟨p, -, rfl⟩ := List.mem_map.1 hx
      simp
    have h2 : (b.map fun p : Nat => (p : Int)).filter (0 < ·) = b.map fun p : Nat => (p : Int) := by
      rw [List.filter_eq_self]
      intro x hx
      obtain ⟨p, hp, rfl⟩ := List.mem_map.1 hx
      simp [hb p hp]
    rw [h1, h2, List.nil_append]
  unfold groupSize at hN ⊢
  rw [hf, foldl_mul] at hN ⊢
  split at hN
  · rename_i h; rw [if_pos h]; ring
  · simp at hN

/-! ### C73 -/

/-- C73 for `Allgather`: with the port counts the library chooses by itself, every node gets the
contributions of all nodes, whatever the table of times, with the recursive as well as with the cyclic
generator. -/
theorem allgather_default {V α : Type} [Add V] [LinearOrder α] (size cores sockets : Nat)
    (cost : List Int → Option α) (ps gs : List Int)
    (h : numPortsFactors size cores sockets true false cost = some (ps, gs)) :
    ∃ sched : Nat → List Block,
      (∀ t, generate true (notRecursive (size / cores) ps) (size / cores) ps gs t = some (sched t)) ∧
      Computes (V := V) (size / cores) copyOut sched (AllgatherPost (size / cores)) := by
  obtain ⟨ls, fs, t, nums, l, -, -, -, ht, hl, hl0, hsh, rfl, rfl⟩ := chosen _ _ _ _ _ _ _ h
  generalize size / cores = N at *
  obtain rfl := hl0 rfl
  have hps := ports_eq ht 0 fs hsh
  simp only [List.take_zero, List.map_nil, List.nil_append] at hps
  have hpos := stepPorts_pos ht
  have hback := stepPorts_back ht
  have hN := tight_two ht
  have hne : stepPorts nums ≠ [] := by
    unfold stepPorts; intro h; exact ht.nonempty (List.map_eq_nil_iff.1 h)
  have hall : ((stepPorts nums).map fun p : Nat => (p : Int)).all (0 < ·) = true := by
    rw [List.all_eq_true]; intro x hx
    obtain ⟨p, hp, rfl⟩ := List.mem_map.1 hx
    simpa using hpos p hp
  by_cases hr : notRecursive N (fs.map portOf) = true
  · refine ⟨Cyclic.allgather N (stepPorts nums), fun t => ?_, ?_⟩
    · have hsing : single (fs.map portOf) (groupsOf N (fs.map portOf).length) = true := by
        apply single_mixed N hN
        have := (take_neg [] (stepPorts nums) (by simp) hpos).1
        simp only [List.map_nil, List.nil_append] at this
        rw [hps, this]
        simpa using List.length_pos_of_ne_nil hne
      rw [List.length_map] at hsing
      unfold generate
      rw [if_pos hr, if_pos hsing, generateSingle, if_pos rfl, hps, if_pos hall, List.map_map]
      congr 2
      exact List.map_id'' (fun x => by simp) _
    · exact Cyclic.allgather_partial N (by omega) (stepPorts nums) hpos (tight_fits ht) (by
        have := ht.covers
        rw [← hback] at this
        exact this)
  · have hg : groupSize (fs.map portOf) = (N : Int) := by
      unfold notRecursive at hr; simpa using hr
    have hprod : ((stepPorts nums).map fun p => p + 1).prod = N := by
      have := groupSize_eq [] (stepPorts nums) hpos
      simp only [List.map_nil, List.nil_append] at this
      rw [← hps, hg] at this
      exact_mod_cast (this (by omega)).symm
    obtain ⟨sched, s1, s2⟩ := Recursive.allgather_correct (V := V) (stepPorts nums) hpos
    refine ⟨sched, fun t => ?_, ?_⟩
    · unfold generate
      rw [if_neg hr, hps]; exact s1 t
    · rw [hprod] at s2; exact s2

/-- C73 for `Allreduce`: with the port counts the library chooses by itself, every node gets the sum of all
contributions to every block. -/
theorem allreduce_default {V α : Type} [AddCommMonoid V] [LinearOrder α] (size cores sockets : Nat)
    (cost : List Int → Option α) (ps gs : List Int)
    (h : numPortsFactors size cores sockets false false cost = some (ps, gs)) :
    ∃ sched : Nat → List Block,
      (∀ t, generate false (notRecursive (size / cores) ps) (size / cores) ps gs t = some (sched t)) ∧
      Computes (V := V) (size / cores) copyOut sched (AllreducePost (size / cores)) := by
  obtain ⟨ls, fs, t, nums, l, -, -, -, ht, hl, -, hsh, rfl, rfl⟩ := chosen _ _ _ _ _ _ _ h
  generalize size / cores = N at *
  have hps := ports_eq ht l fs hsh
  have hpos := stepPorts_pos ht
  have hback := stepPorts_back ht
  have hN := tight_two ht
  have hne : stepPorts nums ≠ [] := by
    unfold stepPorts; intro h; exact ht.nonempty (List.map_eq_nil_iff.1 h)
  have hnpos : ∀ p, p ∈ (stepPorts nums).reverse.take l → 0 < p := fun p hp =>
    hpos p (List.mem_reverse.1 (List.mem_of_mem_take hp))
  have hall : ((stepPorts nums).map fun p : Nat => (p : Int)).all (0 < ·) = true := by
    rw [List.all_eq_true]; intro x hx
    obtain ⟨p, hp, rfl⟩ := List.mem_map.1 hx
    simpa using hpos p hp
  obtain ⟨tk, dr⟩ := take_neg _ (stepPorts nums) hnpos hpos
  by_cases hr : notRecursive N (fs.map portOf) = true
  · obtain ⟨sched, s1, s2⟩ := CyclicReduce.allreduce_correct_partial (V := V) N (by omega)
      ((stepPorts nums).reverse.take l) (stepPorts nums) hne hpos (by rw [hback]; exact ht.covers)
      (fits_weaken N _ 1 (tight_fits ht))
    refine ⟨sched, fun t => ?_, s2⟩
    have hsing : single (fs.map portOf) (groupsOf N (fs.map portOf).length) = true := by
      apply single_mixed N hN
      rw [hps, tk]
      simpa using List.length_pos_of_ne_nil hne
    rw [List.length_map] at hsing
    unfold generate
    rw [if_pos hr, if_pos hsing, generateSingle, if_neg (by simp), hps, tk, dr, if_pos hall, List.map_map, List.map_map]
    rw [← s1 t]
    congr 1
    · exact List.map_id'' (fun x => by simp) _
    · exact List.map_id'' (fun x => by simp) _
  · have hg : groupSize (fs.map portOf) = (N : Int) := by
      unfold notRecursive at hr; simpa using hr
    have hprod : ((stepPorts nums).map fun p => p + 1).prod = N := by
      have := groupSize_eq _ (stepPorts nums) hpos (by rw [← hps, hg]; omega)
      rw [← hps, hg] at this
      exact_mod_cast this.symm
    have hlen : (stepPorts nums).length = nums.length := by unfold stepPorts; simp
    have hsplit : (stepPorts nums).take (nums.length - l) ++ (stepPorts nums).drop (nums.length - l) = stepPorts nums :=
      List.take_append_drop _ _
    have hrev : (stepPorts nums).reverse.take l = ((stepPorts nums).drop (nums.length - l)).reverse := by
      rw [List.take_reverse, hlen]
    obtain ⟨sched, s1, s2⟩ := Recursive.allreduce_correct (V := V) ((stepPorts nums).reverse.take l)
      ((stepPorts nums).take (nums.length - l)) ((stepPorts nums).drop (nums.length - l))
      (by rw [hsplit]; exact hne) hnpos (fun p hp => hpos p (List.mem_of_mem_take hp))
      (fun p hp => hpos p (List.mem_of_mem_drop hp))
      (by rw [hrev, List.map_reverse, List.prod_reverse])
    rw [hsplit] at s1 s2
    refine ⟨sched, fun t => ?_, ?_⟩
    · unfold generate
      rw [if_neg hr, hps]; exact s1 t
    · rw [hprod] at s2; exact s2

/-- C73 for `Reduce_scatter`: with the port counts the library chooses by itself and then reverses, node `t`
gets the sum of the blocks `t`. -/
theorem reduceScatter_default {V α : Type} [AddCommMonoid V] [LinearOrder α] (size cores sockets : Nat)
    (cost : List Int → Option α) (ps gs : List Int)
    (h : numPortsFactors size cores sockets true false cost = some (ps, gs)) :
    ∃ sched : Nat → List Block,
      (∀ t, generate false (notRecursive (size / cores) ps) (size / cores) (reversePorts ps) gs t = some (sched t)) ∧
      Computes (V := V) (size / cores) copyOutFirst sched (ReduceScatterPost (size / cores)) := by
  obtain ⟨ls, fs, t, nums, l, -, -, -, ht, hl, hl0, hsh, rfl, rfl⟩ := chosen _ _ _ _ _ _ _ h
  generalize size / cores = N at *
  obtain rfl := hl0 rfl
  have hps := ports_eq ht 0 fs hsh
  simp only [List.take_zero, List.map_nil, List.nil_append] at hps
  have hpos := stepPorts_pos ht
  have hback := stepPorts_back ht
  have hN := tight_two ht
  have hne : stepPorts nums ≠ [] := by
    unfold stepPorts; intro h; exact ht.nonempty (List.map_eq_nil_iff.1 h)
  have hrv : reversePorts (fs.map portOf) = (stepPorts nums).reverse.map fun p : Nat => -(p : Int) := by
    unfold reversePorts
    rw [hps, List.map_map, ← List.map_reverse]; rfl
  have hrpos : ∀ p, p ∈ (stepPorts nums).reverse → 0 < p := fun p hp => hpos p (List.mem_reverse.1 hp)
  have hrne : (stepPorts nums).reverse ≠ [] := by simpa using hne
  obtain ⟨tk, dr⟩ := take_neg (stepPorts nums).reverse [] hrpos (by simp)
  simp only [List.map_nil, List.append_nil] at tk dr
  by_cases hr : notRecursive N (fs.map portOf) = true
  · obtain ⟨sched, s1, s2⟩ := CyclicReduce.reduceScatter_correct (V := V) N (by omega) (stepPorts nums).reverse
      (by rw [List.map_reverse, List.prod_reverse, hback]; exact ht.covers)
    refine ⟨sched, fun t => ?_, s2⟩
    have hsing : single (reversePorts (fs.map portOf)) (groupsOf N fs.length) = true := by
      have hlen : fs.length = (reversePorts (fs.map portOf)).length := by unfold reversePorts; simp
      rw [hlen]
      apply single_negative N hN
      · rw [hrv]; simpa using hne
      · rw [hrv, tk]
    unfold generate
    rw [if_pos hr, if_pos hsing, generateSingle, if_neg (by simp), hrv, tk, dr, if_pos (by simp), List.map_map]
    rw [← s1 t]
    congr 1
    exact List.map_id'' (fun x => by simp) _
  · have hg : groupSize (fs.map portOf) = (N : Int) := by
      unfold notRecursive at hr; simpa using hr
    have hprod : ((stepPorts nums).map fun p => p + 1).prod = N := by
      have := groupSize_eq [] (stepPorts nums) hpos
      simp only [List.map_nil, List.nil_append] at this
      rw [← hps, hg] at this
      exact_mod_cast (this (by omega)).symm
    obtain ⟨sched, s1, s2⟩ := Recursive.reduceScatter_correct (V := V) (stepPorts nums).reverse hrne hrpos
    refine ⟨sched, fun t => ?_, ?_⟩
    · unfold generate
      rw [if_neg hr, hrv]; exact s1 t
    · rw [List.map_reverse, List.prod_reverse, hprod] at s2; exact s2

/-- A table of times that prefers many steps, to exercise the theorems. -/
def longest (fs : List Int) : Option Nat := some (100 - fs.length)

example : numPortsFactors 7 1 1 false false longest = some ([-1, -1, -1, 1, 1, 1], [7, 7, 7, 7, 7, -7]) := by
  decide +kernel

example : ∃ sched : Nat → List Block,
    (∀ t, generate false true 7 [-1, -1, -1, 1, 1, 1] [7, 7, 7, 7, 7, -7] t = some (sched t)) ∧
    Computes (V := Nat) 7 copyOut sched (AllreducePost 7) := by
  have h := allreduce_default (V := Nat) 7 1 1 longest [-1, -1, -1, 1, 1, 1] [7, 7, 7, 7, 7, -7] (by decide +kernel)
  rwa [show notRecursive (7 / 1) [-1, -1, -1, 1, 1, 1] = true by decide, Nat.div_one] at h

example : ∃ sched : Nat → List Block,
    (∀ t, generate true false 4 [1, 1] [4, -4] t = some (sched t)) ∧
    Computes (V := Nat) 4 copyOut sched (AllgatherPost 4) := by
  have h := allgather_default (V := Nat) 8 2 1 longest [1, 1] [4, -4] (by decide +kernel)
  rwa [show notRecursive (8 / 2) [1, 1] = false by decide, show 8 / 2 = 4 from rfl] at h

example : ∃ sched : Nat → List Block,
    (∀ t, generate false true 6 [-1, -1, -1] [6, 6, -6] t = some (sched t)) ∧
    Computes (V := Nat) 6 copyOutFirst sched (ReduceScatterPost 6) := by
  have h := reduceScatter_default (V := Nat) 6 1 1 longest [1, 1, 1] [6, 6, -6] (by decide +kernel)
  rwa [show notRecursive (6 / 1) [1, 1, 1] = true by decide, Nat.div_one,
    show reversePorts [1, 1, 1] = [-1, -1, -1] by decide] at h

/-! ### C74 -/

theorem twice_slots (N : Nat) (hN : 2 ≤ N) (h3 : N ≠ 3) (h5 : N ≠ 5) : 2 * slots N ≤ N := by
  obtain ⟨s1, s2, s3⟩ := slots_spec N hN
  have hpow : ∀ s, 4 ≤ s → 2 * s ≤ 2 ^ (s - 1) := by
    intro s hs
    induction s, hs using Nat.le_induction with
    | base => decide
    | succ s hs ih =>
      rw [Nat.add_sub_cancel]
      obtain ⟨r, rfl⟩ : ∃ r, s = r + 1 := ⟨s - 1, by omega⟩
      rw [Nat.add_sub_cancel] at ih
      rw [Nat.pow_succ]; omega
  by_cases h : 4 ≤ slots N
  · have := hpow _ h; omega
  · have : slots N = 1 ∨ slots N = 2 ∨ slots N = 3 := by omega
    rcases this with h | h | h <;> rw [h] at s2 s3 ⊢ <;> simp at s2 s3 <;> omega

theorem cancelled_bound (b : Int) (nums : List Nat) (h : ∀ n, n ∈ nums → 0 < n) :
    cancelled b (nums.map fun n : Nat => (n : Int)) = false ↔
      (∀ n, n ∈ nums → (n : Int) ≤ b) ∧ nums.Pairwise (· ≥ ·) := by
  induction nums generalizing b with
  | nil => simp [cancelled]
  | cons n ns ih =>
    have hn := h n List.mem_cons_self
    have ih := fun b => ih b fun m hm => h m (List.mem_cons_of_mem _ hm)
    rw [List.map_cons, cancelled, List.pairwise_cons]
    by_cases hb : (n : Int) ≤ b
    · rw [if_pos ⟨by omega, hb⟩, ih]
      constructor
      · rintro ⟨h1, h2⟩
        refine ⟨fun m hm => ?_, fun m hm => ?_, h2⟩
        · rcases List.mem_cons.1 hm with rfl | hm
          · exact hb
          · have := h1 m hm; omega
        · have := h1 m hm; omega
      · rintro ⟨h1, h2, h3⟩
        refine ⟨fun m hm => ?_, h3⟩
        have := h2 m hm; omega
    · rw [if_neg (by tauto), if_pos (by omega)]
      constructor
      · intro h; cases h
      · rintro ⟨h1, -⟩
        exact absurd (h1 n List.mem_cons_self) hb

theorem cancelled_negs (b : Int) (a : List Nat) (r : List Int) :
    cancelled b (a.map (fun n : Nat => -(n : Int)) ++ r) = cancelled b r := by
  induction a with
  | nil => rfl
  | cons n a ih =>
    rw [List.map_cons, List.cons_append, cancelled, if_neg (by omega), if_neg (by omega), ih]

/-- Which lists are kept: those whose factors do not increase. -/
theorem kept_iff {N : Nat} {nums : List Nat} (ht : Tight N nums) (l : Nat) (fs : List Int) (hs : Shaped nums l fs) :
    cancelled 2147483647 fs = false ↔ nums.Pairwise (· ≥ ·) := by
  rw [hs, cancelled_negs, cancelled_bound _ _ fun n hn => by have := ht.range n hn; omega]
  constructor
  · exact fun h => h.2
  · refine fun h => ⟨fun n hn => ?_, h⟩
    have := ht.range n hn
    omega

theorem twos_tight (N : Nat) (hN : 2 ≤ N) : Tight N (List.replicate (slots N) 2) := by
  obtain ⟨s1, s2⟩ := start_state N hN
  obtain ⟨us, last, u1, u2, u3, u4, u5, u6, u7⟩ := s1.used hN
  rw [List.reverse_replicate] at u1 u3
  have hg := s2 us _ (by rw [List.reverse_replicate]; exact u1)
  have hus := prefix_replicate us _ 2 u3
  have h1 := (tight_length hN hg).1
  have h2 := (tight_length hN hg).2
  have hlen : us.length = slots N := by
    apply Nat.le_antisymm h2
    obtain ⟨t1, t2, t3⟩ := slots_spec N hN
    apply slots_unique N _ _ _ t1 t3
    have := u5
    rw [hus, List.prod_replicate] at this
    exact this
  rw [hus, hlen] at hg
  exact hg

/-- C74 with more than one process per node, or with a number of nodes other than three and five: the choice
succeeds whenever the times are finite, and its result fits into the arrays with `size + 1` entries. Up to
3564 nodes; beyond that the size of the table of candidates overflows, see `table_violated`. -/
theorem choice_defined_partial {α : Type} [LinearOrder α] (N cores sockets : Nat) (hN : 2 ≤ N) (hmax : N ≤ 3564)
    (hc : 0 < cores) (hsock : N * cores ≠ cores * sockets) (hroom : 2 ≤ cores ∨ (N ≠ 3 ∧ N ≠ 5)) (ag mn : Bool)
    (cost : List Int → Option α) (hcost : ∀ fs, cost fs ≠ none) :
    ∃ ps gs, numPortsFactors (N * cores) cores sockets ag mn cost = some (ps, gs) ∧ ps.length < N * cores + 1 ∧
      gs.length = ps.length := by
  have hdiv : N * cores / cores = N := Nat.mul_div_cancel _ hc
  have hs : 2 * slots N ≤ N * cores := by
    rcases hroom with h | h
    · have h1 : slots N ≤ N := slots_le N hN N Nat.lt_two_pow_self.le
      calc 2 * slots N ≤ 2 * N := by omega
        _ = N * 2 := by ring
        _ ≤ N * cores := Nat.mul_le_mul_left _ h
    · calc 2 * slots N ≤ N := twice_slots N hN h.1 h.2
        _ = N * 1 := by ring
        _ ≤ N * cores := Nat.mul_le_mul_left _ hc
  have hsp := (slots_spec N hN).1
  unfold numPortsFactors
  simp only [hdiv, if_neg hsock]
  cases mn with
  | true =>
    simp only [if_true]
    have hh : halvings N = slots N := by unfold halvings; rw [if_neg (by omega)]
    rw [hh]
    have hl : (List.replicate (slots N) (-1 : Int) ++ List.replicate (slots N) 1).length < N * cores + 1 := by
      simp; omega
    rw [if_pos hl]
    refine ⟨_, _, rfl, hl, ?_⟩
    rw [List.length_append, groups_length _ _ hsp]; simp
  | false =>
    simp only [Bool.false_eq_true, if_false]
    obtain ⟨ls, hls⟩ := candidates_some N hN hmax ag
    rw [hls]; dsimp only
    have hmem : ((List.replicate (slots N) 2).map fun n : Nat => (n : Int)) ∈ cancelFactors ls := by
      have hsh : Shaped (List.replicate (slots N) 2) 0 ((List.replicate (slots N) 2).map fun n : Nat => (n : Int)) := by
        unfold Shaped; simp
      rw [cancelFactors_eq, List.mem_filter]
      constructor
      · exact candidates_all N hN hmax ag ls hls _ (twos_tight N hN) _
          ((mem_emit ag _ _).2 ⟨0, by omega, fun _ => rfl, hsh⟩)
      · rw [(kept_iff (twos_tight N hN) 0 _ hsh).2 (List.pairwise_replicate.2 (.inr (Nat.le_refl _)))]; rfl
    cases hm : minCost cost none (cancelFactors ls) with
    | none => exact absurd hm (minCost_some cost _ _ (.inr ⟨_, hmem, hcost _⟩))
    | some r =>
      obtain ⟨fs, t⟩ := r
      dsimp only
      have hfs : fs ∈ ls := by
        rcases minCost_mem cost _ _ _ _ hm with h | h
        · cases h
        · rw [cancelFactors_eq] at h; exact (List.mem_filter.1 h).1
      obtain ⟨nums, l, n1, n2, n3, n4⟩ := candidates_shape _ _ _ hls fs hfs
      have hlen : fs.length = l + nums.length := by rw [n4]; simp [n2]
      have htl := tight_length hN n1
      have hl : (fs.map portOf).length < N * cores + 1 := by rw [List.length_map]; omega
      rw [if_pos hl]
      refine ⟨_, _, rfl, hl, ?_⟩
      rw [groups_length _ _ (by omega), List.length_map]

example : ∃ ps gs, numPortsFactors (1000 * 12) 12 1 false false longest = some (ps, gs) ∧
    ps.length < 1000 * 12 + 1 ∧ gs.length = ps.length :=
  choice_defined_partial 1000 12 1 (by decide) (by decide) (by decide) (by decide) (by decide) false false longest
    (fun fs => by simp [longest])

/-- C74 is violated for three and five nodes with one process each: with some tables of times the chosen list
has four (six) steps, and with the option for minimal computation it always has; the terminating zero is written
behind the end of the arrays. -/
theorem three_nodes_violated :
    numPortsFactors 3 1 1 false false longest = none ∧ numPortsFactors 5 1 1 false false longest = none ∧
      (∀ (ag : Bool) (cost : List Int → Option Nat), numPortsFactors 3 1 1 ag true cost = none ∧
        numPortsFactors 5 1 1 ag true cost = none) := by
  refine ⟨by decide +kernel, by decide +kernel, fun ag cost => ?_⟩
  constructor <;> rfl

/-- C74 is violated on a single node, the pointer behind the variable of the caller is followed. -/
theorem single_node_violated (cores sockets : Nat) (ag mn : Bool) (cost : List Int → Option Nat) :
    numPortsFactors (cores * sockets) cores sockets ag mn cost = none := by
  unfold numPortsFactors
  simp

/-- C74 is violated from 3565 nodes on: the number of lines of the table of candidates is not an `int`. -/
theorem table_violated (N sockets : Nat) (hN : 3565 ≤ N) (ag : Bool) (cost : List Int → Option Nat) :
    numPortsFactors N 1 sockets ag false cost = none := by
  have hlm : linesMax N = none := by
    have h1 : 3565 * 3565 ≤ N * N := Nat.mul_le_mul hN hN
    unfold linesMax factorMax
    rw [if_neg (by omega)]
  unfold numPortsFactors candidates
  simp only [Nat.div_one, hlm, Bool.false_eq_true, if_false]
  split <;> rfl

/-! ### C75 -/

theorem minCost_least {α : Type} [LinearOrder α] (cost : List Int → Option α) (ls : List (List Int)) :
    ∀ (best : Option (List Int × α)) (fs : List Int) (t : α), minCost cost best ls = some (fs, t) →
      (∀ b tb, best = some (b, tb) → cost b = some tb) →
      cost fs = some t ∧ (∀ b tb, best = some (b, tb) → t ≤ tb) ∧ ∀ g, g ∈ ls → ∀ t', cost g = some t' → t ≤ t' := by
  induction ls with
  | nil =>
    intro best fs t h hb
    refine ⟨hb _ _ h, fun b tb hbb => ?_, fun g hg => by cases hg⟩
    have h' : best = some (fs, t) := h
    rw [h'] at hbb
    exact le_of_eq (Prod.mk.inj (Option.some.inj hbb)).2
  | cons g ls ih =>
    intro best fs t h hb
    cases hc : cost g with
    | none =>
      simp only [minCost, hc] at h
      obtain ⟨i1, i2, i3⟩ := ih best fs t h hb
      refine ⟨i1, i2, fun g' hg' t' ht' => ?_⟩
      rcases List.mem_cons.1 hg' with rfl | hg'
      · rw [hc] at ht'; cases ht'
      · exact i3 g' hg' t' ht'
    | some tg =>
      have hnew : minCost cost (some (g, tg)) ls = some (fs, t) → (∀ b tb, best = some (b, tb) → tg ≤ tb) →
          cost fs = some t ∧ (∀ b tb, best = some (b, tb) → t ≤ tb) ∧
          ∀ g', g' ∈ g :: ls → ∀ t', cost g' = some t' → t ≤ t' := by
        intro h hle
        obtain ⟨i1, i2, i3⟩ := ih (some (g, tg)) fs t h fun b tb he => by
          obtain ⟨rfl, rfl⟩ := Prod.mk.inj (Option.some.inj he); exact hc
        have ht := i2 g tg rfl
        refine ⟨i1, fun b tb he => ht.trans (hle b tb he), fun g' hg' t' ht' => ?_⟩
        rcases List.mem_cons.1 hg' with rfl | hg'
        · rw [hc] at ht'; rw [← Option.some.inj ht']; exact ht
        · exact i3 g' hg' t' ht'
      cases best with
      | none =>
        simp only [minCost, hc] at h
        exact hnew h fun _ _ he => by cases he
      | some b =>
        simp only [minCost, hc] at h
        by_cases hlt : tg < b.2
        · rw [if_pos hlt] at h
          refine hnew h fun b' tb he => ?_
          rw [Option.some.inj he] at hlt
          exact hlt.le
        · rw [if_neg hlt] at h
          obtain ⟨i1, i2, i3⟩ := ih (some b) fs t h hb
          refine ⟨i1, i2, fun g' hg' t' ht' => ?_⟩
          rcases List.mem_cons.1 hg' with rfl | hg'
          · rw [hc] at ht'
            rw [← Option.some.inj ht']
            exact (i2 b.1 b.2 rfl).trans (not_lt.1 hlt)
          · exact i3 g' hg' t' ht'

/-- C75: the chosen factors cover the nodes without excess and do not increase, and no other list of this kind
has a smaller estimated time: the enumeration leaves out none. -/
theorem fastest {α : Type} [LinearOrder α] (size cores sockets : Nat) (ag : Bool) (cost : List Int → Option α)
    (ps gs : List Int) (h : numPortsFactors size cores sockets ag false cost = some (ps, gs)) :
    ∃ fs t nums l, ps = fs.map portOf ∧ cost fs = some t ∧ Tight (size / cores) nums ∧ nums.Pairwise (· ≥ ·) ∧
      l ≤ nums.length ∧ (ag = true → l = 0) ∧ Shaped nums l fs ∧
      ∀ nums' l' fs' t', Tight (size / cores) nums' → nums'.Pairwise (· ≥ ·) → l' ≤ nums'.length →
        (ag = true → l' = 0) → Shaped nums' l' fs' → cost fs' = some t' → t ≤ t' := by
  obtain ⟨ls, fs, t, nums, l, hls, hm, hmem, ht, hl, hl0, hsh, rfl, -⟩ := chosen _ _ _ _ _ _ _ h
  obtain ⟨m1, -, m3⟩ := minCost_least cost _ _ _ _ hm (fun _ _ he => by cases he)
  have hN := candidates_two _ _ _ hls
  have hmax : size / cores ≤ 3564 := by
    by_contra hgt
    have h1 : 3565 * 3565 ≤ size / cores * (size / cores) := Nat.mul_le_mul (by omega) (by omega)
    have hlm : linesMax (size / cores) = none := by
      unfold linesMax factorMax
      rw [if_neg (by omega)]
    rw [candidates_eq _ hN, hlm] at hls
    cases hls
  have hkept : nums.Pairwise (· ≥ ·) := by
    rw [cancelFactors_eq, List.mem_filter] at hmem
    exact (kept_iff ht l fs hsh).1 (by simpa using hmem.2)
  refine ⟨fs, t, nums, l, rfl, m1, ht, hkept, hl, hl0, hsh, ?_⟩
  intro nums' l' fs' t' ht' hp' hl' hl0' hsh' hc'
  refine m3 fs' ?_ t' hc'
  rw [cancelFactors_eq, List.mem_filter]
  refine ⟨candidates_all _ hN hmax ag ls hls nums' ht' fs' ((mem_emit ag nums' fs').2 ⟨l', hl', hl0', hsh'⟩), ?_⟩
  rw [(kept_iff ht' l' fs' hsh').2 hp']; rfl

example : Tight 12 [4, 3] ∧ Shaped [4, 3] 1 [-3, 4, 3] := by
  refine ⟨⟨by decide, by decide, by decide, by decide, ?_⟩, rfl⟩
  intro l hl
  obtain rfl := Option.some.inj hl
  decide

end ExtMpi.PortChoice
