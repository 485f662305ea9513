import Verif.Lemmas.RecursiveMiddle
import Verif.Lemmas.Matched
/-! # The recursive algorithms compute their collectives (C11, C12, C13, C14) -/
namespace ExtMpi.Recursive
open Schedule

/-! ## Allgather -/

theorem allgather_exec {V : Type} [Add V] (ports : List Nat) (inp junk : Nat → Nat → V) :
    ∃ out, Exec (factor ports) copyOut (allgather ports) inp junk out ∧
      AllgatherPost (factor ports) inp out := by
  obtain ⟨lb, hlb⟩ : ∃ lb, lb = factor ports := ⟨_, rfl⟩
  rw [← hlb]
  obtain ⟨s1, h1, h2⟩ := gather_phase (V := V) lb 0 lb
    (fun g p t line => { frac := line, sendto := gatherSend g (g * (p + 1)) p t line,
                         recvfrom := gatherRecv g (g * (p + 1)) t line })
    (fun g p hg hd => gatherLike1 lb g p hg hd) (fun t g ps => gatherSteps lb t g ps)
    (fun t g => rfl) (fun t g p ps => rfl) (fun n => inp n n) ports 1 (by omega) (by rw [hlb]; simp)
    (fun t => copyIn (gatherFirst lb t) (inp t) (junk t)) (by
      intro t n ht hn e
      rw [Nat.div_one, Nat.div_one] at e
      subst e
      simp [copyIn, gatherFirst, mk, hn])
  have h3 : ∀ t, t < lb → nodeStep lb (fun _ => gatherLast lb) s1 t = some (s1 t) := fun t ht =>
    idle_step lb lb (fun _ line => { frac := line, sendto := [(-1, (line : Int))] })
      (fun t x e he => by simp at he; rw [he]; exact Int.negSucc_lt_zero 0) (fun _ _ => rfl) (fun _ _ => rfl) (fun _ _ => rfl) s1 t ht
  refine ⟨fun t => copyOut (gatherLast lb) (s1 t),
    ⟨fun t => gatherFirst lb t, fun t => gatherSteps lb t 1 ports ++ [gatherLast lb],
      fun _ => gatherLast lb, s1, fun t _ => ⟨by rw [hlb]; rfl, by simp⟩,
      Run.append h1 (Run.single h3), fun _ _ => rfl⟩, ?_⟩
  intro t b ht hb
  have := h2 t b ht hb
  rw [Nat.zero_add] at this
  rw [← this]
  apply copyOut_mk lb _ _ b b hb
  · simp
  · rfl
  · intro m _ _ h; exact h

theorem generate_allgather (ports : List Nat) (hp : ∀ p, p ∈ ports → 0 < p) (t : Nat) :
    generate true (ports.map fun p : Nat => (p : Int)) t = some (allgather ports t) := by
  have h1 : ((ports.map fun p : Nat => (p : Int)).all fun p => decide (0 < p)) = true := by
    rw [List.all_eq_true]
    intro x hx
    obtain ⟨p, hpm, rfl⟩ := List.mem_map.1 hx
    have := hp p hpm
    simp; omega
  have h2 : (ports.map fun p : Nat => (p : Int)).map Int.toNat = ports := by
    rw [List.map_map]; exact List.map_id'' (fun x => by simp) ports
  unfold generate
  rw [if_pos rfl, if_pos h1, h2]

/-- C11: on `∏ (ports + 1)` nodes the recursive allgather delivers every block everywhere. -/
theorem allgather_correct {V : Type} [Add V] (ports : List Nat) (hp : ∀ p, p ∈ ports → 0 < p) :
    ∃ sched : Nat → List Block,
      (∀ t, generate true (ports.map fun p : Nat => (p : Int)) t = some (sched t)) ∧
      Computes (V := V) ((ports.map fun p => p + 1).prod) copyOut sched
        (AllgatherPost ((ports.map fun p => p + 1).prod)) := by
  refine ⟨allgather ports, generate_allgather ports hp, ?_⟩
  · apply Computes.of
    · intro inp out out' h hpost t b ht hb
      rw [← h t ht]; exact hpost t b ht hb
    · intro inp junk
      exact allgather_exec ports inp junk

example : ∃ sched : Nat → List Block, (∀ t, generate true [2, 1] t = some (sched t)) ∧
    Computes (V := Nat) 6 copyOut sched (AllgatherPost 6) :=
  allgather_correct [2, 1] (by decide)

/-! ## Reduce-scatter -/

theorem reduceFirst_copyIn {V : Type} (lb n : Nat) (inp junk : Nat → V) (hn : n < lb) :
    copyIn (reduceFirst lb) inp junk n = inp n := by
  have h2 : n < 2 * lb := by omega
  unfold copyIn reduceFirst mk
  simp [h2, hn]

theorem initial_residue {V : Type} [AddCommMonoid V] (lb t n : Nat) (ht : t < lb) (inp : Nat → Nat → V) :
    residueSum lb lb t n inp = inp t n := by
  unfold residueSum
  rw [sumOver_congr lb _ (fun s => s = t), sumOver_single lb t ht fun s => inp s n]
  intro s hs
  rw [Nat.mod_eq_of_lt hs, Nat.mod_eq_of_lt ht]

theorem reduceScatter_exec {V : Type} [AddCommMonoid V] (ports : List Nat) (hne : ports ≠ [])
    (hp : ∀ p, p ∈ ports → 0 < p) (inp junk : Nat → Nat → V) :
    ∃ out, Exec (factor ports) copyOutFirst (reduceScatter ports) inp junk out ∧
      ReduceScatterPost (factor ports) inp out := by
  obtain ⟨lb, hlb⟩ : ∃ lb, lb = factor ports := ⟨_, rfl⟩
  rw [← hlb]
  obtain ⟨s1, h1, h2⟩ := reduce_phase lb 1 (by omega) inp ports hne hp true lb (by rw [hlb]; simp)
    (Nat.dvd_refl lb) (fun t => copyIn (reduceFirst lb) (inp t) (junk t)) (by
      intro t n ht hn _
      rw [if_pos rfl, Nat.zero_mul, Nat.zero_add, initial_residue lb t n ht]
      exact reduceFirst_copyIn lb n _ _ hn)
  have h3 : ∀ t, t < lb → nodeStep lb (fun t => scatterLast lb t) s1 t = some (s1 t) := fun t ht =>
    idle_step lb (2 * lb) (fun task x => if x < lb then { frac := x } else
        { frac := x - lb, sendto := if x - lb = task then [(-1, ((x - lb : Nat) : Int))] else [] })
      (fun t x e he => by
        by_cases c : x < lb
        · simp [c] at he
        · by_cases c2 : x - lb = t
          · simp only [c, if_false, c2, if_true, List.mem_singleton] at he
            rw [he]; exact Int.negSucc_lt_zero 0
          · simp [c, c2] at he)
      (fun t x => by split <;> rfl) (fun t x => by split <;> rfl)
      (fun t x => by split <;> rfl) s1 t ht
  refine ⟨fun t => copyOutFirst (scatterLast lb t) (s1 t),
    ⟨fun t => reduceFirst lb, fun t => reduceSteps lb t true lb ports ++ [scatterLast lb t],
      fun t => scatterLast lb t, s1, fun t _ => ⟨by rw [hlb]; rfl, by simp⟩,
      Run.append h1 (Run.single h3), fun _ _ => rfl⟩, ?_⟩
  intro t ht
  have := h2 t t ht ht rfl
  have hall : residueSum lb 1 t t inp = ∑ s ∈ Finset.range lb, inp s t := by
    unfold residueSum
    exact sumOver_true lb _ _ fun s _ => by rw [Nat.mod_one, Nat.mod_one]
  rw [hall] at this
  rw [← this]
  apply copyOutFirst_mk (2 * lb) _ _ (1 * lb + t) (by omega)
  · rw [if_neg (by omega)]
    simp
  · intro m hm
    by_cases c : m < lb
    · rw [if_pos c]
    · rw [if_neg c, if_neg (by omega)]

theorem generate_reduceScatter (ports : List Nat) (hne : ports ≠ []) (hp : ∀ p, p ∈ ports → 0 < p) (t : Nat) :
    generate false (ports.map fun p : Nat => -(p : Int)) t = some (reduceScatter ports t) := by
  have h2 : (ports.map fun p : Nat => -(p : Int)).map Int.natAbs = ports := by
    rw [List.map_map]; exact List.map_id'' (fun x => by simp) ports
  unfold generate
  obtain ⟨l, hl⟩ : ∃ l, ports.getLast? = some l := ⟨_, List.getLast?_eq_some_getLast hne⟩
  have h3 : (ports.map fun p : Nat => -(p : Int)).getLast? = some (-(l : Int)) := by
    rw [List.getLast?_map, hl]; rfl
  have h4 := hp l (List.mem_of_getLast? hl)
  simp only [Bool.false_eq_true, if_false, h3]
  rw [if_pos (by omega), h2]

/-- C12: on `∏ (ports + 1)` nodes node `t` gets the sum of all contributions to block `t`, every
contribution exactly once. -/
theorem reduceScatter_correct {V : Type} [AddCommMonoid V] (ports : List Nat) (hne : ports ≠ [])
    (hp : ∀ p, p ∈ ports → 0 < p) :
    ∃ sched : Nat → List Block,
      (∀ t, generate false (ports.map fun p : Nat => -(p : Int)) t = some (sched t)) ∧
      Computes (V := V) ((ports.map fun p => p + 1).prod) copyOutFirst sched
        (ReduceScatterPost ((ports.map fun p => p + 1).prod)) := by
  refine ⟨reduceScatter ports, generate_reduceScatter ports hne hp, ?_⟩
  · apply Computes.of
    · intro inp out out' h hpost t ht
      rw [← h t ht]; exact hpost t ht
    · intro inp junk
      exact reduceScatter_exec ports hne hp inp junk

example : ∃ sched : Nat → List Block, (∀ t, generate false [-2, -1] t = some (sched t)) ∧
    Computes (V := Nat) 6 copyOutFirst sched (ReduceScatterPost 6) :=
  reduceScatter_correct [2, 1] (by decide) (by decide)

/-! ## Allreduce -/

theorem factor_append (a b : List Nat) : factor (a ++ b) = factor a * factor b := by
  simp [factor]

theorem middleSize_eq (ps : List Nat) (M : Nat) : middleSize (M * factor ps) ps = M := by
  induction ps with
  | nil => simp [middleSize, factor]
  | cons p ps ih =>
    rw [middleSize, factor_cons]
    have : M * ((p + 1) * factor ps) / (p + 1) = M * factor ps := by
      rw [Nat.mul_left_comm, Nat.mul_div_cancel_left _ (by omega)]
    rw [this, ih]

theorem allreduce_exec {V : Type} [AddCommMonoid V] (negs mids gs : List Nat)
    (hne : mids ++ gs ≠ []) (hn : ∀ p, p ∈ negs → 0 < p) (hm : ∀ p, p ∈ mids → 0 < p)
    (hg : ∀ p, p ∈ gs → 0 < p) (hbal : factor negs = factor gs) (inp junk : Nat → Nat → V) :
    ∃ out, Exec (factor (mids ++ gs)) copyOut (allreduce negs (mids ++ gs)) inp junk out ∧
      AllreducePost (factor (mids ++ gs)) inp out := by
  obtain ⟨lb, hlb⟩ : ∃ lb, lb = factor (mids ++ gs) := ⟨_, rfl⟩
  obtain ⟨M, hM⟩ : ∃ M, M = factor mids := ⟨_, rfl⟩
  have hMpos : 0 < M := by rw [hM]; exact factor_pos _
  have hlbM : lb = M * factor negs := by rw [hlb, factor_append, hM, hbal]
  have hMl : M ∣ lb := ⟨_, hlbM⟩
  have hmid : middleSize lb negs = M := by rw [hlbM]; exact middleSize_eq negs M
  have hsteps : ∀ t, middleSteps lb M t negs.isEmpty 1 (mids ++ gs) =
      (midList lb M t negs.isEmpty 1 mids, M, gs) := fun t =>
    middleSteps_eq lb M t mids gs hm negs.isEmpty 1 (by omega) (by rw [hM]; simp)
  have hsched : ∀ t, allreduce negs (mids ++ gs) t = reduceFirst lb ::
      (reduceSteps lb t true lb negs ++ midList lb M t negs.isEmpty 1 mids ++ gatherSteps2 lb t M gs ++
        [allreduceLast lb]) := by
    intro t
    unfold allreduce
    simp only [← hlb, hmid, hsteps]
  rw [← hlb]
  -- reduction phase
  have hred : ∃ s1, Run lb (fun t => reduceSteps lb t true lb negs)
      (fun t => copyIn (reduceFirst lb) (inp t) (junk t)) s1 ∧
      ∀ t n, t < lb → n < lb → n / M = t / M →
        s1 t ((if negs.isEmpty then 0 else 1) * lb + n) = classSum lb 1 (factor mids) t n inp := by
    cases negs with
    | nil =>
      refine ⟨_, .done fun _ _ => rfl, fun t n ht hn' _ => ?_⟩
      have : lb = factor mids := by rw [hlbM, hM]; simp [factor]
      rw [← this]
      simp only [List.isEmpty_nil, if_true, Nat.zero_mul, Nat.zero_add]
      rw [reduceFirst_copyIn lb n _ _ hn']
      have := initial_residue lb t n ht inp
      rw [← this]
      unfold residueSum classSum
      exact sumOver_congr lb _ _ _ fun s _ => by rw [Nat.div_one, Nat.div_one]
    | cons p ps =>
      obtain ⟨s1, h1, h2⟩ := reduce_phase lb M hMpos inp (p :: ps) (by simp) hn true lb hlbM
        (Nat.dvd_refl lb) (fun t => copyIn (reduceFirst lb) (inp t) (junk t)) (by
          intro t n ht hn _
          rw [if_pos rfl, Nat.zero_mul, Nat.zero_add, initial_residue lb t n ht]
          exact reduceFirst_copyIn lb n _ _ hn)
      refine ⟨s1, h1, fun t n ht hn' e => ?_⟩
      have := h2 t n ht hn' e
      simp only [List.isEmpty_cons, Bool.false_eq_true, if_false]
      rw [this, ← hM]
      unfold residueSum classSum
      exact sumOver_congr lb _ _ _ fun s _ => by rw [Nat.div_one, Nat.div_one]
  obtain ⟨s1, h1, h2⟩ := hred
  -- middle phase
  obtain ⟨s2, h3, h4⟩ := middle_phase lb M hMpos hMl inp mids hm negs.isEmpty (by
      intro he
      cases negs with
      | cons p ps => cases he
      | nil =>
        intro hmn
        subst hmn
        cases gs with
        | nil => exact hne rfl
        | cons p ps =>
          have h1 : factor [] = 1 := rfl
          rw [h1, factor_cons] at hbal
          have h2 := hg p List.mem_cons_self
          have h3 : 2 * 1 ≤ (p + 1) * factor ps := Nat.mul_le_mul (by omega) (factor_pos ps)
          omega) 1 (by omega) (by rw [hM]; simp) s1 h2
  -- gather phase
  obtain ⟨s3, h5, h6⟩ := gather_phase (V := V) lb lb (2 * lb)
    (fun g p t x => { frac := x % lb
                      sendto := if x / lb = 1 then gatherSend g (g * (p + 1)) p t (x % lb) else []
                      recvfrom := if x / lb = 1 then gatherRecv g (g * (p + 1)) t (x % lb) else [] })
    (fun g p hg hd => gatherLike2 lb g p hg hd) (fun t g ps => gatherSteps2 lb t g ps)
    (fun t g => rfl) (fun t g p ps => rfl) (fun n => ∑ k ∈ Finset.range lb, inp k n) gs M hMpos
    (by rw [← hbal]; exact hlbM.symm) s2 (by
      intro t n ht hn e
      have := h4 t n ht hn e
      rw [Nat.one_mul] at this
      exact this)
  have h7 : ∀ t, t < lb → nodeStep lb (fun _ => allreduceLast lb) s3 t = some (s3 t) := fun t ht =>
    idle_step lb (2 * lb) (fun _ x =>
        { frac := x % lb, sendto := if x ≥ lb then [(-1, ((x % lb : Nat) : Int))] else [] })
      (fun t x e he => by
        by_cases c : x ≥ lb
        · simp only [c, if_true, List.mem_singleton] at he
          rw [he]; exact Int.negSucc_lt_zero 0
        · simp only [c, if_false] at he; cases he)
      (fun _ _ => rfl) (fun _ _ => rfl) (fun _ _ => rfl) s3 t ht
  refine ⟨fun t => copyOut (allreduceLast lb) (s3 t),
    ⟨fun t => reduceFirst lb, _, fun t => allreduceLast lb, s3,
      fun t _ => ⟨hsched t, by simp⟩,
      Run.append (Run.append (Run.append h1 h3) h5) (Run.single h7), fun _ _ => rfl⟩, ?_⟩
  intro t b ht hb
  rw [← h6 t b ht hb]
  apply copyOut_mk (2 * lb) _ _ (lb + b) b (by omega)
  · rw [if_pos (by omega)]; simp
  · show (lb + b) % lb = b
    rw [Nat.add_mod_left, Nat.mod_eq_of_lt hb]
  · intro m hm hs hf
    have hf : m % lb = b := hf
    by_cases c : m ≥ lb
    · rw [mod_one lb m c (by omega)] at hf; omega
    · rw [if_neg c] at hs; cases hs

theorem generate_allreduce (negs mids gs : List Nat) (hne : mids ++ gs ≠ []) (hn : ∀ p, p ∈ negs → 0 < p)
    (hm : ∀ p, p ∈ mids → 0 < p) (hg : ∀ p, p ∈ gs → 0 < p) (t : Nat) :
    generate false ((negs.map fun p : Nat => -(p : Int)) ++
      ((mids ++ gs).map fun p : Nat => (p : Int))) t = some (allreduce negs (mids ++ gs) t) := by
  have hpos : ∀ p, p ∈ mids ++ gs → 0 < p := by
    intro p h
    rcases List.mem_append.1 h with h | h
    · exact hm p h
    · exact hg p h
  generalize mids ++ gs = ports at hne hpos
  obtain ⟨l, hl⟩ : ∃ l, ports.getLast? = some l := ⟨_, List.getLast?_eq_some_getLast hne⟩
  have h3 : ((negs.map fun p : Nat => -(p : Int)) ++ (ports.map fun p : Nat => (p : Int))).getLast? =
      some (l : Int) := by
    rw [List.getLast?_append, List.getLast?_map, hl]; rfl
  have hnegs : ∀ x, x ∈ negs.map (fun p : Nat => -(p : Int)) → decide (x < 0) = true := by
    intro x hx
    obtain ⟨p, hp, rfl⟩ := List.mem_map.1 hx
    have := hn p hp
    simp; omega
  have hportsN : (ports.map fun p : Nat => (p : Int)).takeWhile (fun x => decide (x < 0)) = [] ∧
      (ports.map fun p : Nat => (p : Int)).dropWhile (fun x => decide (x < 0)) =
        ports.map fun p : Nat => (p : Int) := by
    cases ports with
    | nil => exact ⟨rfl, rfl⟩
    | cons p ps =>
      have h : decide ((p : Int) < 0) = false := by simp
      constructor
      · rw [List.map_cons, List.takeWhile_cons_of_neg (by simp)]
      · rw [List.map_cons, List.dropWhile_cons_of_neg (by simp)]
  have h5 : ((negs.map fun p : Nat => -(p : Int)) ++ (ports.map fun p : Nat => (p : Int))).takeWhile
      (fun x => decide (x < 0)) = negs.map fun p : Nat => -(p : Int) := by
    rw [List.takeWhile_append_of_pos hnegs, hportsN.1, List.append_nil]
  have h6 : ((negs.map fun p : Nat => -(p : Int)) ++ (ports.map fun p : Nat => (p : Int))).dropWhile
      (fun x => decide (x < 0)) = ports.map fun p : Nat => (p : Int) := by
    rw [List.dropWhile_append_of_pos hnegs, hportsN.2]
  have h7 : ((ports.map fun p : Nat => (p : Int)).all fun p => decide (0 < p)) = true := by
    rw [List.all_eq_true]
    intro x hx
    obtain ⟨p, hpm, rfl⟩ := List.mem_map.1 hx
    have := hpos p hpm
    simp; omega
  have h8 : (ports.map fun p : Nat => (p : Int)).map Int.toNat = ports := by
    rw [List.map_map]; exact List.map_id'' (fun x => by simp) ports
  have h9 : (negs.map fun p : Nat => -(p : Int)).map Int.natAbs = negs := by
    rw [List.map_map]; exact List.map_id'' (fun x => by simp) negs
  unfold generate
  simp only [Bool.false_eq_true, if_false, h3]
  rw [if_neg (by omega)]
  simp only [h5, h6, h7, h8, h9, if_true]

/-- C13: reduction steps `negs`, middle steps `mids` and gather steps `gs` that undo the reduction
steps: on `∏ (mids + 1) * ∏ (gs + 1)` nodes every node gets the sum of all contributions to every
block, every contribution exactly once. -/
theorem allreduce_correct {V : Type} [AddCommMonoid V] (negs mids gs : List Nat)
    (hne : mids ++ gs ≠ []) (hn : ∀ p, p ∈ negs → 0 < p) (hm : ∀ p, p ∈ mids → 0 < p)
    (hg : ∀ p, p ∈ gs → 0 < p)
    (hbal : (negs.map fun p => p + 1).prod = (gs.map fun p => p + 1).prod) :
    ∃ sched : Nat → List Block,
      (∀ t, generate false ((negs.map fun p : Nat => -(p : Int)) ++
        ((mids ++ gs).map fun p : Nat => (p : Int))) t = some (sched t)) ∧
      Computes (V := V) (((mids ++ gs).map fun p => p + 1).prod) copyOut sched
        (AllreducePost (((mids ++ gs).map fun p => p + 1).prod)) := by
  refine ⟨allreduce negs (mids ++ gs), generate_allreduce negs mids gs hne hn hm hg, ?_⟩
  · apply Computes.of
    · intro inp out out' h hpost t b ht hb
      rw [← h t ht]; exact hpost t b ht hb
    · intro inp junk
      exact allreduce_exec negs mids gs hne hn hm hg hbal inp junk

example : ∃ sched : Nat → List Block, (∀ t, generate false [-2, -1, 3, 5] t = some (sched t)) ∧
    Computes (V := Nat) 24 copyOut sched (AllreducePost 24) :=
  allreduce_correct [2, 1] [3] [5] (by decide) (by decide) (by decide) (by decide) (by decide)

/-! ## Matching of messages -/

/-- C14 for the recursive algorithms: in every step what is sent is received. -/
theorem recursive_matched (negs mids gs : List Nat) (hne : mids ++ gs ≠ [])
    (hn : ∀ p, p ∈ negs → 0 < p) (hm : ∀ p, p ∈ mids → 0 < p) (hg : ∀ p, p ∈ gs → 0 < p)
    (hbal : (negs.map fun p => p + 1).prod = (gs.map fun p => p + 1).prod) :
    Matched (((mids ++ gs).map fun p => p + 1).prod) (fun t => (allgather (mids ++ gs) t).tail) ∧
    Matched (((mids ++ gs).map fun p => p + 1).prod) (fun t => (reduceScatter (mids ++ gs) t).tail) ∧
    Matched (((mids ++ gs).map fun p => p + 1).prod) (fun t => (allreduce negs (mids ++ gs) t).tail) := by
  have hpos : ∀ p, p ∈ mids ++ gs → 0 < p := by
    intro p h
    rcases List.mem_append.1 h with h | h
    · exact hm p h
    · exact hg p h
  obtain ⟨_, h1, _⟩ := allgather_exec (V := Nat) (mids ++ gs) (fun _ _ => 0) (fun _ _ => 0)
  obtain ⟨_, h2, _⟩ := reduceScatter_exec (V := Nat) (mids ++ gs) hne hpos (fun _ _ => 0) (fun _ _ => 0)
  obtain ⟨_, h3, _⟩ := allreduce_exec (V := Nat) negs mids gs hne hn hm hg hbal (fun _ _ => 0) (fun _ _ => 0)
  exact ⟨h1.matched, h2.matched, h3.matched⟩

example : Matched 24 fun t => (allreduce [5] [3, 5] t).tail :=
  (recursive_matched [5] [3] [5] (by decide) (by decide) (by decide) (by decide) (by decide)).2.2

end ExtMpi.Recursive
