import Verif.Lemmas.CyclicPhases
import Verif.Lemmas.Matched
/-! # The cyclic reduce_scatter and allreduce (C50, C51) -/
namespace ExtMpi.CyclicReduce
open Schedule Cyclic

theorem first_copyIn {V : Type} (N t n : Nat) (inp junk : Nat → V) (hn : n < N) :
    copyIn (firstBlock N t) inp junk n = inp ((n + t) % N) := by
  unfold copyIn firstBlock Recursive.mk
  simp [hn]

/-- The reduction steps leave a partition of the contributions. -/
theorem scatter_run {V : Type} [AddCommMonoid V] (N : Nat) (hN : 0 < N) (negs : List Nat)
    (inp junk : Nat → Nat → V) :
    ∃ s c, Run N (fun t => scatterSteps N t (fun line => (line + t) % N) N N negs)
        (fun t => copyIn (firstBlock N t) (inp t) (junk t)) s ∧
      (∀ e, e < N → c e < chunks N negs) ∧
      ∀ t n, t < N → n < chunks N negs → s t n = collect N c inp t n :=
  scatter_phase N inp negs N hN (Nat.le_refl N) (fun e => e) (fun _ h => h) _ fun t n ht hn => by
    rw [first_copyIn N t n _ _ hn, collect_id N inp t n ht hn]

/-! ## Reduce-scatter -/

/-- The last block with one line does nothing. -/
theorem last_idle {V : Type} [Add V] (N : Nat) (s : Nat → Nat → V) :
    ∀ t, t < N → nodeStep N (fun t => lastBlock 1 fun line => (line + t) % N) s t = some (s t) := fun t ht =>
  Recursive.idle_step N 1 (fun t line =>
    { frac := (line + t) % N
      sendto := if (List.range' (line + 1) (1 - line - 1)).all (fun n => (n + t) % N != (line + t) % N) then
        [(-1, (((line + t) % N : Nat) : Int))] else [] })
    (fun t x e he => by
      dsimp only at he
      split at he
      · rw [List.mem_singleton] at he; rw [he]; exact Int.negSucc_lt_zero 0
      · cases he) (fun _ _ => rfl) (fun _ _ => rfl) (fun _ _ => rfl) s t ht

theorem last_out {V : Type} (N t : Nat) (v : Nat → V) :
    copyOutFirst (lastBlock 1 fun line => (line + t) % N) v = some (v 0) := by
  apply Recursive.copyOutFirst_mk 1 _ _ 0 (by omega)
  · simp
  · intro m hm; omega

/-- A single line holds all contributions. -/
theorem collect_one {V : Type} [AddCommMonoid V] (N t : Nat) (ht : t < N) (c : Nat → Nat) (hc : ∀ e, e < N → c e < 1)
    (inp : Nat → Nat → V) : collect N c inp t 0 = ∑ x ∈ Finset.range N, inp x t := by
  rw [← sum_ring N t ht fun x => inp x t]
  unfold collect
  rw [Finset.filter_true_of_mem]
  · apply Finset.sum_congr rfl
    intro e _
    rw [Nat.add_zero, Nat.mod_eq_of_lt ht]
  · intro e he
    have := hc e (Finset.mem_range.1 he)
    omega

theorem reduceScatter_exec {V : Type} [AddCommMonoid V] (N : Nat) (hN : 0 < N) (negs : List Nat)
    (hcov : N ≤ (negs.map (· + 1)).prod) (inp junk : Nat → Nat → V) :
    ∃ out, Exec N copyOutFirst (fun t => (firstBlock N t :: scatterSteps N t (fun line => (line + t) % N) N N negs) ++
        [lastBlock 1 fun line => (line + t) % N]) inp junk out ∧ ReduceScatterPost N inp out := by
  obtain ⟨s, c, h1, h2, h3⟩ := scatter_run N hN negs inp junk
  rw [chunks_one N hN negs hcov] at h2 h3
  have h4 := last_idle N s
  refine ⟨fun t => copyOutFirst (lastBlock 1 fun line => (line + t) % N) (s t),
    ⟨fun t => firstBlock N t, fun t => scatterSteps N t (fun line => (line + t) % N) N N negs ++
      [lastBlock 1 fun line => (line + t) % N], fun t => lastBlock 1 fun line => (line + t) % N, s,
      fun t _ => ⟨rfl, by simp⟩, Recursive.Run.append h1 (Recursive.Run.single h4), fun _ _ => rfl⟩, ?_⟩
  intro t ht
  dsimp only
  rw [last_out, h3 t 0 ht (by omega), collect_one N t ht c h2]

/-- C50: with enough ports the cyclic reduce_scatter gives node `t` the sum of all contributions to
block `t`, for every number of nodes. -/
theorem reduceScatter_correct {V : Type} [AddCommMonoid V] (N : Nat) (hN : 0 < N) (negs : List Nat)
    (hcov : N ≤ (negs.map (· + 1)).prod) :
    ∃ sched : Nat → List Block, (∀ t, core N negs [] t = some (sched t)) ∧
      Computes (V := V) N copyOutFirst sched (ReduceScatterPost N) := by
  refine ⟨fun t => (firstBlock N t :: scatterSteps N t (fun line => (line + t) % N) N N negs) ++
    [lastBlock 1 fun line => (line + t) % N], ?_, ?_⟩
  · intro t
    unfold core
    simp only [List.isEmpty_nil, if_true, chunks_one N hN negs hcov]
    rfl
  · apply Computes.of
    · intro inp out out' h hpost t ht
      rw [← h t ht]; exact hpost t ht
    · intro inp junk
      exact reduceScatter_exec N hN negs hcov inp junk

example : ∃ sched : Nat → List Block, (∀ t, core 7 [2, 2] [] t = some (sched t)) ∧
    Computes (V := Nat) 7 copyOutFirst sched (ReduceScatterPost 7) :=
  reduceScatter_correct 7 (by decide) [2, 2] (by decide)

/-! ## Allreduce -/

theorem sum_all {V : Type} [AddCommMonoid V] (N m t bb n : Nat) (hm : 0 < m) (ht : t < N) (hbb : bb < N)
    (hmN : m ≤ N) (c : Nat → Nat) (hc : ∀ e, e < N → c e < m) (inp : Nat → Nat → V)
    (hn : n < m * N) (hnum : num N m t n = bb)
    (hlast : ∀ n', n < n' → n' < m * N → cl m n' % N ≠ cl m n % N) :
    part N m (collect N c inp) t n = ∑ x ∈ Finset.range N, inp x bb := by
  rw [← sum_ring N bb hbb fun x => inp x bb]
  have hset : (Finset.range (n + 1)).filter (fun x => cl m x % N = cl m n % N) =
      (Finset.range (m * N)).filter fun x => num N m t x = bb := by
    ext x
    simp only [Finset.mem_filter, Finset.mem_range]
    rw [← hnum, num_eq_iff]
    constructor
    · rintro ⟨h1, h2⟩; exact ⟨by omega, h2⟩
    · rintro ⟨h1, h2⟩
      refine ⟨?_, h2⟩
      by_contra hc
      exact hlast x (by omega) h1 h2
  unfold part
  rw [hset]
  rw [← Finset.sum_fiberwise_of_maps_to (s := Finset.range N)
    (t := (Finset.range (m * N)).filter fun x => num N m t x = bb)
    (g := fun e => (bb + 2 * N - t - c e) % N * m + c e)]
  · apply Finset.sum_congr rfl
    intro x hx
    obtain ⟨hx1, hx2⟩ := Finset.mem_filter.1 hx
    have hx1 := Finset.mem_range.1 hx1
    have hxd : x / m < N := (Nat.div_lt_iff_lt_mul hm).2 (by rw [Nat.mul_comm]; exact hx1)
    have hq : ((t + x / m) % N + x % m) % N = bb := by
      rw [Nat.mod_add_mod, ← hx2]
      unfold num cl
      congr 1
      omega
    unfold collect
    have hfil : (Finset.range N).filter (fun e => c e = x % m) =
        (Finset.range N).filter fun e => (bb + 2 * N - t - c e) % N * m + c e = x := by
      ext e
      simp only [Finset.mem_filter, Finset.mem_range, and_congr_right_iff]
      intro he
      have hce := hc e he
      constructor
      · intro h
        have hd : (bb + 2 * N - t - c e) % N = x / m := by
          have hxm : x % m < m := Nat.mod_lt _ hm
          unfold num cl at hx2
          rw [← h] at hx2
          have h1 : bb + 2 * N - t - c e + (c e + t) = bb + 2 * N := by omega
          have h2 : (bb + 2 * N - t - c e) % N = (x / m) % N := by
            apply Nat.ModEq.add_right_cancel' (n := N) (c e + t)
            show (bb + 2 * N - t - c e + (c e + t)) % N = (x / m + (c e + t)) % N
            rw [h1, ← Nat.add_assoc, hx2, Nat.add_mul_mod_self_right, Nat.mod_eq_of_lt hbb]
          rw [h2, Nat.mod_eq_of_lt hxd]
        rw [hd, h, Nat.add_comm]
        exact split_line m x
      · intro h
        rw [← h, Nat.add_comm, Nat.add_mul_mod_self_right, Nat.mod_eq_of_lt hce]
    rw [hfil]
    apply Finset.sum_congr rfl
    intro e _
    rw [hq, Nat.add_mod ((t + x / m) % N + x % m), hq, Nat.add_mod_mod]
  · intro e he
    have he := Finset.mem_range.1 he
    have hce := hc e he
    have hlt : (bb + 2 * N - t - c e) % N < N := Nat.mod_lt _ (by omega)
    refine Finset.mem_filter.2 ⟨Finset.mem_range.2 ?_, ?_⟩
    · have h1 : ((bb + 2 * N - t - c e) % N + 1) * m ≤ N * m := Nat.mul_le_mul_right m hlt
      rw [Nat.add_mul, Nat.one_mul] at h1
      rw [Nat.mul_comm m N]
      omega
    · unfold num cl
      rw [Nat.add_comm (_ * m), Nat.add_mul_div_right _ _ hm, Nat.add_mul_mod_self_right, Nat.div_eq_of_lt hce,
        Nat.mod_eq_of_lt hce, Nat.zero_add, Nat.add_assoc, Nat.mod_add_mod]
      have h1 : bb + 2 * N - t - c e + (c e + t) = bb + 2 * N := by omega
      rw [h1, Nat.add_mul_mod_self_right, Nat.mod_eq_of_lt hbb]

theorem part_first {V : Type} [AddCommMonoid V] (N m t n : Nat) (hmN : m ≤ N) (ht : t < N) (hn : n < m)
    (b : Nat → Nat → V) : part N m b t n = b t n := by
  unfold part
  rw [Finset.sum_eq_single_of_mem n]
  · rw [Nat.div_eq_of_lt hn, Nat.mod_eq_of_lt hn, Nat.add_zero, Nat.mod_eq_of_lt ht]
  · exact Finset.mem_filter.2 ⟨Finset.mem_range.2 (by omega), rfl⟩
  · intro x hx hne
    obtain ⟨h1, h2⟩ := Finset.mem_filter.1 hx
    have h1 := Finset.mem_range.1 h1
    rw [cl_small m x (by omega), cl_small m n hn, Nat.mod_eq_of_lt (by omega), Nat.mod_eq_of_lt (by omega)] at h2
    exact absurd h2 hne

/-- Line of the last block. -/
def lLine (N m t n : Nat) : LineD :=
  { frac := num N m t n
    sendto := if (List.range' (n + 1) (m * N - n - 1)).all (fun x => num N m t x != num N m t n) then
      [(-1, (num N m t n : Int))] else [] }

theorem last_cond (N m t n : Nat) (hn : n < m * N) :
    (List.range' (n + 1) (m * N - n - 1)).all (fun x => num N m t x != num N m t n) = true ↔
      ∀ n', n < n' → n' < m * N → cl m n' % N ≠ cl m n % N := by
  rw [List.all_eq_true]
  constructor
  · intro h n' h1 h2 e
    have := h n' (by rw [List.mem_range'_1]; omega)
    rw [bne_iff_ne] at this
    exact this ((num_eq_iff N m t n' n).2 e)
  · intro h x hx
    rw [List.mem_range'_1] at hx
    rw [bne_iff_ne]
    intro e
    exact h x (by omega) (by omega) ((num_eq_iff N m t x n).1 e)

theorem gBlocks_marks (N m t t' : Nat) (ps : List Nat) (G : Nat) :
    (gBlocks N m t G ps).map marks = (gBlocks N m t' G ps).map marks := by
  induction ps generalizing G with
  | nil => rfl
  | cons p ps ih =>
    rw [gBlocks, gBlocks]
    simp only [List.map_cons]
    rw [ih]
    congr 1
    · unfold marks Recursive.mk
      rw [List.map_map, List.map_map]
      apply List.map_congr_left
      intro n _
      unfold gLine
      simp only [Function.comp]
      split <;> rfl
    · congr 1
      unfold marks Recursive.mk
      rw [List.map_map, List.map_map]
      rfl

theorem lLine_marks (N m t t' : Nat) :
    ((Recursive.mk (m * N) (lLine N m t)).map fun l => l.sendto.length == 1) =
      (Recursive.mk (m * N) (lLine N m t')).map fun l => l.sendto.length == 1 := by
  unfold Recursive.mk
  rw [List.map_map, List.map_map]
  apply List.map_congr_left
  intro n hn
  have hn := List.mem_range.1 hn
  have h1 := last_cond N m t n hn
  have h2 := last_cond N m t' n hn
  have e : (List.range' (n + 1) (m * N - n - 1)).all (fun x => num N m t x != num N m t n) =
      (List.range' (n + 1) (m * N - n - 1)).all (fun x => num N m t' x != num N m t' n) := by
    rw [Bool.eq_iff_iff, h1, h2]
  unfold lLine
  simp only [Function.comp]
  rw [e]
  split <;> rfl

/-- The first lines are all used. -/
theorem range_filter_prefix (L : Nat) (U : Nat → Bool) (m : Nat) (h : ∀ n, n < m → U n = true) (hm : m ≤ L) (n : Nat)
    (hn : n < m) : ((List.range L).filter U)[n]? = some n := by
  obtain ⟨d, rfl⟩ := Nat.exists_eq_add_of_le hm
  rw [List.range_add, List.filter_append, List.filter_eq_self.2 (fun x hx => h x (List.mem_range.1 hx)),
    List.getElem?_append_left (by simpa using hn), List.getElem?_range hn]

/-- Lines of a block without the unused ones. -/
theorem comp_get {S L : Nat} {U : Nat → Bool} {g : Nat → LineD} {k : Nat} {l : LineD} (hS : S ≤ L)
    (h : (comp S U g)[k]? = some l) : ∃ n, ((List.range L).filter U)[k]? = some n ∧ n < S ∧ l = g n := by
  unfold comp at h
  rw [List.getElem?_map] at h
  obtain ⟨n, hn, rfl⟩ := Option.map_eq_some_iff.1 h
  refine ⟨n, ?_, List.mem_range.1 (List.mem_filter.1 (List.mem_of_getElem? hn)).1, rfl⟩
  obtain ⟨d, rfl⟩ := Nat.exists_eq_add_of_le hS
  rw [List.range_add, List.filter_append, List.getElem?_append_left (List.getElem?_eq_some_iff.1 hn).1]
  exact hn

theorem cBlocks_line (u : List Bool) (N m t : Nat) (hm : 0 < m) (ht : t < N) (L : Nat) (ps : List Nat) :
    ∀ G, Fits N G ps → m * min (G * (ps.map (· + 1)).prod) N ≤ L → ∀ b, b ∈ cBlocks u N m t G ps →
      ∀ (k : Nat) (l : LineD), b[k]? = some l →
      ∃ n, ((List.range L).filter fun n => u[n]? == some true)[k]? = some n ∧ l.frac = num N m t n ∧
        ∀ e, e ∈ l.sendto ++ l.recvfrom → -1 ≤ e.1 := by
  induction ps with
  | nil => intro _ _ _ b hb; cases hb
  | cons p ps ih =>
    intro G hfit hL b hb k l hl
    have hS := Nat.le_trans (step_le N m G p ps) hL
    rw [cBlocks] at hb
    rcases List.mem_cons.1 hb with rfl | hb
    · obtain ⟨n, h1, hnS, h2⟩ := comp_get hS hl
      refine ⟨n, h1, ?_, fun e he => ?_⟩
      · rw [h2]; rfl
      · rw [h2] at he
        rcases List.mem_append.1 he with he | he
        · obtain ⟨e', he', rfl⟩ := List.mem_map.1 he
          have h3 := (List.mem_filter.1 he').1
          obtain ⟨i, hi, rfl⟩ := List.mem_map.1 h3
          have hi := List.mem_range.1 hi
          have hlt : (i + 1) * G < N := by
            have hnG : n < m * G := by
              by_contra c
              unfold gatherPorts at hi
              rw [if_neg (by omega), if_neg (by omega), if_neg c] at hi
              omega
            have hGN : G < N := by
              by_contra c
              have : m * min (G * (p + 1)) N ≤ m * G :=
                Nat.mul_le_mul_left m (Nat.le_trans (Nat.min_le_right _ _) (by omega))
              unfold gatherPorts at hi
              rw [if_neg (by omega), if_pos (by omega)] at hi
              omega
            have h4 := ((ports_iff N m G p n i (hfit.1 hGN) hnG).1 hi).2
            have h5 : m * min (G * (p + 1)) N ≤ m * N := Nat.mul_le_mul_left m (Nat.min_le_right _ _)
            have e1 : m * ((i + 1) * G) = m * G * (i + 1) := by ring
            exact Nat.lt_of_mul_lt_mul_left (a := m) (by omega)
          have h6 : (0 : Int) ≤ ((N : Int) + t - ((i : Int) + 1) * G).tmod N := by
            apply Int.tmod_nonneg
            have : (((i + 1) * G : Nat) : Int) < N := by exact_mod_cast hlt
            push_cast at this
            omega
          dsimp only
          split
          · dsimp only; omega
          · omega
        · obtain ⟨e', he', rfl⟩ := List.mem_map.1 he
          unfold gKeep gLine at he'
          dsimp only at he'
          split at he'
          · cases he'
          · rw [List.mem_singleton.1 he']
            dsimp only
            omega
    rcases List.mem_cons.1 hb with rfl | hb
    · obtain ⟨n, h1, hnS, h2⟩ := comp_get hS hl
      refine ⟨n, h1, by rw [h2]; rfl, fun e he => ?_⟩
      rw [h2] at he
      cases he
    · refine ih (G * (p + 1)) hfit.2 ?_ b hb k l hl
      rw [List.map_cons, List.prod_cons, ← Nat.mul_assoc] at hL
      exact hL

/-- The schedule of the allreduce with the lines that are used. -/
theorem core_blocks (N : Nat) (hN : 0 < N) (negs ports : List Nat)
    (hne : ports ≠ []) (hcov : N ≤ (ports.map (· + 1)).prod) (hfit : Fits N 1 ports) :
    ∃ u : List Bool, u.length = chunks N negs * N ∧ Closed N (chunks N negs) u 1 ports ∧ LastUsed N (chunks N negs) u (chunks N negs * N) ∧
      (∀ n, n < chunks N negs → u[n]? = some true) ∧
      ∀ t, core N negs ports t = some (firstBlock N t :: (scatterSteps N t (fun line => (line + t) % N) N N negs ++
        (cBlocks u N (chunks N negs) t 1 ports ++
          [comp (chunks N negs * N) (fun n => u[n]? == some true) fun n => renumberLine u (lLine N (chunks N negs) t n)]))) := by
  obtain ⟨m, hmdef⟩ : ∃ m, m = chunks N negs := ⟨_, rfl⟩
  rw [← hmdef]
  have hm : 0 < m := hmdef ▸ chunks_pos N hN negs
  have hmN : m ≤ N := hmdef ▸ chunks_le N hN negs
  obtain ⟨u, hu1, hu2, hu3, hu4⟩ := linesUsed_some (gBlocks N m 0 1 ports) (Recursive.mk (m * N) (lLine N m 0))
  have hlen : u.length = m * N := by rw [hu2]; simp [Recursive.mk]
  have hmin : m * min (1 * (ports.map (· + 1)).prod) N = m * N := by
    rw [Nat.one_mul, Nat.min_eq_right hcov]
  have hclosed : Closed N m u 1 ports :=
    closed_of_fixed N m 0 u hm _ hu3 ports 1 (by omega) fun _ h => h
  have hlu : LastUsed N m u (m * N) := by
    intro n hn h
    apply hu4 n (lLine N m 0 n)
    · unfold Recursive.mk
      rw [List.getElem?_map, List.getElem?_range hn]; rfl
    · unfold lLine
      simp only
      rw [if_pos ((last_cond N m 0 n hn).2 h)]
      rfl
  have hfirst : ∀ n, n < m → u[n]? = some true :=
    first_used N m u hN hmN (lastUsed_back N m u hm ports 1 (by omega) hclosed (by rw [hmin]; exact hlu))
  obtain ⟨U, hU⟩ : ∃ U : Nat → Bool, U = fun n => u[n]? == some true := ⟨_, rfl⟩
  have hsched : ∀ t, core N negs ports t = some (firstBlock N t :: (scatterSteps N t (fun line => (line + t) % N) N N negs ++
      (cBlocks u N m t 1 ports ++ [comp (m * N) U fun n => renumberLine u (lLine N m t n)]))) := by
    intro t
    have hfr : ∀ n, n < m * 1 → (n + t) % N = num N m t n := by
      intro n hn
      unfold num
      rw [cl_small m n (by omega)]
    have hnum : (gatherSteps N m t 1 (fun line => (line + t) % N) ports).2 = num N m t := by
      cases ports with
      | nil => exact absurd rfl hne
      | cons p ps => exact gatherSteps_num N m t hm p ps 1 (by omega) _ hfr
    have hblk := (gatherSteps_eq N m t hm ports 1 (by omega) (fun line => (line + t) % N) hfr).1
    have hl : lastBlock (m * N) (num N m t) = Recursive.mk (m * N) (lLine N m t) := rfl
    obtain ⟨bs, h1, h2⟩ := mapM_map_eq _ (dropLines u) _ _ (clean_blocks u N m t ports 1 hfit (by rw [hmin, hlen]))
    have hdel : deleteLines (gBlocks N m t 1 ports) (Recursive.mk (m * N) (lLine N m t)) =
        some (cBlocks u N m t 1 ports ++ [comp (m * N) U fun n => renumberLine u (lLine N m t n)]) := by
      unfold deleteLines
      rw [linesUsed_congr _ (gBlocks N m 0 1 ports) _ (Recursive.mk (m * N) (lLine N m 0))
        (gBlocks_marks N m t 0 ports 1) (lLine_marks N m t 0), hu1]
      simp only [Option.bind_eq_bind, Option.bind_some]
      rw [h1]
      simp only [Option.bind_some, List.map_append, h2, List.map_cons, List.map_nil, dropLines_mk]
      rw [hU]
      rfl
    unfold core
    cases ports with
    | nil => exact absurd rfl hne
    | cons p ps =>
      simp only [List.isEmpty_cons, Bool.false_eq_true, if_false, ← hmdef]
      rw [Nat.min_eq_right hcov, hblk, hnum, hl, hdel]
      rfl
  exact ⟨u, hlen, hclosed, hlu, hfirst, fun t => by rw [hsched t, hU]⟩

/-- The schedule of the allreduce: after the reduction steps the blocks `tl`. `used` are the numbers of the used lines
in these blocks, which `u` marks. -/
theorem allreduce_parts_used (N : Nat) (hN : 0 < N) (negs ports : List Nat)
    (hne : ports ≠ []) (hp : ∀ p, p ∈ ports → 0 < p) (hcov : N ≤ (ports.map (· + 1)).prod) (hfit : Fits N 1 ports) :
    ∃ (tl : Nat → List Block) (last : Nat → Block) (used : List Nat),
      (∀ t, core N negs ports t =
        some (firstBlock N t :: (scatterSteps N t (fun line => (line + t) % N) N N negs ++ tl t))) ∧
      (∀ t, (tl t).getLast? = some (last t)) ∧
      (∀ n, n < chunks N negs → used[n]? = some n) ∧
      (∀ t b, t < N → b ∈ tl t → ∀ (k : Nat) (l : LineD), b[k]? = some l →
        ∃ n, used[k]? = some n ∧ l.frac = num N (chunks N negs) t n ∧ ∀ e, e ∈ l.sendto ++ l.recvfrom → -1 ≤ e.1) ∧
      (∃ u : List Bool, ∀ t, tl t = cBlocks u N (chunks N negs) t 1 ports ++
        [comp (chunks N negs * N) (fun n => u[n]? == some true) fun n => renumberLine u (lLine N (chunks N negs) t n)]) ∧
      ∀ {V : Type} [AddCommMonoid V] (c : Nat → Nat) (inp s : Nat → Nat → V), (∀ e, e < N → c e < chunks N negs) →
        (∀ t n, t < N → n < chunks N negs → s t n = collect N c inp t n) →
        ∃ s', Run N tl s s' ∧ ∀ t bb, t < N → bb < N →
          copyOut (last t) (s' t) bb = some (∑ x ∈ Finset.range N, inp x bb) := by
  obtain ⟨u, hlen, hclosed, hlu, hfirst, hsched⟩ := core_blocks N hN negs ports hne hcov hfit
  obtain ⟨m, hmdef⟩ : ∃ m, m = chunks N negs := ⟨_, rfl⟩
  rw [← hmdef] at hlen hclosed hlu hfirst ⊢
  simp only [← hmdef] at hsched
  have hm : 0 < m := hmdef ▸ chunks_pos N hN negs
  have hmN : m ≤ N := hmdef ▸ chunks_le N hN negs
  have hmin : m * min (1 * (ports.map (· + 1)).prod) N = m * N := by
    rw [Nat.one_mul, Nat.min_eq_right hcov]
  obtain ⟨U, hU⟩ : ∃ U : Nat → Bool, U = fun n => u[n]? == some true := ⟨_, rfl⟩
  have hUiff : ∀ n, U n = true ↔ u[n]? = some true := by intro n; rw [hU]; simp
  rw [← hU] at hsched
  refine ⟨fun t => cBlocks u N m t 1 ports ++ [comp (m * N) U fun n => renumberLine u (lLine N m t n)],
    fun t => comp (m * N) U fun n => renumberLine u (lLine N m t n), (List.range (m * N)).filter U, hsched,
    fun t => by simp, ?_, ?_, ⟨u, fun t => by rw [hU]⟩, ?_⟩
  · intro n hn
    exact range_filter_prefix (m * N) U m (fun x hx => (hUiff x).2 (hfirst x hx))
      (Nat.le_mul_of_pos_right m hN) n hn
  · intro t b ht hb k l hl
    rcases List.mem_append.1 hb with hb | hb
    · rw [hU]
      exact cBlocks_line u N m t hm ht (m * N) ports 1 hfit (by rw [hmin]) b hb k l hl
    · rw [List.mem_singleton.1 hb] at hl
      obtain ⟨n, h1, hnS, h2⟩ := comp_get (Nat.le_refl _) hl
      refine ⟨n, h1, by rw [h2]; rfl, fun e he => ?_⟩
      rw [h2] at he
      rcases List.mem_append.1 he with he | he
      · unfold renumberLine lLine at he
        simp only at he
        split at he
        · rw [List.map_singleton, List.mem_singleton] at he
          rw [he]; simp
        · cases he
      · cases he
  intro V _ c inp s h2 h3
  obtain ⟨s', h4, h5⟩ := gather_phase u N m hm (collect N c inp) ports 1 (by omega) hp hfit (by rw [hmin, hlen]) hclosed s (by
    intro t n ht hn hun
    rw [Nat.min_eq_left (by omega), Nat.mul_one] at hn
    rw [pos_self _ m n (fun x hx => by simpa using hfirst x hx) (by omega), h3 t n ht hn, part_first N m t n hmN ht hn])
  rw [hmin, ← hU] at h5
  have h6 : ∀ t, t < N → nodeStep N (fun t => comp (m * N) U fun n => renumberLine u (lLine N m t n)) s' t = some (s' t) := by
    intro t ht
    rw [local_step N (fun t => comp (m * N) U fun n => renumberLine u (lLine N m t n)) s' t ht]
    · congr 1
      unfold reduceAll
      rw [zipIdx_comp, List.foldl_map]
      have : ∀ l : List Nat, ∀ v : Nat → V, l.foldl (fun v n => List.foldl
          (fun v r => upd v (pos U n) (v (pos U n) + v r)) v (renumberLine u (lLine N m t n)).reducefrom) v = v := by
        intro l
        induction l with
        | nil => intro _; rfl
        | cons x xs ih => exact fun v => ih v
      exact this _ (s' t)
    · intro t _ l hl
      obtain ⟨n, _, _, rfl⟩ := mem_comp hl
      rfl
    · intro t _ l hl e he
      obtain ⟨n, _, _, rfl⟩ := mem_comp hl
      unfold renumberLine lLine at he
      simp only at he
      split at he
      · rw [List.map_singleton, List.mem_singleton] at he
        rw [he]
        exact Int.negSucc_lt_zero 0
      · cases he
    · intro l hl
      obtain ⟨n, _, _, rfl⟩ := mem_comp hl
      rfl
    · apply reduceOk_nil
      intro l hl
      obtain ⟨n, _, _, rfl⟩ := mem_comp hl
      exact ⟨rfl, rfl⟩
  refine ⟨s', Recursive.Run.append h4 (Recursive.Run.single h6), ?_⟩
  intro t bb ht hbb
  -- a line with this number
  obtain ⟨x, hxdef⟩ : ∃ x, x = (bb + N - t) % N * m := ⟨_, rfl⟩
  have hxN : x < m * N := by
    rw [hxdef, Nat.mul_comm m N]
    exact Nat.mul_lt_mul_of_pos_right (Nat.mod_lt _ hN) hm
  have hx : num N m t x = bb := by
    unfold num cl
    rw [hxdef, Nat.mul_div_cancel _ hm, Nat.mul_mod_left, Nat.add_zero, Nat.mod_add_mod]
    have : bb + N - t + t = bb + N := by omega
    rw [this, Nat.add_mod_right, Nat.mod_eq_of_lt hbb]
  obtain ⟨n, _, n2, n3, n4⟩ := exists_last (fun n => num N m t n = bb) (m * N) x hxN hx
  have hlast : ∀ n', n < n' → n' < m * N → cl m n' % N ≠ cl m n % N := by
    intro n' a b e
    exact n4 n' a b (by rw [(num_eq_iff N m t n' n).2 e]; exact n3)
  have hused := hlu n n2 hlast
  have hsend : ∀ n, n < m * N → (((renumberLine u (lLine N m t n)).sendto.any fun e => e.1 == -1) = true ↔
      ∀ n', n < n' → n' < m * N → cl m n' % N ≠ cl m n % N) := by
    intro n hn
    rw [← last_cond N m t n hn]
    unfold renumberLine lLine
    simp only
    by_cases c : (List.range' (n + 1) (m * N - n - 1)).all (fun x => num N m t x != num N m t n) = true
    · rw [if_pos c]
      simp [c]
    · rw [if_neg c]
      simp [c]
  dsimp only
  rw [copyOut_comp (m * N) U _ (s' t) n bb n2 ((hUiff n).2 hused) ((hsend n n2).2 hlast) n3]
  · rw [h5 t n ht n2 hused, sum_all N m t bb n hm ht hbb hmN c h2 inp n2 n3 hlast]
  · intro n' a _ b e
    have hl' := (hsend n' a).1 b
    have e : num N m t n' = bb := e
    have ec : cl m n' % N = cl m n % N := (num_eq_iff N m t n' n).1 (by rw [e, n3])
    rcases Nat.lt_trichotomy n n' with h | h | h
    · exact absurd ec (hlast n' h a)
    · exact h.symm
    · exact absurd ec.symm (hl' n h n2)

/-- The schedule of the allreduce: after the reduction steps the blocks `tl`. `used` are the numbers of the used lines
in these blocks. -/
theorem allreduce_parts (N : Nat) (hN : 0 < N) (negs ports : List Nat)
    (hne : ports ≠ []) (hp : ∀ p, p ∈ ports → 0 < p) (hcov : N ≤ (ports.map (· + 1)).prod) (hfit : Fits N 1 ports) :
    ∃ (tl : Nat → List Block) (last : Nat → Block) (used : List Nat),
      (∀ t, core N negs ports t =
        some (firstBlock N t :: (scatterSteps N t (fun line => (line + t) % N) N N negs ++ tl t))) ∧
      (∀ t, (tl t).getLast? = some (last t)) ∧
      (∀ n, n < chunks N negs → used[n]? = some n) ∧
      (∀ t b, t < N → b ∈ tl t → ∀ (k : Nat) (l : LineD), b[k]? = some l →
        ∃ n, used[k]? = some n ∧ l.frac = num N (chunks N negs) t n ∧ ∀ e, e ∈ l.sendto ++ l.recvfrom → -1 ≤ e.1) ∧
      ∀ {V : Type} [AddCommMonoid V] (c : Nat → Nat) (inp s : Nat → Nat → V), (∀ e, e < N → c e < chunks N negs) →
        (∀ t n, t < N → n < chunks N negs → s t n = collect N c inp t n) →
        ∃ s', Run N tl s s' ∧ ∀ t bb, t < N → bb < N →
          copyOut (last t) (s' t) bb = some (∑ x ∈ Finset.range N, inp x bb) := by
  obtain ⟨tl, last, used, h1, h2, h3, h4, _, h5⟩ := allreduce_parts_used N hN negs ports hne hp hcov hfit
  exact ⟨tl, last, used, h1, h2, h3, h4, h5⟩

theorem allreduce_exec {V : Type} [AddCommMonoid V] (N : Nat) (hN : 0 < N) (negs ports : List Nat)
    (hne : ports ≠ []) (hp : ∀ p, p ∈ ports → 0 < p) (hcov : N ≤ (ports.map (· + 1)).prod) (hfit : Fits N 1 ports) :
    ∃ sched : Nat → List Block, (∀ t, core N negs ports t = some (sched t)) ∧ ∀ inp junk : Nat → Nat → V,
      ∃ out, Exec N copyOut sched inp junk out ∧ AllreducePost N inp out := by
  obtain ⟨tl, last, _, h1, h2, _, _, h5⟩ := allreduce_parts N hN negs ports hne hp hcov hfit
  refine ⟨_, h1, fun inp junk => ?_⟩
  obtain ⟨s, c, g1, g2, g3⟩ := scatter_run N hN negs inp junk
  obtain ⟨s', k1, k2⟩ := h5 c inp s g2 g3
  refine ⟨fun t => copyOut (last t) (s' t), ⟨fun t => firstBlock N t,
    fun t => scatterSteps N t (fun line => (line + t) % N) N N negs ++ tl t, last, s',
    fun t _ => ⟨rfl, ?_⟩, Recursive.Run.append g1 k1, fun _ _ => rfl⟩, k2⟩
  rw [List.getLast?_append, h2 t]; rfl

/-- C51 for port counts that do not overshoot (`Fits`): every node gets the sum of all contributions to
every block, for every number of nodes and every list of reduction ports. For other port lists the
generator may read outside of an array (`allreduce_overshoot`). -/
theorem allreduce_correct_partial {V : Type} [AddCommMonoid V] (N : Nat) (hN : 0 < N) (negs ports : List Nat)
    (hne : ports ≠ []) (hp : ∀ p, p ∈ ports → 0 < p) (hcov : N ≤ (ports.map (· + 1)).prod)
    (hfit : Fits N 1 ports) :
    ∃ sched : Nat → List Block, (∀ t, core N negs ports t = some (sched t)) ∧
      Computes (V := V) N copyOut sched (AllreducePost N) := by
  obtain ⟨sched, h1, h2⟩ := allreduce_exec (V := V) N hN negs ports hne hp hcov hfit
  refine ⟨sched, h1, Computes.of ?_ h2⟩
  intro inp out out' h hpost t b ht hb
  rw [← h t ht]; exact hpost t b ht hb

example : ∃ sched : Nat → List Block, (∀ t, core 7 [1] [2, 2] t = some (sched t)) ∧
    Computes (V := Nat) 7 copyOut sched (AllreducePost 7) :=
  allreduce_correct_partial 7 (by decide) [1] [2, 2] (by decide) (by decide) (by decide)
    (by simp [Fits])

theorem fits_exact (N : Nat) (ports : List Nat) (G : Nat) (h : G * (ports.map (· + 1)).prod = N) :
    Fits N G ports := by
  induction ports generalizing G with
  | nil => trivial
  | cons p ps ih =>
    rw [List.map_cons, List.prod_cons, ← Nat.mul_assoc] at h
    refine ⟨fun _ => .inr ?_, ih _ h⟩
    have h1 : G * (p + 1) ≤ G * (p + 1) * (ps.map (· + 1)).prod :=
      Nat.le_mul_of_pos_right _ (Recursive.factor_pos ps)
    have h2 : G * (p + 1) = G * p + G := by ring
    omega

/-- C51 when the number of nodes is the product of the factors, whatever the ports. -/
theorem allreduce_exact {V : Type} [AddCommMonoid V] (negs ports : List Nat)
    (hne : ports ≠ []) (hp : ∀ p, p ∈ ports → 0 < p) :
    ∃ sched : Nat → List Block, (∀ t, core (ports.map (· + 1)).prod negs ports t = some (sched t)) ∧
      Computes (V := V) (ports.map (· + 1)).prod copyOut sched (AllreducePost (ports.map (· + 1)).prod) :=
  allreduce_correct_partial _ (Recursive.factor_pos ports) negs ports hne hp (Nat.le_refl _)
    (fits_exact _ ports 1 (Nat.one_mul _))

example : ∃ sched : Nat → List Block, (∀ t, core 20 [2] [3, 4] t = some (sched t)) ∧
    Computes (V := Nat) 20 copyOut sched (AllreducePost 20) :=
  allreduce_exact [2] [3, 4] (by decide) (by decide)

theorem fits_small (N : Nat) (ports : List Nat) (G : Nat) (h : ∀ p, p ∈ ports → p ≤ 2) : Fits N G ports := by
  induction ports generalizing G with
  | nil => trivial
  | cons p ps ih => exact ⟨fun _ => .inl (h p List.mem_cons_self), ih _ fun q hq => h q (List.mem_cons_of_mem _ hq)⟩

/-- C51 with at most two ports, for every number of nodes. -/
theorem allreduce_few_ports {V : Type} [AddCommMonoid V] (N : Nat) (hN : 0 < N) (negs ports : List Nat)
    (hne : ports ≠ []) (hp : ∀ p, p ∈ ports → 0 < p ∧ p ≤ 2) (hcov : N ≤ (ports.map (· + 1)).prod) :
    ∃ sched : Nat → List Block, (∀ t, core N negs ports t = some (sched t)) ∧
      Computes (V := V) N copyOut sched (AllreducePost N) :=
  allreduce_correct_partial N hN negs ports hne (fun p h => (hp p h).1) hcov
    (fits_small N ports 1 fun p h => (hp p h).2)

example : ∃ sched : Nat → List Block, (∀ t, core 11 [] [1, 2, 1] t = some (sched t)) ∧
    Computes (V := Nat) 11 copyOut sched (AllreducePost 11) :=
  allreduce_few_ports 11 (by decide) [] [1, 2, 1] (by decide) (by decide) (by decide)

/-- C51 is violated when the ports overshoot: the clean-up reads outside of `lines_used`. -/
theorem allreduce_overshoot : core 2 [] [3] 0 = none ∧ core 4 [] [1, 3] 0 = none ∧ core 5 [1] [1, 3] 0 = none := by
  decide +kernel

/-- C14 for these schedules: sent and received lines match in every step. -/
theorem reduceScatter_matched (N : Nat) (hN : 0 < N) (negs : List Nat) (hcov : N ≤ (negs.map (· + 1)).prod)
    (sched : Nat → List Block) (h : ∀ t, core N negs [] t = some (sched t)) :
    Matched N fun t => (sched t).tail := by
  obtain ⟨sched', h1, h2⟩ := reduceScatter_correct (V := Nat) N hN negs hcov
  obtain ⟨out, ho⟩ := (h2 (fun _ _ => 0) fun _ _ => 0).1
  have : sched = sched' := funext fun t => Option.some.inj ((h t).symm.trans (h1 t))
  rw [this]
  exact ho.matched

theorem allreduce_matched_partial (N : Nat) (hN : 0 < N) (negs ports : List Nat)
    (hne : ports ≠ []) (hp : ∀ p, p ∈ ports → 0 < p) (hcov : N ≤ (ports.map (· + 1)).prod)
    (hfit : Fits N 1 ports) (sched : Nat → List Block) (h : ∀ t, core N negs ports t = some (sched t)) :
    Matched N fun t => (sched t).tail := by
  obtain ⟨sched', h1, h2⟩ := allreduce_correct_partial (V := Nat) N hN negs ports hne hp hcov hfit
  obtain ⟨out, ho⟩ := (h2 (fun _ _ => 0) fun _ _ => 0).1
  have : sched = sched' := funext fun t => Option.some.inj ((h t).symm.trans (h1 t))
  rw [this]
  exact ho.matched

example (sched : Nat → List Block) (h : ∀ t, core 7 [2] [2, 2] t = some (sched t)) :
    Matched 7 fun t => (sched t).tail :=
  allreduce_matched_partial 7 (by decide) [2] [2, 2] (by decide) (by decide) (by decide)
    (fits_small 7 [2, 2] 1 (by decide)) sched h

end ExtMpi.CyclicReduce
