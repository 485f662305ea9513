import Verif.Lemmas.OptimiseGather
/-! # The optimised programs for one process per node -/
namespace ExtMpi.Optimise
open RawCode Schedule

/-! ## Schedules -/

theorem allreduce_good (negs mids gs : List Nat) (hn : ∀ p, p ∈ negs → 0 < p) (hm : ∀ p, p ∈ mids → 0 < p)
    (hbal : Recursive.factor negs = Recursive.factor gs) :
    AllGood (Recursive.factor (mids ++ gs)) (fun _ _ => True) NotInput fun t => (Recursive.allreduce negs (mids ++ gs) t).tail := by
  obtain ⟨lb, hlb⟩ : ∃ lb, lb = Recursive.factor (mids ++ gs) := ⟨_, rfl⟩
  obtain ⟨M, hM⟩ : ∃ M, M = Recursive.factor mids := ⟨_, rfl⟩
  have hMpos : 0 < M := by rw [hM]; exact Recursive.factor_pos _
  have hlbM : lb = M * Recursive.factor negs := by rw [hlb, Recursive.factor_append, hM, hbal]
  have hMl : M ∣ lb := ⟨_, hlbM⟩
  have hmid : Recursive.middleSize lb negs = M := by rw [hlbM]; exact Recursive.middleSize_eq negs M
  have hsteps : ∀ t, Recursive.middleSteps lb M t negs.isEmpty 1 (mids ++ gs) =
      (Recursive.midList lb M t negs.isEmpty 1 mids, M, gs) := fun t =>
    Recursive.middleSteps_eq lb M t mids gs hm negs.isEmpty 1 (by omega) (by rw [hM]; simp)
  have hsched : ∀ t, (Recursive.allreduce negs (mids ++ gs) t).tail =
      (Recursive.reduceSteps lb t true lb negs ++ Recursive.midList lb M t negs.isEmpty 1 mids ++
        Recursive.gatherSteps2 lb t M gs ++ [Recursive.allreduceLast lb]) := by
    intro t
    unfold Recursive.allreduce
    simp only [← hlb, hmid, hsteps, List.tail_cons]
  rw [← hlb]
  simp only [hsched]
  have h1 := allGood_reduce lb M hMpos (fun _ _ => True) (fun _ _ _ _ _ _ => trivial) (fun _ _ _ _ _ => trivial) negs hn true lb
    hlbM (Nat.dvd_refl lb)
  have h2 := allGood_middle lb M hMpos hMl (fun _ _ => True) (fun _ _ => trivial) mids hm negs.isEmpty 1 (by omega)
    (by rw [hM]; simp)
  have h3 := allGood_gather lb 1 (2 * lb)
    (fun g p t x => { frac := x % lb
                      sendto := if x / lb = 1 then Recursive.gatherSend g (g * (p + 1)) p t (x % lb) else []
                      recvfrom := if x / lb = 1 then Recursive.gatherRecv g (g * (p + 1)) t (x % lb) else [] })
    (fun g p hg hd => by rw [Nat.one_mul]; exact Recursive.gatherLike2 lb g p hg hd)
    (fun g p t _ => shape_gatherSteps2 lb t [p] g _ List.mem_cons_self) (fun t g ps => Recursive.gatherSteps2 lb t g ps)
    (fun t g => rfl) (fun t g p ps => rfl) (fun _ _ => True) NotInput (fun _ _ _ _ => trivial) (by unfold NotInput; omega) gs M hMpos
    (by rw [← hbal, ← hlbM])
  have hlast : Shape lb (Recursive.allreduceLast lb) := by
    have := shape_allreduce negs (mids ++ gs) 0 (Recursive.allreduceLast lb) (List.mem_of_mem_tail (by
      rw [hsched 0]; exact List.mem_append_right _ (List.mem_singleton.2 rfl)))
    rwa [← hlb] at this
  have h4 := good_idle lb (2 * lb) (fun _ x =>
        { frac := x % lb, sendto := if x ≥ lb then [(-1, ((x % lb : Nat) : Int))] else [] })
      (fun t x e he => by
        by_cases c : x ≥ lb
        · simp only [c, if_true, List.mem_singleton] at he
          rw [he]; exact Int.negSucc_lt_zero 0
        · simp only [c, if_false] at he; cases he)
      (fun _ _ => rfl) (fun _ _ => rfl) (fun _ _ => rfl) (fun t _ => hlast) (fun _ _ => True) NotInput 1
      (by unfold NotInput; omega)
  exact ((h1.append h2).append h3).append (.single h4)

theorem reduceScatter_good (ports : List Nat) (hp : ∀ p, p ∈ ports → 0 < p) :
    AllGood (Recursive.factor ports) (fun t n => n / Recursive.factor ports = 1 → n % Recursive.factor ports = t) NotInput
      fun t => (Recursive.reduceScatter ports t).tail := by
  obtain ⟨lb, hlb⟩ : ∃ lb, lb = Recursive.factor ports := ⟨_, rfl⟩
  rw [← hlb]
  have h1 := allGood_reduce lb 1 (by omega) (fun t n => n / lb = 1 → n % lb = t)
    (fun t r x _ hx hr h => absurd (by rw [Nat.mul_comm, Nat.mul_add_div (by omega), Nat.div_eq_of_lt hx] at h; exact h) hr)
    (fun t x ht h1 h2 _ => by
      rw [Nat.mul_comm, Nat.mul_add_mod, Nat.div_one, Nat.mul_one] at *
      have : x = t := by omega
      rw [this, Nat.mod_eq_of_lt ht]) ports hp true lb (by rw [hlb]; simp) (Nat.dvd_refl lb)
  have h2 := good_idle lb (2 * lb) (fun t x => if x < lb then { frac := x }
    else { frac := x - lb, sendto := if x - lb = t then [(-1, ((x - lb : Nat) : Int))] else [] })
      (fun t x e he => by
        split_ifs at he
        · cases he
        · rw [List.mem_singleton.1 he]; exact Int.negSucc_lt_zero 0
        · cases he)
      (fun _ _ => by split <;> rfl) (fun _ _ => by split <;> rfl) (fun _ _ => by split <;> rfl)
      (fun t _ => shape_scatterLast lb t) (fun t n => n / lb = 1 → n % lb = t) NotInput 1 (by unfold NotInput; omega)
  have h3 := h1.append (.single h2)
  unfold Recursive.reduceScatter
  rw [← hlb]
  exact h3

theorem AllGood.congr {N : Nat} {Dl : Nat → Nat → Prop} {W : Nat → Prop} {p p' : Nat → List Block} (h : AllGood N Dl W p)
    (e : ∀ t, t < N → p' t = p t) : AllGood N Dl W p' := by
  cases h with
  | nil hp => exact .nil fun t ht => by rw [e t ht, hp t ht]
  | cons hd tl m0 n0 len dr hp hg ha => exact .cons hd tl m0 n0 len dr (fun t ht => by rw [e t ht, hp t ht]) hg ha

theorem allreduceLast_out {V : Type} (lb b : Nat) (hb : b < lb) (v : Nat → V) :
    copyOut (Recursive.allreduceLast lb) v b = some (v (lb + b)) := by
  apply Recursive.copyOut_mk (2 * lb) _ _ (lb + b) b (by omega)
  · rw [if_pos (by omega)]; simp
  · show (lb + b) % lb = b
    rw [Nat.add_mod_left, Nat.mod_eq_of_lt hb]
  · intro m hm hs hf
    have hf : m % lb = b := hf
    by_cases c : m ≥ lb
    · rw [Recursive.mod_one lb m c (by omega)] at hf; omega
    · rw [if_neg c] at hs; cases hs

theorem scatterLast_out {V : Type} (lb t : Nat) (ht : t < lb) (v : Nat → V) :
    copyOutFirst (Recursive.scatterLast lb t) v = some (v (lb + t)) := by
  apply Recursive.copyOutFirst_mk (2 * lb) _ _ (lb + t) (by omega)
  · rw [if_neg (by omega)]
    simp
  · intro m hm
    by_cases c : m < lb
    · rw [if_pos c]
    · rw [if_neg c, if_neg (by omega)]

theorem correct_imp {X : Type} [Add X] {N : Nat} {prog : Nat → List Instr} {m : Nat → Mem X} {P Q : (Nat → Mem X) → Prop}
    (h : Correct N prog m P) (hi : ∀ mem, P mem → Q mem) : Correct N prog m Q := by
  obtain ⟨bound, hb⟩ := h
  refine ⟨bound, fun k s hks => ?_⟩
  obtain ⟨hk, hs, h⟩ := hb k s hks
  exact ⟨hk, hs, h.imp (fun ⟨hF, hP⟩ => ⟨hF, hi _ hP⟩) id⟩

/-! ## End to end -/

/-- C61: the allreduce programs of the recursive algorithm after all passes, which work in the buffers of the user. -/
theorem allreduce_direct {X : Type} [AddCommMonoid X] (C : Nat) (hC : 0 < C) (negs mids gs : List Nat) (hne : mids ++ gs ≠ [])
    (hn : ∀ p, p ∈ negs → 0 < p) (hm : ∀ p, p ∈ mids → 0 < p) (hg : ∀ p, p ∈ gs → 0 < p)
    (hbal : (negs.map fun p => p + 1).prod = (gs.map fun p => p + 1).prod) (sz : Nat → Nat) (m : Nat → Mem X) :
    ∃ (sched : Nat → List Block) (prog : Nat → List Instr),
      (∀ t, Recursive.generate false ((negs.map fun p : Nat => -(p : Int)) ++
        ((mids ++ gs).map fun p : Nat => (p : Int))) t = some (sched t)) ∧
      (∀ t, t < ((mids ++ gs).map fun p => p + 1).prod →
        userProgram C ((mids ++ gs).map fun p => p + 1).prod sz .allreduce
          (bigRecvbuf ((negs.map fun p : Nat => -(p : Int)) ++ ((mids ++ gs).map fun p : Nat => (p : Int)))) (sched t) t =
            some (prog t)) ∧
      Correct ((mids ++ gs).map fun p => p + 1).prod prog m fun mem =>
        AllreduceMem ((mids ++ gs).map fun p => p + 1).prod
          (∑ k ∈ Finset.range ((mids ++ gs).map fun p => p + 1).prod, sz k) m mem := by
  have hbig : bigRecvbuf ((negs.map fun p : Nat => -(p : Int)) ++ ((mids ++ gs).map fun p : Nat => (p : Int))) = true := by
    obtain ⟨l, hl⟩ : ∃ l, (mids ++ gs).getLast? = some l := ⟨_, List.getLast?_eq_some_getLast hne⟩
    unfold bigRecvbuf
    rw [List.getLast?_append, List.getLast?_map, hl]
    have : 0 < l := by
      rcases List.mem_append.1 (List.mem_of_getLast? hl) with h | h
      · exact hm l h
      · exact hg l h
    show decide ((0 : Int) < (l : Int)) = true
    exact decide_eq_true (by omega)
  rw [hbig]
  have hgood := allreduce_good negs mids gs hn hm hbal
  obtain ⟨N, hNe⟩ : ∃ N, N = Recursive.factor (mids ++ gs) := ⟨_, rfl⟩
  have hN' : ((mids ++ gs).map fun p => p + 1).prod = N := hNe.symm
  rw [hN']
  have hpos : 0 < N := by rw [hNe]; exact Recursive.factor_pos _
  obtain ⟨out, hE, hpost⟩ := Recursive.allreduce_exec (V := Nat → X) negs mids gs hne hn hm hg hbal
    (fun t g i => m t .send (lo sz g + i)) (fun t n i =>
      m t (rowsAt (lo sz N) 0 (n / N) (lo sz (n % N) + i)).reg (rowsAt (lo sz N) 0 (n / N) (lo sz (n % N) + i)).off)
  rw [← hNe] at hE hpost hgood
  have hshape : ∀ t b, b ∈ Recursive.allreduce negs (mids ++ gs) t → Shape N b := by
    rw [hNe]; exact shape_allreduce negs (mids ++ gs)
  obtain ⟨b0, bs, last, s', hs, hrun, hout⟩ := hE
  have hmem : ∀ t, t < N → last t ∈ Recursive.allreduce negs (mids ++ gs) t := fun t ht => by
    rw [(hs t ht).1]; exact List.mem_cons_of_mem _ (List.mem_of_getLast? (hs t ht).2)
  have hb0 : ∀ t, t < N → b0 t = Recursive.reduceFirst N := fun t ht => by
    have h1 := (hs t ht).1
    unfold Recursive.allreduce at h1
    rw [hNe]
    exact (List.cons.inj h1).1.symm
  have hlast : ∀ t, t < N → last t = Recursive.allreduceLast N := fun t ht => by
    have h1 := (hs t ht).2
    have h2 : bs t = (Recursive.allreduce negs (mids ++ gs) t).tail := by rw [(hs t ht).1]; rfl
    rw [h2] at h1
    unfold Recursive.allreduce at h1
    dsimp only at h1
    rw [List.tail_cons, List.getLast?_concat] at h1
    rw [hNe]
    exact (Option.some.inj h1).symm
  obtain ⟨prog, h1, h2⟩ := user_assemble C N hC hpos sz .allreduce true (Recursive.allreduce negs (mids ++ gs)) m b0 last bs hs
    (fun t ht b hb => (hshape t b (by rw [(hs t ht).1]; exact List.mem_cons_of_mem _ hb)).plain)
    (fun t ht => (hshape t (b0 t) (by rw [(hs t ht).1]; exact List.mem_cons_self)).frac hpos)
    (fun t ht => (hshape t (last t) (hmem t ht)).frac hpos) (fun _ => rowsAt (lo sz N) 0)
    (fun t _ => rowsAt_place N sz _ 0 fun _ _ => Nat.zero_le _)
    (fun t _ => rowsAt_maps N sz _ 0 true fun _ _ _ _ => rfl)
    (hgood.congr fun t ht => by rw [(hs t ht).1]; rfl) hrun
    (fun t ht => by rw [hb0 t ht]; exact rowsAt_initial N sz _ 0 (m t))
  refine ⟨_, prog, Recursive.generate_allreduce negs mids gs hne hn hm hg, h1, correct_imp h2 fun mem hP t ht => ?_⟩
  obtain ⟨p1, p2⟩ := hP t ht
  refine ⟨fun e he => ?_, fun e he => ?_, ?_⟩
  · rw [← lo_eq_sum] at he
    obtain ⟨g, i, hg', hi, rfl⟩ := exists_piece sz N e he
    have h3 := hpost t g ht hg'
    rw [hout t ht, hlast t ht, allreduceLast_out N g hg'] at h3
    have h4 := congrFun (Option.some.inj h3) i
    rw [Finset.sum_apply] at h4
    have h5 : (N + g) / N = 1 ∧ (N + g) % N = g := by
      rw [Nat.add_div_left _ hpos, Nat.div_eq_of_lt hg', Nat.add_mod_left, Nat.mod_eq_of_lt hg']; exact ⟨rfl, rfl⟩
    have h6 := p1 (N + g) i trivial (by rw [h5.2]; exact hi)
    rw [h5.1, h5.2] at h6
    exact h6.trans h4
  · rw [← lo_eq_sum] at he
    refine p2 .recv e fun row x hc hw h => ?_
    have := cells_le hc
    unfold rowsAt at h
    split at h
    · cases h
    · split at h
      · injection h with _ h
        omega
      · cases h
  · funext e
    refine p2 .send e fun row x hc hw h => ?_
    unfold rowsAt at h
    rw [if_neg hw] at h
    split at h <;> cases h

/-- 24 nodes, a reduction step, a middle step and a gather step; pieces of different sizes, some empty. -/
example (m : Nat → Mem Nat) : ∃ (sched : Nat → List Block) (prog : Nat → List Instr),
    (∀ t, Recursive.generate false [-5, 3, 5] t = some (sched t)) ∧
    (∀ t, t < 24 → userProgram 64 24 (fun k => k % 3) .allreduce true (sched t) t = some (prog t)) ∧
    Correct 24 prog m fun mem => AllreduceMem 24 (∑ k ∈ Finset.range 24, k % 3) m mem :=
  allreduce_direct 64 (by decide) [5] [3] [5] (by decide) (by decide) (by decide) (by decide) (by decide) _ m

/-- C62: the reduce_scatter programs of the recursive algorithm after all passes. -/
theorem reduceScatter_direct {X : Type} [AddCommMonoid X] (C : Nat) (hC : 0 < C) (ports : List Nat) (hne : ports ≠ [])
    (hp : ∀ p, p ∈ ports → 0 < p) (sz : Nat → Nat) (m : Nat → Mem X) :
    ∃ (sched : Nat → List Block) (prog : Nat → List Instr),
      (∀ t, Recursive.generate false (ports.map fun p : Nat => -(p : Int)) t = some (sched t)) ∧
      (∀ t, t < (ports.map fun p => p + 1).prod →
        userProgram C (ports.map fun p => p + 1).prod sz .reduceScatter (bigRecvbuf (ports.map fun p : Nat => -(p : Int)))
          (sched t) t = some (prog t)) ∧
      Correct (ports.map fun p => p + 1).prod prog m fun mem =>
        ReduceScatterMem (ports.map fun p => p + 1).prod sz m mem := by
  have hbig : bigRecvbuf (ports.map fun p : Nat => -(p : Int)) = false := by
    obtain ⟨l, hl⟩ : ∃ l, ports.getLast? = some l := ⟨_, List.getLast?_eq_some_getLast hne⟩
    unfold bigRecvbuf
    rw [List.getLast?_map, hl]
    show decide ((0 : Int) < -(l : Int)) = false
    exact decide_eq_false (by omega)
  rw [hbig]
  have hgood := reduceScatter_good ports hp
  obtain ⟨N, hNe⟩ : ∃ N, N = Recursive.factor ports := ⟨_, rfl⟩
  have hN' : (ports.map fun p => p + 1).prod = N := hNe.symm
  rw [hN']
  have hpos : 0 < N := by rw [hNe]; exact Recursive.factor_pos _
  obtain ⟨out, hE, hpost⟩ := Recursive.reduceScatter_exec (V := Nat → X) ports hne hp
    (fun t g i => m t .send (lo sz g + i)) (fun t n i =>
      m t (rowsAt (lo sz N) (lo sz t) (n / N) (lo sz (n % N) + i)).reg
        (rowsAt (lo sz N) (lo sz t) (n / N) (lo sz (n % N) + i)).off)
  rw [← hNe] at hE hpost hgood
  have hshape : ∀ t b, b ∈ Recursive.reduceScatter ports t → Shape N b := by
    rw [hNe]; exact shape_reduceScatter ports
  obtain ⟨b0, bs, last, s', hs, hrun, hout⟩ := hE
  have hmem : ∀ t, t < N → last t ∈ Recursive.reduceScatter ports t := fun t ht => by
    rw [(hs t ht).1]; exact List.mem_cons_of_mem _ (List.mem_of_getLast? (hs t ht).2)
  have hb0 : ∀ t, t < N → b0 t = Recursive.reduceFirst N := fun t ht => by
    have h1 := (hs t ht).1
    unfold Recursive.reduceScatter at h1
    rw [hNe]
    exact (List.cons.inj h1).1.symm
  have hlast : ∀ t, t < N → last t = Recursive.scatterLast N t := fun t ht => by
    have h1 := (hs t ht).2
    have h2 : bs t = (Recursive.reduceScatter ports t).tail := by rw [(hs t ht).1]; rfl
    rw [h2] at h1
    unfold Recursive.reduceScatter at h1
    rw [List.tail_cons, List.getLast?_concat] at h1
    rw [hNe]
    exact (Option.some.inj h1).symm
  have hone : ∀ t x, cells N sz (fun n => n / N = 1 → n % N = t) 1 x → lo sz t ≤ x ∧ x < lo sz t + sz t := by
    rintro t x ⟨k, k1, k2, k3, k4⟩
    have : k = t := by
      have := k2 (by rw [Nat.one_mul, Nat.add_div_left _ hpos, Nat.div_eq_of_lt k1])
      rwa [Nat.one_mul, Nat.add_mod_left, Nat.mod_eq_of_lt k1] at this
    subst this
    exact ⟨k3, k4⟩
  obtain ⟨prog, h1, h2⟩ := user_assemble C N hC hpos sz .reduceScatter false (Recursive.reduceScatter ports) m b0 last bs hs
    (fun t ht b hb => (hshape t b (by rw [(hs t ht).1]; exact List.mem_cons_of_mem _ hb)).plain)
    (fun t ht => (hshape t (b0 t) (by rw [(hs t ht).1]; exact List.mem_cons_self)).frac hpos)
    (fun t ht => (hshape t (last t) (hmem t ht)).frac hpos) (fun t => rowsAt (lo sz N) (lo sz t))
    (fun t _ => rowsAt_place N sz _ (lo sz t) fun x hx => (hone t x hx).1)
    (fun t _ => rowsAt_maps N sz _ (lo sz t) false fun k n hn hD => by
      have h := hone t (lo sz k) (hD 0 hn)
      show lo sz k - lo sz t = 0
      by_cases c : k ≤ t
      · have := lo_mono sz c
        omega
      · have := lo_end sz (show t < k by omega)
        omega)
    (hgood.congr fun t ht => by rw [(hs t ht).1]; rfl) hrun
    (fun t ht => by rw [hb0 t ht]; exact rowsAt_initial N sz _ (lo sz t) (m t))
  refine ⟨_, prog, Recursive.generate_reduceScatter ports hne hp, h1, correct_imp h2 fun mem hP t ht => ?_⟩
  obtain ⟨p1, p2⟩ := hP t ht
  refine ⟨fun i hi => ?_, fun e he => ?_, ?_⟩
  · have h3 := hpost t ht
    rw [hout t ht, hlast t ht, scatterLast_out N t ht] at h3
    have h4 := congrFun (Option.some.inj h3) i
    rw [Finset.sum_apply] at h4
    have h5 : (N + t) / N = 1 ∧ (N + t) % N = t := by
      rw [Nat.add_div_left _ hpos, Nat.div_eq_of_lt ht, Nat.add_mod_left, Nat.mod_eq_of_lt ht]; exact ⟨rfl, rfl⟩
    have h6 := p1 (N + t) i (fun _ => h5.2) (by rw [h5.2]; exact hi)
    rw [h5.1, h5.2] at h6
    have h7 : rowsAt (lo sz N) (lo sz t) 1 (lo sz t + i) = ⟨.recv, i⟩ := by
      unfold rowsAt
      rw [if_neg (by omega), if_pos rfl]
      congr 1
      omega
    rw [h7] at h6
    rw [← lo_eq_sum]
    exact h6.trans h4
  · refine p2 .recv e fun row x hc hw h => ?_
    unfold rowsAt at h
    split at h
    · cases h
    · split at h
      · rename_i _ hr
        subst hr
        have := hone t x hc
        injection h with _ h
        omega
      · cases h
  · funext e
    refine p2 .send e fun row x hc hw h => ?_
    unfold rowsAt at h
    rw [if_neg hw] at h
    split at h <;> cases h

/-- Six nodes, node `t` gets `t` elements. -/
example (m : Nat → Mem Nat) : ∃ (sched : Nat → List Block) (prog : Nat → List Instr),
    (∀ t, Recursive.generate false [-2, -1] t = some (sched t)) ∧
    (∀ t, t < 6 → userProgram 64 6 (fun k => k) .reduceScatter false (sched t) t = some (prog t)) ∧
    Correct 6 prog m fun mem => ReduceScatterMem 6 (fun k => k) m mem :=
  reduceScatter_direct 64 (by decide) [2, 1] (by decide) (by decide) _ m

theorem gatherLast_out {V : Type} (lb b : Nat) (hb : b < lb) (v : Nat → V) :
    copyOut (Recursive.gatherLast lb) v b = some (v b) := by
  apply Recursive.copyOut_mk lb _ _ b b hb
  · simp
  · rfl
  · intro m _ _ h; exact h

/-- C63: the allgather programs of the recursive algorithm after all passes, for positive counts. -/
theorem allgather_direct_partial {X : Type} [Add X] (C : Nat) (hC : 0 < C) (port : Nat) (ports : List Nat)
    (hp : ∀ p, p ∈ port :: ports → 0 < p) (sz : Nat → Nat)
    (hsz : ∀ k, k < ((port :: ports).map fun p => p + 1).prod → 0 < sz k) (m : Nat → Mem X) :
    ∃ (sched : Nat → List Block) (prog : Nat → List Instr),
      (∀ t, Recursive.generate true ((port :: ports).map fun p : Nat => (p : Int)) t = some (sched t)) ∧
      (∀ t, t < ((port :: ports).map fun p => p + 1).prod →
        gatherProgram C ((port :: ports).map fun p => p + 1).prod sz port (sched t) t = some (prog t)) ∧
      Correct ((port :: ports).map fun p => p + 1).prod prog m fun mem =>
        AllgatherMem ((port :: ports).map fun p => p + 1).prod sz m mem := by
  obtain ⟨N, hNe⟩ : ∃ N, N = Recursive.factor (port :: ports) := ⟨_, rfl⟩
  have hN' : ((port :: ports).map fun p => p + 1).prod = N := hNe.symm
  rw [hN'] at hsz ⊢
  have hpos : 0 < N := by rw [hNe]; exact Recursive.factor_pos _
  have hdvd : port + 1 ∣ N := ⟨Recursive.factor ports, by rw [hNe, Recursive.factor_cons]⟩
  obtain ⟨out, hE, hpost⟩ := Recursive.allgather_exec (V := Nat → X) (port :: ports)
    (fun t _ i => m t .send i) (fun t n i => m t .recv (lo sz n + i))
  rw [← hNe] at hE hpost
  obtain ⟨b0, bs, last, s', hs, hrun, hout⟩ := hE
  have hb : ∀ t, t < N → b0 t = Recursive.gatherFirst N t ∧
      bs t = Recursive.gatherBlock N 1 port t :: (Recursive.gatherSteps N t (1 * (port + 1)) ports ++ [Recursive.gatherLast N]) := by
    intro t ht
    have h1 := (hs t ht).1
    unfold Recursive.allgather at h1
    rw [← hNe] at h1
    exact ⟨(List.cons.inj h1).1.symm, (List.cons.inj h1).2.symm⟩
  have hlast : ∀ t, t < N → last t = Recursive.gatherLast N := by
    intro t ht
    have h1 := (hs t ht).2
    rw [(hb t ht).2, ← List.cons_append, List.getLast?_concat] at h1
    exact (Option.some.inj h1).symm
  cases hrun with
  | done hd =>
    have h1 := hd 0 hpos
    rw [(hb 0 hpos).2] at h1
    cases h1
  | step hd tl s1 hp' hstep hrest =>
  have e : ∀ t, t < N → hd t = Recursive.gatherBlock N 1 port t ∧
      tl t = Recursive.gatherSteps N t (1 * (port + 1)) ports ++ [Recursive.gatherLast N] := by
    intro t ht
    have h1 := (hb t ht).2
    rw [hp' t ht] at h1
    exact ⟨(List.cons.inj h1).1, (List.cons.inj h1).2⟩
  have H : ∀ t, ∃ st us, t < N → _ := fun t => by
    by_cases ht : t < N
    · obtain ⟨st, us, h⟩ := gatherProgram_eq (sz := sz) C hC ports (hp port List.mem_cons_self) hNe hsz ht
      exact ⟨st, us, fun _ => h⟩
    · exact ⟨fun _ => 0, [], fun h => absurd h ht⟩
  choose st us hprog using H
  have hgood := gather_good N 1 port (by omega) (by rwa [Nat.one_mul])
  have hstep' : ∀ t, t < N → nodeStep N (fun t => Recursive.gatherBlock N 1 port t)
      (fun t => copyIn (Recursive.gatherFirst N t) (fun _ i => m t .send i) fun n i => m t .recv (lo sz n + i)) t = some (s1 t) := by
    intro t ht
    rw [← hstep t ht]
    exact (nodeStep_congr N hd _ _ _ t ht (fun q hq => (e q hq).1) (fun q hq => by rw [(hb q hq).1])).symm
  have hmidx : ∀ t r i, ([Instr.copy false ⟨.recv, lo sz t⟩ ⟨.send, 0⟩ (sz t)].foldl exec1 (m t)) r i =
      if r = .recv ∧ lo sz t ≤ i ∧ i < lo sz t + sz t then m t .send (i - lo sz t) else m t r i := by
    intro t r i
    show copyMem false ⟨.recv, lo sz t⟩ ⟨.send, 0⟩ (sz t) (m t) r i = _
    unfold copyMem
    dsimp only
    rw [Nat.zero_add]
    rfl
  have hcopy : ∀ t n i, t < N → n < N → i < sz n →
      copyIn (Recursive.gatherFirst N t) (fun _ i => m t .send i) (fun n i => m t .recv (lo sz n + i)) n i =
        if n = t then m t .send i else m t .recv (lo sz n + i) := by
    intro t n i ht hn hi
    unfold copyIn Recursive.gatherFirst Recursive.mk
    by_cases h : n = t
    · subst h
      simp [hn]
    · simp [hn, h]
  obtain ⟨S1, m1, r1, q1, c1⟩ := direct_block hpos hgood (fun t _ => recvRow_place N sz) _ s1 hstep'
    (fun _ _ => ⟨.send, 0⟩) (fun t => [.copy false ⟨.recv, lo sz t⟩ ⟨.send, 0⟩ (sz t)]) us
    (initial (fun t => _) m) (fun t => clean (toRecv (lo sz N)) ((segsOf N (mmsize N sz) (st t) t false
            (Recursive.gatherSteps N t (1 * (port + 1)) ports ++ [Recursive.gatherLast N])).flatMap Seg.done) ++ []) m
    (fun t q q' ht hq hq' ho => by
      obtain ⟨a1, a2, a3, a4⟩ := hgood.from ht hq
      have := ho.1
      rw [show (0 * N + q / 1 * 1) / N = 0 by rw [Nat.zero_mul, Nat.zero_add, Nat.div_one, Nat.mul_one, Nat.div_eq_of_lt a1]] at this
      cases this)
    (fun t i ht hi => by
      refine ⟨_, _, _, _, List.mem_singleton.1 hi, (fun ho => by cases ho.1), fun q hq => ?_, fun q hq ho => (by cases ho.1)⟩
      obtain ⟨a1, a2, a3, a4⟩ := hgood.from ht hq
      have e1 : (0 * N + q / 1 * 1) = q := by rw [Nat.zero_mul, Nat.zero_add, Nat.div_one, Nat.mul_one]
      have e2 := first_mlen (p := port) (t := t) hsz a1
      rw [e1] at e2
      rw [e1, Nat.div_eq_of_lt a1, Nat.mod_eq_of_lt a1, e2]
      refine ⟨fun ho => ?_, fun ho => by cases ho.1⟩
      obtain ⟨_, o1, o2⟩ := ho
      have o1 : lo sz q < lo sz t + sz t := o1
      have o2 : lo sz t < lo sz q + if q / (port + 1) = t / (port + 1) then sz q else 0 := o2
      have o3 : lo sz t < lo sz q + sz q := by split at o2 <;> omega
      rcases Nat.lt_or_gt_of_ne a2 with h | h
      · have := lo_end sz h; omega
      · have := lo_end sz h; omega)
    (fun q t hq ht hne k i hk hi => by
      have e1 : (0 * N + q / 1 * 1) = q := by rw [Nat.zero_mul, Nat.zero_add, Nat.div_one, Nat.mul_one]
      rw [e1, Nat.mod_eq_of_lt hq] at hi ⊢
      have hk0 : k = 0 := by split at hk <;> omega
      subst hk0
      rw [Nat.add_zero] at hi ⊢
      rw [hcopy q q i hq hq hi, if_pos rfl]
      show m q .send (0 + (lo sz q - lo sz q + i)) = m q .send i
      rw [Nat.sub_self, Nat.zero_add, Nat.zero_add])
    (fun t ht n i hn hi => by
      rw [Nat.mod_eq_of_lt hn] at hi ⊢
      rw [Nat.div_eq_of_lt hn, hcopy t n i ht hn hi, hmidx]
      show (if Reg.recv = .recv ∧ lo sz t ≤ lo sz n + i ∧ lo sz n + i < lo sz t + sz t then _ else _) = _
      by_cases h : n = t
      · subst h
        rw [if_pos ⟨rfl, by omega, by omega⟩, if_pos rfl]
        congr 1
        show lo sz n + i - lo sz n = i
        omega
      · rw [if_neg h, if_neg]
        · rfl
        · rintro ⟨_, h1, h2⟩
          rcases Nat.lt_or_gt_of_ne h with h | h
          · have := lo_end sz h; omega
          · have := lo_end sz h; omega)
    (fun t ht => (hprog t ht).2.1) (quiet_initial N _ m)
  obtain ⟨S2, m2, r2, q2, c2⟩ := direct_blocks hpos (fun t _ => recvRow_place N sz) (fun _ => toRecv (lo sz N))
    (fun t _ => recvRow_maps N sz) st (fun t ht => (hprog t ht).1)
    (gather_rest N ports (1 * (port + 1)) (by omega) (by rw [Nat.one_mul, hNe, Recursive.factor_cons]))
    (Recursive.Run.congr hrest fun t ht => (e t ht).2.symm) false S1 (fun _ => []) m1 q1 (fun t ht => (c1 t ht).1)
  obtain ⟨n, hn⟩ := r1.trans r2
  refine ⟨_, _, Recursive.generate_allgather (port :: ports) hp, ?_, correct_of_run hn (fun t ht => ?_) fun t ht => ?_⟩
  · intro t ht
    rw [(hprog t ht).2.2]
    rw [List.append_nil]
  · rw [q2.proc t ht]
    exact ⟨rfl, fun q => ⟨rfl, rfl, q2.chan q t, q2.chan t q⟩⟩
  · dsimp only
    rw [q2.proc t ht]
    dsimp only
    refine ⟨fun g i hg hi => ?_, fun x hx => ?_, ?_⟩
    · have h3 := hpost t g ht hg
      rw [hout t ht, hlast t ht, gatherLast_out N g hg] at h3
      have h4 := congrFun (Option.some.inj h3) i
      have h6 := (c2 t ht).1 g i hg (by rw [Nat.mod_eq_of_lt hg]; exact hi)
      rw [Nat.div_eq_of_lt hg, Nat.mod_eq_of_lt hg] at h6
      rw [← lo_eq_sum]
      exact h6.trans h4
    · rw [← lo_eq_sum] at hx
      have hfr : ∀ row x', cells N sz (fun n => n < N) row x' → row = 0 → recvRow row x' ≠ ⟨.recv, x⟩ := by
        intro row x' hc _ h
        have := cells_le hc
        injection h with _ h
        omega
      rw [(c2 t ht).2 .recv x hfr, (c1 t ht).2 .recv x hfr, hmidx, if_neg]
      rintro ⟨_, _, h2⟩
      have := lo_end sz ht
      omega
    · funext x
      have hfr : ∀ row x', cells N sz (fun n => n < N) row x' → row = 0 → recvRow row x' ≠ ⟨.send, x⟩ := by
        intro row x' hc h0 h
        subst h0
        cases h
      rw [(c2 t ht).2 .send x hfr, (c1 t ht).2 .send x hfr, hmidx, if_neg]
      rintro ⟨h, _⟩
      cases h

/-- Six nodes, node `t` contributes `t + 1` elements. -/
example (m : Nat → Mem Nat) : ∃ (sched : Nat → List Block) (prog : Nat → List Instr),
    (∀ t, Recursive.generate true [2, 1] t = some (sched t)) ∧
    (∀ t, t < 6 → gatherProgram 64 6 (fun k => k + 1) 2 (sched t) t = some (prog t)) ∧
    Correct 6 prog m fun mem => AllgatherMem 6 (fun k => k + 1) m mem :=
  allgather_direct_partial 64 (by decide) 2 [1] (by decide) _ (fun _ _ => Nat.succ_pos _) m

end ExtMpi.Optimise
