import Verif.Lemmas.RawCodePhases
import Verif.Props.RawCode
import Verif.Props.CyclicReduce
/-! # The programs of the cyclic reductions compute their collectives on memory (C55, C56) -/
namespace ExtMpi.RawCode
open Schedule CyclicReduce

/-- The pieces in another cyclic order have the same total size. -/
theorem lo_rotate (N : Nat) (sz : Nat → Nat) (t : Nat) (ht : t < N) :
    lo (fun n => sz ((n + t) % N)) N = moffset sz N := by
  rw [moffset_eq, lo_eq_sum, lo_eq_sum]
  refine Finset.sum_bij (fun n _ => (n + t) % N) ?_ ?_ ?_ fun _ _ => rfl
  · intro n _
    exact Finset.mem_range.2 (Nat.mod_lt _ (by omega))
  · intro a ha b hb h
    exact add_mod_inj N t a b (Finset.mem_range.1 ha) (Finset.mem_range.1 hb) h
  · intro b hb
    have hb := Finset.mem_range.1 hb
    refine ⟨(b + (N - t)) % N, Finset.mem_range.2 (Nat.mod_lt _ (by omega)), ?_⟩
    rw [Nat.mod_add_mod, show b + (N - t) + t = b + N by omega, Nat.add_mod_right, Nat.mod_eq_of_lt hb]

theorem lo_zero (f : Nat → Nat) : lo f 0 = 0 := rfl

/-- Copy-in of the cyclic reductions. -/
theorem first_in {X : Type} [AddCommMonoid X] (N : Nat) (sz : Nat → Nat) (kind : Kind) (hk : kind ≠ .allgather)
    (m : Nat → Mem X) (t : Nat) (ht : t < N) :
    (∀ i, i ∈ copyInCode N sz kind (firstBlock N t) t → okI i) ∧
    Held N sz (fun e => e) (fun t g i => m t .send (moffset sz g + i)) N t
      ((copyInCode N sz kind (firstBlock N t) t).foldl exec1 (m t)) ∧
    Same0 (m t) ((copyInCode N sz kind (firstBlock N t) t).foldl exec1 (m t)) := by
  obtain ⟨h1, h2, h3⟩ := copyInCode_reduce N sz (fun n => sz ((n + t) % N)) N (lo_rotate N sz t ht) kind hk
    (firstBlock N t) t (m t) (by
      intro j l hl
      obtain ⟨hj, rfl⟩ := mk_get hl
      refine ⟨rfl, Nat.mod_lt _ (by omega), ?_⟩
      simp [hj])
  refine ⟨h1, fun n i hn hi => ?_, h3⟩
  rw [h2 n i hi, first_copyIn N t n _ _ hn, collect_id N _ t n ht hn]

theorem first_frac (N t : Nat) (ht : t < N) : ∀ l, l ∈ firstBlock N t → l.frac < N := by
  intro l hl
  obtain ⟨n, hn⟩ := List.getElem?_of_mem hl
  rw [(mk_get hn).2]
  exact Nat.mod_lt _ (by omega)

/-- All partners of the reduction steps are nodes. -/
theorem scatter_plain (N t : Nat) (fr : Nat → Nat) (ps : List Nat) : ∀ S, 0 < S → S ≤ N →
    ∀ b, b ∈ scatterSteps N t fr S S ps → Plain b := by
  induction ps with
  | nil => intro _ _ _ b hb; cases hb
  | cons p ps ih =>
    intro S hS hSN b hb
    rw [scatterSteps] at hb
    rcases List.mem_cons.1 hb with rfl | hb
    · intro l hl e he
      obtain ⟨n, hn⟩ := List.getElem?_of_mem hl
      obtain ⟨hnL, rfl⟩ := mk_get hn
      dsimp only at he
      split at he
      · dsimp only at he
        rcases List.mem_append.1 he with he | he
        · split at he
          · rw [List.mem_singleton.1 he]; dsimp only; omega
          · cases he
        · cases he
      · dsimp only at he
        rw [List.nil_append, List.mem_singleton] at he
        rw [he]
        have h1 := Nat.mul_div_le (n - S + chunk S p) (chunk S p)
        have h2 : n - S + chunk S p < S := by omega
        have h3 : (0 : Int) ≤ ((N : Int) + t - (chunk S p : Int) * (((n - S + chunk S p) / chunk S p : Nat) : Int)).tmod N := by
          apply Int.tmod_nonneg
          have : ((chunk S p * ((n - S + chunk S p) / chunk S p) : Nat) : Int) ≤ N := by exact_mod_cast (by omega)
          push_cast at this ⊢
          omega
        dsimp only
        omega
    rcases List.mem_cons.1 hb with rfl | hb
    · intro l hl e he
      obtain ⟨n, hn⟩ := List.getElem?_of_mem hl
      rw [(mk_get hn).2] at he
      cases he
    · exact ih _ (chunk_pos S p) (Nat.le_trans (chunk_le S p hS) hSN) b hb

theorem scatter_covered (N : Nat) (hN : 0 < N) (negs : List Nat) (t : Nat) (ht : t < N) :
    ∀ b, b ∈ scatterSteps N t (fun line => (line + t) % N) N N negs → covered b = true := by
  intro b hb
  obtain ⟨s, c, h1, _⟩ := scatter_run (V := Nat) N hN negs (fun _ _ => 0) fun _ _ => 0
  exact covered_of b (scatter_plain N t _ negs N hN (Nat.le_refl N) b hb) (Run.reduceOk h1 t ht b hb)

theorem lastBlock_plain (S : Nat) (fr : Nat → Nat) : Plain (lastBlock S fr) := by
  intro l hl e he
  obtain ⟨n, hn⟩ := List.getElem?_of_mem hl
  rw [(mk_get hn).2] at he
  dsimp only at he
  rw [List.append_nil] at he
  split at he
  · rw [List.mem_singleton.1 he]; simp
  · cases he

/-- C55: the reduce_scatter programs of the cyclic algorithm, for every number of nodes and all sizes of the parts. -/
theorem reduceScatter_cyclic {X : Type} [AddCommMonoid X] (N : Nat) (hN : 0 < N) (negs : List Nat)
    (hcov : N ≤ (negs.map fun p => p + 1).prod) (sz : Nat → Nat) (m : Nat → Mem X) :
    ∃ (sched : Nat → List Block) (prog : Nat → List Instr),
      (∀ t, core N negs [] t = some (sched t)) ∧
      (∀ t, t < N → program N sz .reduceScatter (sched t) t = some (prog t)) ∧
      Correct N prog m fun mem => ReduceScatterMem N sz m mem := by
  have hchunks := chunks_one N hN negs hcov
  obtain ⟨inp, hinp⟩ : ∃ inp : Nat → Nat → Nat → X, inp = fun t g i => m t .send (moffset sz g + i) := ⟨_, rfl⟩
  have hlay : ∀ t, Lay (mmsize N sz) (lastBlock 1 fun line => (line + t) % N) fun n => sz ((n + t) % N) := by
    intro t n hn
    rw [lineSize, List.getElem?_eq_getElem hn]
    dsimp only
    rw [(mk_get (List.getElem?_eq_getElem hn)).2, mmsize, Nat.mod_mod]
  have hfr : ∀ t, t < N → ∀ l, l ∈ lastBlock 1 (fun line => (line + t) % N) → l.frac < N := by
    intro t ht l hl
    obtain ⟨n, hn⟩ := List.getElem?_of_mem hl
    rw [(mk_get hn).2]
    exact Nat.mod_lt _ hN
  obtain ⟨prog, h1, h2⟩ := assemble2 N sz .reduceScatter
    (fun t => firstBlock N t :: (scatterSteps N t (fun line => (line + t) % N) N N negs ++
      [lastBlock 1 fun line => (line + t) % N])) m (fun t => firstBlock N t)
    (fun t => lastBlock 1 fun line => (line + t) % N)
    (fun t => scatterSteps N t (fun line => (line + t) % N) N N negs ++ [lastBlock 1 fun line => (line + t) % N])
    (fun t _ => ⟨rfl, by simp⟩)
    (fun t ht b hb => by
      rcases List.mem_append.1 hb with hb | hb
      · exact scatter_covered N hN negs t ht b hb
      · rw [List.mem_singleton.1 hb]
        exact covered_of _ (lastBlock_plain _ _) (Run.reduceOk (Recursive.Run.single
          (last_idle (V := Nat) N fun _ _ => 0)) t ht _ (List.mem_singleton.2 rfl)))
    (fun t ht => first_frac N t ht) hfr
    (fun t mem => Held N sz (fun e => e) inp N t mem)
    (fun t mem => ∀ i, i < sz ((0 + t) % N) → mem (.shm 0) i = ∑ x ∈ Finset.range N, inp x t i)
    (fun t mem => (∀ i, i < sz t → mem .recv i = ∑ x ∈ Finset.range N, inp x t i) ∧
      (∀ i, sz t ≤ i → mem .recv i = m t .recv i) ∧ mem .send = m t .send)
    (fun t ht => by rw [hinp]; exact first_in N sz .reduceScatter (by intro h; cases h) m t ht)
    (fun S R m1 hQ hA => by
      obtain ⟨c', first', st', m', g1, g2, g3, g4, g5⟩ := scatter_mem N sz inp
        (fun t => [lastBlock 1 fun line => (line + t) % N]) R negs N (fun e => e) true S m1 hN (Nat.le_refl N)
        (fun _ h => h) hQ hA
      rw [hchunks] at g1 g4
      obtain ⟨S2, m2, k1, k2, k3, k4⟩ := blocks_run N (mmsize N sz) (fun t n => sz ((n + t) % N)) _ _ _
        (Recursive.Run.single (last_idle N fun t n i => m' t (.shm 0) (lo (fun n => sz ((n + t) % N)) n + i)))
        (fun t ht b hb => by rw [List.mem_singleton.1 hb]; exact hlay t) first' st' R m' g3
        (fun t ht => rep_self _ _)
      refine ⟨S2, m2, g2.trans k1, k2, fun t ht i hi => ?_, fun t ht r hr => by rw [k4 t ht r hr, g5 t ht r hr]⟩
      have e1 := k3 t ht 0 i hi
      have e2 := g4 t ht 0 i (by omega) hi
      dsimp only at e1
      rw [lo_zero, Nat.zero_add] at e1 e2
      rw [e1, e2, collect_one N t ht c' g1, Finset.sum_apply])
    (fun t ht m2 hB hs => by
      have h0 : (0 + t) % N = t := by rw [Nat.zero_add, Nat.mod_eq_of_lt ht]
      obtain ⟨g1, g2, g3, g4⟩ := copyOutCode_own N sz (fun n => sz ((n + t) % N))
        (lastBlock 1 fun line => (line + t) % N) t 0 m2 _
        { frac := (0 + t) % N, sendto := [(-1, (((0 + t) % N : Nat) : Int))] } (hlay t) (hfr t ht)
        (rep_self _ m2) rfl h0 (fun j l hl => by
          obtain ⟨hj, rfl⟩ := mk_get hl
          have : j = 0 := by omega
          subst this
          simp)
      refine ⟨g1, fun i hi => ?_, fun i hi => ?_, ?_⟩
      · rw [g2 _ (last_out N t _) i hi]
        rw [lo_zero, Nat.zero_add]
        exact hB i (by rw [h0]; exact hi)
      · rw [g3 i hi, hs .recv (by intro k h; cases h)]
      · rw [g4 .send (by intro h; cases h), hs .send (by intro k h; cases h)])
  refine ⟨_, prog, fun t => ?_, h1, ?_⟩
  · unfold core
    simp only [List.isEmpty_nil, if_true, hchunks]
    rfl
  obtain ⟨bound, hb⟩ := h2
  refine ⟨bound, fun k s hks => ?_⟩
  obtain ⟨hk, hs, h⟩ := hb k s hks
  refine ⟨hk, hs, h.imp (fun ⟨hF, hP⟩ => ⟨hF, fun t ht => ?_⟩) id⟩
  obtain ⟨p1, p2, p3⟩ := hP t ht
  refine ⟨fun i hi => ?_, p2, p3⟩
  rw [← lo_eq_sum]
  rw [hinp] at p1
  exact p1 i hi

/-- Seven nodes with counts 0, 3, 6, ..., two steps. -/
example (m : Nat → Mem Nat) : ∃ (sched : Nat → List Block) (prog : Nat → List Instr),
    (∀ t, core 7 [2, 2] [] t = some (sched t)) ∧
    (∀ t, t < 7 → program 7 (fun k => 3 * k) .reduceScatter (sched t) t = some (prog t)) ∧
    Correct 7 prog m fun mem => ReduceScatterMem 7 (fun k => 3 * k) m mem :=
  reduceScatter_cyclic 7 (by decide) [2, 2] (by decide) _ m

/-- C56: the allreduce programs of the cyclic algorithm, for every number of nodes and all sizes of the pieces. Only for
lists of ports that fit: otherwise the generator may read outside of an array (C51). -/
theorem allreduce_cyclic_partial {X : Type} [AddCommMonoid X] (N : Nat) (hN : 0 < N) (negs ports : List Nat)
    (hne : ports ≠ []) (hp : ∀ p, p ∈ ports → 0 < p) (hcov : N ≤ (ports.map fun p => p + 1).prod)
    (hfit : CyclicReduce.Fits N 1 ports) (sz : Nat → Nat) (m : Nat → Mem X) :
    ∃ (sched : Nat → List Block) (prog : Nat → List Instr),
      (∀ t, core N negs ports t = some (sched t)) ∧
      (∀ t, t < N → program N sz .allreduce (sched t) t = some (prog t)) ∧
      Correct N prog m fun mem => AllreduceMem N (∑ k ∈ Finset.range N, sz k) m mem := by
  obtain ⟨tl, last, used, hsched, hlast, hused, htl, hrun⟩ := allreduce_parts N hN negs ports hne hp hcov hfit
  obtain ⟨mm, hmm⟩ : ∃ mm, mm = chunks N negs := ⟨_, rfl⟩
  rw [← hmm] at hused htl hrun
  obtain ⟨inp, hinp⟩ : ∃ inp : Nat → Nat → Nat → X, inp = fun t g i => m t .send (moffset sz g + i) := ⟨_, rfl⟩
  obtain ⟨g, hg⟩ : ∃ g : Nat → Nat → Nat, g = fun t k => match used[k]? with
    | some n => sz (num N mm t n)
    | none => 0 := ⟨_, rfl⟩
  have hlay : ∀ t, t < N → ∀ b, b ∈ tl t → Lay (mmsize N sz) b (g t) := by
    intro t ht b hb k hk
    obtain ⟨n, h1, h2, _⟩ := htl t b ht hb k _ (List.getElem?_eq_getElem hk)
    rw [lineSize, List.getElem?_eq_getElem hk, hg]
    dsimp only
    rw [h1, h2, mmsize]
    dsimp only
    rw [num, Nat.mod_mod]
  have hfr : ∀ t, t < N → ∀ b, b ∈ tl t → ∀ l, l ∈ b → l.frac < N := by
    intro t ht b hb l hl
    obtain ⟨k, hk⟩ := List.getElem?_of_mem hl
    obtain ⟨n, _, h2, _⟩ := htl t b ht hb k l hk
    rw [h2]
    exact Nat.mod_lt _ hN
  have hplain : ∀ t, t < N → ∀ b, b ∈ tl t → Plain b := by
    intro t ht b hb l hl e he
    obtain ⟨k, hk⟩ := List.getElem?_of_mem hl
    obtain ⟨n, _, _, h3⟩ := htl t b ht hb k l hk
    have := h3 e he
    omega
  have hlastmem : ∀ t, last t ∈ tl t := fun t => List.mem_of_getLast? (hlast t)
  have hgmm : ∀ t k, k < mm → g t k = sz ((k + t) % N) := by
    intro t k hk
    rw [hg]
    dsimp only
    rw [hused k hk]
    dsimp only
    rw [num, cl_small mm k hk]
  obtain ⟨prog, h1, h2⟩ := assemble2 N sz .allreduce
    (fun t => firstBlock N t :: (scatterSteps N t (fun line => (line + t) % N) N N negs ++ tl t)) m
    (fun t => firstBlock N t) last
    (fun t => scatterSteps N t (fun line => (line + t) % N) N N negs ++ tl t)
    (fun t _ => ⟨rfl, by rw [List.getLast?_append, hlast t]; rfl⟩)
    (fun t ht b hb => by
      rcases List.mem_append.1 hb with hb | hb
      · exact scatter_covered N hN negs t ht b hb
      · obtain ⟨s, c, q1, q2, q3⟩ := scatter_run (V := Nat) N hN negs (fun _ _ => 0) fun _ _ => 0
        rw [← hmm] at q2 q3
        obtain ⟨s', q4, _⟩ := hrun c _ s q2 q3
        exact covered_of b (hplain t ht b hb) (Run.reduceOk q4 t ht b hb))
    (fun t ht => first_frac N t ht) (fun t ht => hfr t ht _ (hlastmem t))
    (fun t mem => Held N sz (fun e => e) inp N t mem)
    (fun t mem => ∃ v, Rep (g t) mem v ∧ ∀ bb, bb < N → copyOut (last t) v bb = some (∑ x ∈ Finset.range N, inp x bb))
    (fun t mem => (∀ q w, q < N → w = ∑ x ∈ Finset.range N, inp x q → ∀ i, i < sz q →
        mem .recv (moffset sz q + i) = w i) ∧
      (∀ i, moffset sz N ≤ i → mem .recv i = m t .recv i) ∧ mem .send = m t .send)
    (fun t ht => by rw [hinp]; exact first_in N sz .allreduce (by intro h; cases h) m t ht)
    (fun S R m1 hQ hA => by
      obtain ⟨c', first', st', m', g1, g2, g3, g4, g5⟩ := scatter_mem N sz inp tl R negs N (fun e => e) true S m1 hN
        (Nat.le_refl N) (fun _ h => h) hQ hA
      rw [← hmm] at g1 g4
      obtain ⟨v, hv⟩ : ∃ v : Nat → Nat → Nat → X, v = fun t n => if n < mm then collect N c' inp t n else
        fun i => m' t (.shm 0) (lo (g t) n + i) := ⟨_, rfl⟩
      obtain ⟨s', q1, q2⟩ := hrun c' inp v g1 (fun t n ht hn => by rw [hv]; dsimp only; rw [if_pos hn])
      obtain ⟨S2, m2, k1, k2, k3, k4⟩ := blocks_run N (mmsize N sz) g tl v s' q1 hlay first' st' R m' g3 (by
        intro t ht n i hi
        rw [hv]
        dsimp only
        by_cases h : n < mm
        · rw [if_pos h, lo_congr (g t) (fun n => sz ((n + t) % N)) n fun k hk => hgmm t k (by omega)]
          exact g4 t ht n i h (by rw [← hgmm t n h]; exact hi)
        · rw [if_neg h])
      exact ⟨S2, m2, g2.trans k1, k2, fun t ht => ⟨s' t, k3 t ht, fun bb hbb => q2 t bb ht hbb⟩,
        fun t ht r hr => by rw [k4 t ht r hr, g5 t ht r hr]⟩)
    (fun t ht m2 hB hs => by
      obtain ⟨v, hv1, hv2⟩ := hB
      obtain ⟨g1, g2, g3, g4⟩ := copyOutCode_all N sz (g t) .allreduce (by intro h; cases h) (last t) t m2 v
        (hlay t ht _ (hlastmem t)) (hfr t ht _ (hlastmem t)) hv1
      refine ⟨g1, fun q w hq hw => g2 q w hq (by rw [hv2 q hq, hw]), fun i hi => ?_, ?_⟩
      · rw [g3 i hi, hs .recv (by intro k h; cases h)]
      · rw [g4 .send (by intro h; cases h), hs .send (by intro k h; cases h)])
  refine ⟨_, prog, hsched, h1, ?_⟩
  obtain ⟨bound, hb⟩ := h2
  refine ⟨bound, fun k s hks => ?_⟩
  obtain ⟨hk, hs, h⟩ := hb k s hks
  refine ⟨hk, hs, h.imp (fun ⟨hF, hP⟩ => ⟨hF, fun t ht => ?_⟩) id⟩
  obtain ⟨p1, p2, p3⟩ := hP t ht
  refine ⟨fun e he => ?_, fun e he => ?_, p3⟩
  · rw [← lo_eq_sum] at he
    obtain ⟨q, i, hq, hi, rfl⟩ := exists_piece sz N e he
    have := p1 q _ hq rfl i hi
    rw [moffset_eq] at this
    rw [this, hinp, Finset.sum_apply]
    rfl
  · rw [← lo_eq_sum] at he
    exact p2 e he

/-- Seven nodes, one reduction step and two gather steps; pieces of different sizes. -/
example (m : Nat → Mem Nat) : ∃ (sched : Nat → List Block) (prog : Nat → List Instr),
    (∀ t, core 7 [1] [2, 2] t = some (sched t)) ∧
    (∀ t, t < 7 → program 7 (fun k => k % 3) .allreduce (sched t) t = some (prog t)) ∧
    Correct 7 prog m fun mem => AllreduceMem 7 (∑ k ∈ Finset.range 7, k % 3) m mem :=
  allreduce_cyclic_partial 7 (by decide) [1] [2, 2] (by decide) (by decide) (by decide)
    (fits_small 7 [2, 2] 1 (by decide)) _ m

end ExtMpi.RawCode
