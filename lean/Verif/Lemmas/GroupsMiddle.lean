import Verif.Lemmas.GroupsPlan
/-! The group in the middle. -/
namespace ExtMpi.Groups
open Schedule PortChoice

/-! ## The schedule of the group -/

theorem cBlocks_quiet (u : List Bool) (N m t : Nat) (ht : t < N) (hm : 0 < m) (ps : List Nat) :
    ∀ G, CyclicReduce.Fits N G ps → ∀ b, b ∈ CyclicReduce.cBlocks u N m t G ps → ∀ l, l ∈ b →
      Quiet l ∧ LineOf N l ∧ l.frac < N := by
  have hN : 0 < N := by omega
  induction ps with
  | nil => intro _ _ b hb; cases hb
  | cons p ps ih =>
    intro G hfit b hb l hl
    rw [CyclicReduce.cBlocks] at hb
    rcases List.mem_cons.1 hb with rfl | hb
    · obtain ⟨n, hnS, _, rfl⟩ := CyclicReduce.mem_comp hl
      have hsend : ∀ e, e ∈ (CyclicReduce.renumberLine u (CyclicReduce.gKeep u N m G (m * min (G * (p + 1)) N) p t n)).sendto →
          0 ≤ e.1 ∧ e.1 < N := by
        intro e he
        obtain ⟨e', he', rfl⟩ := List.mem_map.1 he
        have h3 := (List.mem_filter.1 he').1
        obtain ⟨i, hi, rfl⟩ := List.mem_map.1 h3
        have hi := List.mem_range.1 hi
        have hlt : (i + 1) * G < N := by
          have hnG : n < m * G := by
            by_contra c
            unfold CyclicReduce.gatherPorts at hi
            rw [if_neg (by omega), if_neg (by omega), if_neg c] at hi
            omega
          have hGN : G < N := by
            by_contra c
            have : m * min (G * (p + 1)) N ≤ m * G :=
              Nat.mul_le_mul_left m (Nat.le_trans (Nat.min_le_right _ _) (by omega))
            unfold CyclicReduce.gatherPorts at hi
            rw [if_neg (by omega), if_pos (by omega)] at hi
            omega
          have h4 := ((CyclicReduce.ports_iff N m G p n i (hfit.1 hGN) hnG).1 hi).2
          have h5 : m * min (G * (p + 1)) N ≤ m * N := Nat.mul_le_mul_left m (Nat.min_le_right _ _)
          have e1 : m * ((i + 1) * G) = m * G * (i + 1) := by ring
          exact Nat.lt_of_mul_lt_mul_left (a := m) (by omega)
        have h6 : (0 : Int) ≤ ((N : Int) + t - ((i : Int) + 1) * G).tmod N := by
          apply Int.tmod_nonneg
          have : (((i + 1) * G : Nat) : Int) < N := by exact_mod_cast hlt
          push_cast at this
          omega
        have h7 : ((N : Int) + t - ((i : Int) + 1) * G).tmod N < N := Int.tmod_lt_of_pos _ (by omega)
        dsimp only
        split
        · exact ⟨h6, h7⟩
        · exact ⟨h6, h7⟩
      have hrecv : ∀ e, e ∈ (CyclicReduce.renumberLine u (CyclicReduce.gKeep u N m G (m * min (G * (p + 1)) N) p t n)).recvfrom →
          0 ≤ e.1 ∧ e.1 < N := by
        intro e he
        obtain ⟨e', he', rfl⟩ := List.mem_map.1 he
        unfold CyclicReduce.gKeep CyclicReduce.gLine at he'
        dsimp only at he'
        split at he'
        · cases he'
        · rw [List.mem_singleton.1 he']
          dsimp only
          have : CyclicReduce.gatherNode N G (m * G) t n < N := Nat.mod_lt _ hN
          omega
      exact ⟨⟨fun e he => (hsend e he).1, fun e he => (hrecv e he).1⟩,
        ⟨fun e he => (hsend e he).2, fun e he => (hrecv e he).2, rfl⟩, Nat.mod_lt _ hN⟩
    rcases List.mem_cons.1 hb with rfl | hb
    · obtain ⟨n, hnS, _, rfl⟩ := CyclicReduce.mem_comp hl
      exact ⟨⟨fun e he => (by cases he), fun e he => (by cases he)⟩,
        ⟨fun e he => (by cases he), fun e he => (by cases he), rfl⟩, Nat.mod_lt _ hN⟩
    · exact ih (G * (p + 1)) hfit.2 b hb l hl

/-- A line of the last block: copied out or nothing. -/
def EndLine (l : LineD) : Prop := OutLine l ∨ (l.sendto = [] ∧ l.recvfrom = [])

theorem EndLine.plain {l : LineD} (h : EndLine l) : Plain l := by
  rcases h with h | ⟨h1, h2⟩
  · exact .inr (.inr h)
  · left
    constructor
    · rw [h1]; intro e he; cases he
    · rw [h2]; intro e he; cases he

theorem EndLine.out {l : LineD} (h : EndLine l) : OutLine l ↔ isOut l = true := by
  rcases h with h | ⟨h1, h2⟩
  · exact ⟨fun h => h.isOut, fun _ => h⟩
  · constructor
    · exact fun h => h.isOut
    · unfold isOut
      rw [h1]
      intro h
      cases h

theorem any_out {l : LineD} (h : EndLine l) : (l.sendto.any fun e => e.1 == -1) = isOut l := by
  rcases h with h | ⟨h1, h2⟩
  · obtain ⟨x, hx⟩ := h.2
    rw [h.isOut, hx]
    rfl
  · unfold isOut
    rw [h1]
    rfl

/-- If something is copied out there is a line for it. -/
theorem copyOut_some {V : Type} (b : Block) (v : Nat → V) (f : Nat) (x : V) (h : copyOut b v f = some x) :
    ∃ (n : Nat) (l : LineD), b[n]? = some l ∧ (l.sendto.any fun e => e.1 == -1) = true ∧ l.frac = f := by
  unfold copyOut at h
  have key : ∀ (xs : List (LineD × Nat)) (o : Nat → Option V),
      (xs.foldl (fun out x => if x.1.sendto.any fun e => e.1 == -1 then upd out x.1.frac (some (v x.2)) else out) o) f =
        some x → o f = some x ∨ ∃ y, y ∈ xs ∧ (y.1.sendto.any fun e => e.1 == -1) = true ∧ y.1.frac = f := by
    intro xs
    induction xs with
    | nil => intro o h; exact .inl h
    | cons y ys ih =>
      intro o h
      rw [List.foldl_cons] at h
      rcases ih _ h with h | ⟨z, hz, h3, h4⟩
      · by_cases c : (y.1.sendto.any fun e => e.1 == -1) = true
        · rw [if_pos c] at h
          by_cases c2 : y.1.frac = f
          · exact .inr ⟨y, List.mem_cons_self, c, c2⟩
          · unfold upd at h
            rw [if_neg fun e => c2 e.symm] at h
            exact .inl h
        · rw [if_neg c] at h
          exact .inl h
      · exact .inr ⟨z, List.mem_cons_of_mem _ hz, h3, h4⟩
  rcases key _ _ h with h | ⟨y, hy, h3, h4⟩
  · cases h
  · exact ⟨y.2, y.1, List.mk_mem_zipIdx_iff_getElem?.1 hy, h3, h4⟩

/-- What is used of the schedule of the middle group: the first block, steps, and a last block with one line copied
out for every number. -/
structure MidLocal (g : Nat) (body : Nat → List Block) (last : Nat → Block) : Prop where
  mem : ∀ l, l < g → ∀ b, b ∈ body l → ∀ x, x ∈ b → Quiet x ∧ LineOf g x ∧ x.frac < g
  fin : ∀ l, l < g → ∀ x, x ∈ last l → EndLine x ∧ x.reducefrom = [] ∧ x.copyreducefrom = [] ∧ x.frac < g
  one : ∀ l, l < g → ∀ (n n' : Nat) (x x' : LineD), (last l)[n]? = some x → (last l)[n']? = some x' →
    isOut x = true → isOut x' = true → x.frac = x'.frac → n = n'
  ex : ∀ l f, l < g → f < g → ∃ (n : Nat) (x : LineD), (last l)[n]? = some x ∧ isOut x = true ∧ x.frac = f
  run : ∀ {V : Type} [AddCommMonoid V] (s : Nat → Nat → V), ∃ s', Run g (fun l => body l ++ [last l]) s s' ∧
    ∀ l, l < g → ∀ (n : Nat) (x : LineD), (last l)[n]? = some x → isOut x = true →
      s' l n = ∑ j ∈ Finset.range g, s j ((x.frac + g - j) % g)

theorem mid_local (m : Nat × List Nat × List Nat) (hm : MidOk m) :
    ∃ (body : Nat → List Block) (last : Nat → Block),
      (∀ l, CyclicReduce.core m.1 m.2.1 m.2.2 l = some (CyclicReduce.firstBlock m.1 l :: (body l ++ [last l]))) ∧
      MidLocal m.1 body last := by
  obtain ⟨g, negs, ports⟩ := m
  have hg : 0 < g := by have := hm.size; dsimp only at this; omega
  obtain ⟨tl, last, used, h1, h2, h3, h4, ⟨u, h5⟩, h6⟩ := CyclicReduce.allreduce_parts_used g hg negs ports hm.ne hm.pos
    hm.cover hm.fit
  have hc := CyclicReduce.chunks_pos g hg negs
  have hlast : ∀ l, last l = CyclicReduce.comp (CyclicReduce.chunks g negs * g) (fun n => u[n]? == some true) fun n =>
      CyclicReduce.renumberLine u (CyclicReduce.lLine g (CyclicReduce.chunks g negs) l n) := by
    intro l
    have := h2 l
    rw [h5 l, List.getLast?_concat] at this
    exact (Option.some.inj this).symm
  have hend : ∀ l x, x ∈ last l → EndLine x ∧ x.reducefrom = [] ∧ x.copyreducefrom = [] ∧ x.frac < g := by
    intro l x hx
    rw [hlast l] at hx
    obtain ⟨n, hn, _, rfl⟩ := CyclicReduce.mem_comp hx
    refine ⟨?_, rfl, rfl, Nat.mod_lt _ hg⟩
    unfold CyclicReduce.renumberLine CyclicReduce.lLine
    dsimp only
    split
    · exact .inl ⟨rfl, _, rfl⟩
    · exact .inr ⟨rfl, rfl⟩
  have hone : ∀ l, l < g → ∀ (n n' : Nat) (x x' : LineD), (last l)[n]? = some x → (last l)[n']? = some x' →
      isOut x = true → isOut x' = true → x.frac = x'.frac → n = n' := by
    intro l _ n n' x x' hx hx' ho ho' hf
    rw [hlast l] at hx hx'
    obtain ⟨k, hk, hkS, rfl⟩ := CyclicReduce.comp_get (Nat.le_refl _) hx
    obtain ⟨k', hk', hkS', rfl⟩ := CyclicReduce.comp_get (Nat.le_refl _) hx'
    have hcond : ∀ y, y < CyclicReduce.chunks g negs * g →
        isOut (CyclicReduce.renumberLine u (CyclicReduce.lLine g (CyclicReduce.chunks g negs) l y)) = true →
        ∀ n', y < n' → n' < CyclicReduce.chunks g negs * g →
          CyclicReduce.cl (CyclicReduce.chunks g negs) n' % g ≠ CyclicReduce.cl (CyclicReduce.chunks g negs) y % g := by
      intro y hy ho
      rw [← CyclicReduce.last_cond g _ l y hy]
      by_contra c
      unfold CyclicReduce.renumberLine CyclicReduce.lLine isOut at ho
      dsimp only at ho
      rw [if_neg c] at ho
      cases ho
    have e := (CyclicReduce.num_eq_iff g _ l k k').1 hf
    have hkk : k = k' := by
      rcases Nat.lt_trichotomy k k' with c | c | c
      · exact absurd e.symm (hcond k hkS ho k' c hkS')
      · exact c
      · exact absurd e (hcond k' hkS' ho' k c hkS)
    subst hkk
    have hnd : ((List.range (CyclicReduce.chunks g negs * g)).filter fun n => u[n]? == some true).Nodup :=
      List.nodup_range.filter _
    have hlt := (List.getElem?_eq_some_iff.1 hk).1
    exact (List.getElem?_inj hlt hnd).1 (hk.trans hk'.symm)
  refine ⟨fun l => CyclicReduce.scatterSteps g l (fun line => (line + l) % g) g g negs ++
    CyclicReduce.cBlocks u g (CyclicReduce.chunks g negs) l 1 ports, last, ?_, ?_, ?_, ?_, ?_, ?_⟩
  · intro l
    have := h1 l
    dsimp only
    rw [this, h5 l, ← hlast l, List.append_assoc]
  · intro l hl b hb x hx
    rcases List.mem_append.1 hb with hb | hb
    · refine ⟨scatter_quiet g l _ hg negs g (Nat.le_refl g) b hb x hx, (scatterSteps_of 1 g l hg _ negs g g b hb).line x hx,
        downTail_frac g hg negs l b (List.mem_append_left _ hb) x hx⟩
    · exact cBlocks_quiet u g _ l hl hc ports 1 hm.fit b hb x hx
  · exact fun l _ x hx => hend l x hx
  · exact hone
  · intro l f hl hf
    obtain ⟨s, c, g1, g2, g3⟩ := CyclicReduce.scatter_run g hg negs (fun _ _ => (0 : Nat)) (fun _ _ => 0)
    obtain ⟨s', k1, k2⟩ := h6 c _ s g2 g3
    obtain ⟨n, x, n1, n2, n3⟩ := copyOut_some _ _ _ _ (k2 l f hl hf)
    refine ⟨n, x, n1, ?_, n3⟩
    rw [← any_out (hend l x (List.mem_of_getElem? n1)).1]
    exact n2
  · intro V _ s
    obtain ⟨s1, c, g1, g2, g3⟩ := CyclicReduce.scatter_phase g (fun j f => s j ((f + g - j) % g)) negs g hg (Nat.le_refl g)
      (fun e => e) (fun _ h => h) s (fun t n ht hn => by
        rw [CyclicReduce.collect_id g _ t n ht hn]
        congr 1
        by_cases c : n + t < g
        · rw [Nat.mod_eq_of_lt c]
          have : n + t + g - t = n + g := by omega
          rw [this, Nat.add_mod_right, Nat.mod_eq_of_lt hn]
        · have e : (n + t) % g = n + t - g := by
            rw [Nat.mod_eq_sub_mod (by omega), Nat.mod_eq_of_lt (by omega : n + t - g < g)]
          rw [e]
          have : n + t - g + g - t = n := by omega
          rw [this, Nat.mod_eq_of_lt hn])
    obtain ⟨s', k1, k2⟩ := h6 c (fun j f => s j ((f + g - j) % g)) s1 g2 g3
    refine ⟨s', ?_, ?_⟩
    · apply Recursive.Run.congr (Recursive.Run.append g1 k1)
      intro l _
      rw [h5 l, ← hlast l, List.append_assoc]
    · intro l hl n x hx ho
      have hf := (hend l x (List.mem_of_getElem? hx)).2.2.2
      have e1 := k2 l x.frac hl hf
      have e2 := copyOut_const (last l) (s' l) x.frac (s' l n) (by
        intro n' x' hx' ho' hf'
        rw [any_out (hend l x' (List.mem_of_getElem? hx')).1] at ho'
        rw [hone l hl n' n x' x hx' hx ho' ho hf'])
        ⟨n, x, hx, by rw [any_out (hend l x (List.mem_of_getElem? hx)).1]; exact ho, rfl⟩
      rw [e1] at e2
      exact (Option.some.inj e2).symm

/-! ## On all nodes -/

/-- A line of the middle group. -/
def midLine (N g t : Nat) (l : LineD) : LineD :=
  { l with
    sendto := l.sendto.map (partner N [g] t)
    recvfrom := l.recvfrom.map (partner N [g] t)
    frac := globalOf N [g] t l.frac }

theorem mid_sim (N g t c : Nat) (b : Block) (hc : ∀ j, globalOf N [g] c j = globalOf N [g] t j)
    (hb : ∀ l, l ∈ b → l.copyreducefrom = []) :
    BlockSim (fun f _ => globalOf N [g] c f) (globalOf N [g] c) 1 0 b (b.map (midLine N g t)) := by
  have hc' : globalOf N [g] c = globalOf N [g] t := funext hc
  rw [hc']
  refine ⟨[], b.map fun l => [midLine N g t l], ?_, rfl, fun _ h => (by cases h), ?_⟩
  · rw [List.nil_append, ← List.flatMap_def, List.map_eq_flatMap]
  · rw [List.forall₂_map_right_iff, List.forall₂_same]
    intro l hl
    refine ⟨rfl, ?_⟩
    intro k l' hk
    cases k with
    | succ k => cases hk
    | zero =>
      cases Option.some.inj hk
      refine ⟨rfl, ?_, ?_, ?_, hb l hl⟩
      · unfold midLine
        rw [List.map_map]
        apply List.map_congr_left
        intro e _
        exact partner_fst N [g] t e
      · unfold midLine
        rw [List.map_map]
        apply List.map_congr_left
        intro e _
        exact partner_fst N [g] t e
      · unfold midLine
        simp

theorem numAt_single (N g M : Nat) (hg : 0 < g) (hM : 0 < M) (hN : N = g * M) (t k : Nat) (ht : t < N) (hk : k < g) :
    numAt N [g] t k = globalOf N [g] t ((k + localOf N [g] t) % g) := by
  have hs : stride N [g] = M := by
    rw [stride_eq, List.prod_singleton, hN, Nat.mul_div_cancel_left _ hg]
  have hdiv : N / g = M := by rw [hN, Nat.mul_div_cancel_left _ hg]
  have hl : t / M < g := Nat.div_lt_of_lt_mul (by rw [Nat.mul_comm, ← hN]; exact ht)
  rw [numAt_one N g hg t k hk, hdiv]
  unfold globalOf localOf comp0 comp1
  rw [hs]
  simp only [List.head?_cons, Option.getD_some]
  rw [Nat.div_eq_of_lt hl, Nat.mul_zero, Nat.add_zero, Nat.mod_eq_of_lt hl]
  have e : k * M + t = (k + t / M) * M + t % M := by
    have := Nat.div_add_mod' t M
    rw [Nat.add_mul]
    omega
  rw [e, hN]
  have hr := Nat.mod_lt t hM
  generalize t % M = r at hr
  generalize k + t / M = y
  have h1 : y * M + r = (y % g * M + r) + g * M * (y / g) := by
    conv => lhs; rw [← Nat.mod_add_div y g]
    ring
  rw [h1, Nat.add_mul_mod_self_left, Nat.mod_eq_of_lt]
  have h2 := Nat.mod_lt y hg
  have h3 : (y % g + 1) * M ≤ g * M := Nat.mul_le_mul_right M h2
  rw [Nat.add_mul] at h3
  omega

/-- The middle group adds up what the reductions have left. -/
theorem mid_run {V : Type} [AddCommMonoid V] (inp : Nat → Nat → V) (N g M : Nat) (hg : 0 < g) (hM : 0 < M) (hN : N = g * M)
    (body : Nat → List Block) (last : Nat → Block) (h : MidLocal g body last) (s : Nat → Nat → V)
    (hs : ∀ t k, t < N → k < g → s t k = blockSum inp (N / g) t (numAt N [g] t k)) :
    ∃ s', Run N (fun t => (body (localOf N [g] t) ++ [last (localOf N [g] t)]).map fun b => b.map (midLine N g t)) s s' ∧
      ∀ t, t < N → ∀ (n : Nat) (x : LineD), ((last (localOf N [g] t)).map (midLine N g t))[n]? = some x → isOut x = true →
        s' t n = ∑ y ∈ Finset.range N, inp y x.frac := by
  have hs1 : stride N [g] = M := by
    rw [stride_eq, List.prod_singleton, hN, Nat.mul_div_cancel_left _ hg]
  have hst : 0 < stride N [g] := by rw [hs1]; exact hM
  have hdiv : N / g = M := by rw [hN, Nat.mul_div_cancel_left _ hg]
  have hd : g * stride N [g] ∣ N := by rw [hs1, ← hN]
  have hsp := splitOf N [g] hst hg hd
  obtain ⟨σ', h1, h2⟩ := h.run (fun l i c k => s (globalOf N [g] c l) (i * 1 + k) : Nat → Nat → Nat → Nat → V)
  have h3 := run_sim hsp (by omega : 0 < 1) (fun c f _ => globalOf N [g] c f) (fun _ => 0) s h1
    (fun t => (body (localOf N [g] t) ++ [last (localOf N [g] t)]).map fun b => b.map (midLine N g t))
    (fun l hl b hb => by
      refine ⟨fun x hx => ?_, fun _ _ _ _ _ => .inr rfl⟩
      rcases List.mem_append.1 hb with hb | hb
      · exact (h.mem l hl b hb x hx).2.1
      · rw [List.mem_singleton.1 hb] at hx
        obtain ⟨e1, _, e3, _⟩ := h.fin l hl x hx
        rcases e1 with e1 | ⟨e1, e2⟩
        · obtain ⟨y, hy⟩ := e1.2
          refine ⟨fun e he => ?_, fun e he => ?_, e3⟩
          · rw [hy] at he
            rw [List.mem_singleton.1 he]
            show (-1 : Int) < g
            omega
          · rw [e1.1] at he
            cases he
        · refine ⟨fun e he => ?_, fun e he => ?_, e3⟩
          · rw [e1] at he
            cases he
          · rw [e2] at he
            cases he)
    (fun t ht => by
      rw [List.forall₂_map_right_iff, List.forall₂_same]
      intro b hb
      apply mid_sim N g t _ b fun j => global_global N [g] t 0 j hst hg
      intro x hx
      rcases List.mem_append.1 hb with hb | hb
      · exact (h.mem _ (hsp.locLt t ht) b hb x hx).2.1.copy
      · rw [List.mem_singleton.1 hb] at hx
        exact (h.fin _ (hsp.locLt t ht) x hx).2.2.1)
  have e : (fun t => un 0 1 (globalOf N [g] t 0) (s t)
      (fun i c k => s (globalOf N [g] c (localOf N [g] t)) (i * 1 + k))) = s := by
    funext t
    apply un_shift _ _ _ (by omega)
    intro i k _
    rw [global_global N [g] t 0 _ hst hg, global_self, Nat.zero_add]
  rw [e] at h3
  refine ⟨_, h3, ?_⟩
  intro t ht n x hx ho
  have hl : localOf N [g] t < g := hsp.locLt t ht
  rw [List.getElem?_map] at hx
  obtain ⟨y, hy, rfl⟩ := Option.map_eq_some_iff.1 hx
  have hyk := h.fin _ hl y (List.mem_of_getElem? hy)
  have hoy : isOut y = true := by
    rcases hyk.1 with c | ⟨c, _⟩
    · exact c.isOut
    · unfold midLine isOut at ho
      dsimp only at ho
      rw [c] at ho
      cases ho
  have := un_line 0 1 (globalOf N [g] t 0) (s t) (σ' (localOf N [g] t)) n 0 (by omega)
  rw [Nat.mul_one, Nat.add_zero, Nat.zero_add] at this
  rw [this, h2 _ hl n y hy hoy, Finset.sum_apply, Finset.sum_apply]
  have hfin : ∀ j, j ∈ Finset.range g →
      s (globalOf N [g] (globalOf N [g] t 0) j) ((y.frac + g - j) % g * 1 + 0) =
        blockSum inp (stride N [g]) (globalOf N [g] t j) (globalOf N [g] t y.frac) := by
    intro j hj
    have hj := Finset.mem_range.1 hj
    obtain ⟨b1, b2⟩ := shift_back g y.frac j hyk.2.2.2 hj
    have hlt := global_lt N [g] t j hst hd hj ht
    rw [global_global N [g] t 0 _ hst hg, Nat.mul_one, Nat.add_zero, hs _ _ hlt b2, hdiv, hs1,
      numAt_single N g M hg hM hN _ _ hlt b2, global_local N [g] t j hst hj, b1, global_global N [g] t j _ hst hj]
  rw [Finset.sum_congr rfl hfin, blockSum_step inp N g [] hg hst, hs1, ← hN, blockSum_all inp N t _ ht]
  rfl

/-- The kinds of lines of the middle group. -/
theorem mid_quiet (N g t : Nat) (l : LineD) (h : Quiet l) : Quiet (midLine N g t l) := by
  have hp : ∀ e : Int × Int, 0 ≤ e.1 → 0 ≤ (partner N [g] t e).1 := by
    intro e he
    unfold partner
    rw [if_pos he]
    exact Int.natCast_nonneg _
  constructor
  · intro e he
    obtain ⟨e', he', rfl⟩ := List.mem_map.1 he
    exact hp _ (h.1 e' he')
  · intro e he
    obtain ⟨e', he', rfl⟩ := List.mem_map.1 he
    exact hp _ (h.2 e' he')

theorem mid_end (N g t : Nat) (l : LineD) (h : EndLine l) : EndLine (midLine N g t l) := by
  rcases h with ⟨h1, x, hx⟩ | ⟨h1, h2⟩
  · left
    refine ⟨?_, x, ?_⟩
    · unfold midLine; rw [h1]; rfl
    · unfold midLine; rw [hx]; rfl
  · right
    unfold midLine
    rw [h1, h2]
    exact ⟨rfl, rfl⟩

theorem mid_first (N g M : Nat) (hg : 0 < g) (hM : 0 < M) (hN : N = g * M) (t : Nat) (ht : t < N) :
    InBlock ((CyclicReduce.firstBlock g (localOf N [g] t)).map (midLine N g t)) (expandFrac N [g] t) := by
  constructor
  · intro l hl
    obtain ⟨l', h1, rfl⟩ := List.mem_map.1 hl
    obtain ⟨n, _, rfl⟩ := mem_mk h1
    exact ⟨rfl, _, rfl⟩
  · rw [← expand_map N [g] (by simp) t, List.prod_singleton]
    unfold CyclicReduce.firstBlock Recursive.mk
    rw [List.map_map, List.map_map]
    apply List.map_congr_left
    intro n hn
    rw [numAt_single N g M hg hM hN t n ht (List.mem_range.1 hn)]
    rfl

theorem generate_mid (m : Nat × List Nat × List Nat) (hm : MidOk m) (l : Nat) :
    generateSingle false m.1 ((m.2.1.map fun x : Nat => -(x : Int)) ++ m.2.2.map fun x : Nat => (x : Int)) l =
      CyclicReduce.core m.1 m.2.1 m.2.2 l := by
  have hneg : ∀ a, a ∈ (m.2.1.map fun x : Nat => -(x : Int)) → a < 0 := by
    intro a ha
    obtain ⟨x, hx, rfl⟩ := List.mem_map.1 ha
    have := hm.neg x hx
    omega
  have hhead : ∀ b, (m.2.2.map fun x : Nat => (x : Int)).head? = some b → ¬b < 0 := by
    intro b hb
    cases hc : m.2.2 with
    | nil => rw [hc] at hb; cases hb
    | cons x xs =>
      rw [hc] at hb
      cases hb
      dsimp only
      omega
  have e1 := takeWhile_front _ _ hneg hhead
  have e2 : ((m.2.1.map fun x : Nat => -(x : Int)) ++ m.2.2.map fun x : Nat => (x : Int)).dropWhile
      (fun x => decide (x < 0)) = m.2.2.map fun x : Nat => (x : Int) := by
    have := List.takeWhile_append_dropWhile (p := fun x : Int => decide (x < 0))
      (l := (m.2.1.map fun x : Nat => -(x : Int)) ++ m.2.2.map fun x : Nat => (x : Int))
    rw [e1] at this
    exact List.append_cancel_left this
  have e3 : (m.2.1.map fun x : Nat => -(x : Int)).map Int.natAbs = m.2.1 := by
    rw [List.map_map]
    conv => rhs; rw [← List.map_id m.2.1]
    apply List.map_congr_left
    intro x _
    simp
  have e4 : (m.2.2.map fun x : Nat => (x : Int)).map Int.toNat = m.2.2 := by
    rw [List.map_map]
    conv => rhs; rw [← List.map_id m.2.2]
    apply List.map_congr_left
    intro x _
    simp
  unfold generateSingle
  simp only [Bool.false_eq_true, if_false, e1, e2, e3, e4]
  rw [if_pos]
  rw [List.all_eq_true]
  intro a ha
  obtain ⟨x, hx, rfl⟩ := List.mem_map.1 ha
  have := hm.pos x hx
  simp
  omega

theorem Plan.Ok.part_mid {p : Plan} {N : Nat} (h : p.Ok N) (m : Nat × List Nat × List Nat) (hm : p.middle = some m)
    (body : Nat → List Block) (last : Nat → Block)
    (hcore : ∀ l, CyclicReduce.core m.1 m.2.1 m.2.2 l = some (CyclicReduce.firstBlock m.1 l :: (body l ++ [last l]))) (t : Nat) :
    middlePart false N p.ports p.groups t =
      some ((CyclicReduce.firstBlock m.1 (localOf N [m.1] t) :: (body (localOf N [m.1] t) ++ [last (localOf N [m.1] t)])).map
        fun b => b.map (midLine N m.1 t)) := by
  have hmid : p.mid = m.1 := by unfold Plan.mid; rw [hm]; rfl
  have hsz := (h.middle m hm).size
  have hsizes := h.sizes_down 0 (by omega)
  rw [Nat.sub_zero, List.drop_length, hmid, show -((0 : Nat) : Int) = 0 from rfl] at hsizes
  have hst : stride N [m.1] ≠ 0 := by
    have := stride_pos N [m.1] h.pos (by
      rw [List.prod_singleton, ← h.all, hmid]
      exact Nat.dvd_mul_left _ _)
    omega
  unfold middlePart
  rw [h.group_mid m hm, hsizes]
  simp only [Option.bind_eq_bind, Option.bind_some]
  unfold downSizes
  rw [List.map_nil, List.nil_append, if_neg hst, ent_ports]
  simp only [List.head?_cons, Option.getD_some]
  rw [generate_mid m (h.middle m hm), hcore, Option.bind_some]
  unfold revisePartners
  rfl

end ExtMpi.Groups
