import Verif.Lemmas.GroupsEffect
import Verif.Spec.Groups
/-! The steps of all groups one after the other. -/
namespace ExtMpi.Groups
open Schedule

/-! ## Reductions before the middle -/

/-- The sum of the message `f` over the `st` nodes that have been reduced together with node `t`. -/
def blockSum {V : Type} [AddCommMonoid V] (inp : Nat → Nat → V) (st t f : Nat) : V :=
  ∑ x ∈ Finset.range st, inp (t / st * st + x) f

theorem sum_range_mul {V : Type} [AddCommMonoid V] (a b : Nat) (f : Nat → V) :
    ∑ x ∈ Finset.range (a * b), f x = ∑ i ∈ Finset.range a, ∑ j ∈ Finset.range b, f (i * b + j) := by
  induction a with
  | zero => simp
  | succ a ih => rw [Nat.add_mul, Nat.one_mul, Finset.sum_range_add, ih, Finset.sum_range_succ]

theorem blockSum_step {V : Type} [AddCommMonoid V] (inp : Nat → Nat → V) (N g : Nat) (gs : List Nat) (hg : 0 < g)
    (hst : 0 < stride N (g :: gs)) (t f : Nat) :
    ∑ j ∈ Finset.range g, blockSum inp (stride N (g :: gs)) (globalOf N (g :: gs) t j) f =
      blockSum inp (g * stride N (g :: gs)) t f := by
  unfold blockSum
  rw [sum_range_mul]
  apply Finset.sum_congr rfl
  intro j _
  apply Finset.sum_congr rfl
  intro x _
  congr 1
  rw [global_div N (g :: gs) t j hst]
  show (j + g * (t / stride N (g :: gs) / g)) * stride N (g :: gs) + x = _
  rw [Nat.div_div_eq_div_mul, Nat.mul_comm (stride N (g :: gs)) g]
  ring

/-- One reduction: the sums are over more nodes, the messages are those of the next group. -/
theorem down_one {V : Type} [AddCommMonoid V] (inp : Nat → Nat → V) (N g : Nat) (gs negs : List Nat) (hg : 0 < g)
    (hgs : gs ≠ []) (hfac : 0 < gs.prod) (hst : 0 < stride N (g :: gs)) (hN : (g :: gs).prod ∣ N)
    (hcov : g ≤ (negs.map (· + 1)).prod) (s : Nat → Nat → V)
    (hs : ∀ t k, t < N → k < (g :: gs).prod → s t k = blockSum inp (stride N (g :: gs)) t (numAt N (g :: gs) t k)) :
    ∃ s', Run N (fun t => (downTail g negs (localOf N (g :: gs) t)).map (liftBlock N (g :: gs) t)) s s' ∧
      ∀ t k, t < N → k < gs.prod → s' t k = blockSum inp (stride N gs) t (numAt N gs t k) := by
  obtain ⟨Q, hQ⟩ := hN
  rw [List.prod_cons] at hQ
  have hstQ : stride N (g :: gs) = Q := by
    rw [stride_eq, List.prod_cons, hQ, Nat.mul_div_cancel_left _ (Nat.mul_pos hg hfac)]
  have hst' : stride N gs = g * stride N (g :: gs) := by
    rw [hstQ, stride_eq, hQ, Nat.mul_comm g, Nat.mul_assoc, Nat.mul_div_cancel_left _ hfac]
  have hd : g * stride N (g :: gs) ∣ N := ⟨gs.prod, by rw [hstQ, hQ]; ring⟩
  obtain ⟨s', h1, h2⟩ := down_step N g gs negs hg hfac hst hd hcov s
  refine ⟨s', h1, ?_⟩
  intro t k ht hk
  rw [h2 t k ht hk, hst', ← blockSum_step inp N g gs hg hst]
  apply Finset.sum_congr rfl
  intro j hj
  have hj := Finset.mem_range.1 hj
  have hl : localOf N (g :: gs) t < g := Nat.mod_lt _ hg
  obtain ⟨b1, b2⟩ := shift_back g (localOf N (g :: gs) t) j hl hj
  rw [hs _ _ (global_lt N (g :: gs) t j hst hd hj ht) (by
    rw [List.prod_cons]
    have := Nat.mul_le_mul_right gs.prod b2
    rw [Nat.succ_mul] at this
    omega), numAt_get N g gs hgs _ _ k b2 hk, global_local N (g :: gs) t j hst hj, b1,
    global_global N (g :: gs) t j _ hst hj, global_self]

/-- The sizes of the groups from a reduction to the middle. -/
def downSizes (g0 : Nat) (ds : List (Nat × List Nat)) : List Nat := ds.map Prod.fst ++ [g0]

/-- The blocks of the reductions. -/
def downBlocks (N g0 : Nat) : List (Nat × List Nat) → Nat → List Block
  | [], _ => []
  | d :: ds, t =>
    (CyclicReduce.firstBlock d.1 (localOf N (downSizes g0 (d :: ds)) t) ::
      downTail d.1 d.2 (localOf N (downSizes g0 (d :: ds)) t)).map (liftBlock N (downSizes g0 (d :: ds)) t) ++
      downBlocks N g0 ds t

theorem liftLine_inert (N : Nat) (sizes : List Nat) (t : Nat) (l : LineD) (k : Nat) (h : Inert l) :
    Inert (liftLine N sizes t l k) := by
  constructor
  · intro e he
    obtain ⟨e', he', rfl⟩ := List.mem_map.1 he
    obtain ⟨e'', he'', rfl⟩ := List.mem_map.1 he'
    have := h.send e'' he''
    rw [partner_fst]
    unfold glInt
    dsimp only
    rw [if_neg (by omega)]
    exact this
  · intro e he
    obtain ⟨e', he', rfl⟩ := List.mem_map.1 he
    obtain ⟨e'', he'', rfl⟩ := List.mem_map.1 he'
    have := h.recv e'' he''
    rw [partner_fst]
    unfold glInt
    dsimp only
    rw [if_neg (by omega)]
    exact this
  · unfold liftLine
    rw [h.red]
    rfl
  · rfl

theorem mem_liftBlock {N : Nat} {sizes : List Nat} {t : Nat} {b : Block} {l' : LineD} (h : l' ∈ liftBlock N sizes t b) :
    ∃ l k, l ∈ b ∧ k < sizes.tail.prod ∧ l' = liftLine N sizes t l k := by
  obtain ⟨l, hl, h⟩ := List.mem_flatMap.1 h
  obtain ⟨k, hk, rfl⟩ := List.mem_map.1 h
  exact ⟨l, k, hl, List.mem_range.1 hk, rfl⟩

theorem firstBlock_inert (g l : Nat) (x : LineD) (hx : x ∈ CyclicReduce.firstBlock g l) : Inert x := by
  obtain ⟨n, _, rfl⟩ := mem_mk hx
  refine ⟨fun e he => (by cases he), fun e he => ?_, rfl, rfl⟩
  rw [List.mem_singleton.1 he]
  exact Int.negSucc_lt_zero 0

theorem gatherFirst_inert (l : Nat) (x : LineD) (hx : x ∈ Cyclic.gatherFirst l) : Inert x := by
  obtain ⟨n, _, rfl⟩ := mem_mk hx
  refine ⟨fun e he => (by cases he), fun e he => ?_, rfl, rfl⟩
  rw [List.mem_singleton.1 he]
  exact Int.negSucc_lt_zero 0

theorem downSizes_cons (g0 : Nat) (d : Nat × List Nat) (ds : List (Nat × List Nat)) :
    downSizes g0 (d :: ds) = d.1 :: downSizes g0 ds := rfl

theorem downSizes_ne (g0 : Nat) (ds : List (Nat × List Nat)) : downSizes g0 ds ≠ [] := by
  unfold downSizes; simp

theorem downSizes_pos (g0 : Nat) (hg0 : 0 < g0) (ds : List (Nat × List Nat)) (h : ∀ d, d ∈ ds → DownOk d) :
    0 < (downSizes g0 ds).prod := by
  apply prod_pos'
  intro a ha
  rcases List.mem_append.1 ha with ha | ha
  · obtain ⟨d, hd, rfl⟩ := List.mem_map.1 ha
    have := (h d hd).size
    omega
  · rw [List.mem_singleton.1 ha]; exact hg0

theorem stride_pos (N : Nat) (sizes : List Nat) (hN : 0 < N) (hd : sizes.prod ∣ N) : 0 < stride N sizes := by
  rw [stride_eq]
  exact Nat.div_pos (Nat.le_of_dvd hN hd) (Nat.pos_of_dvd_of_pos hd hN)

theorem downs_run {V : Type} [AddCommMonoid V] (inp : Nat → Nat → V) (N g0 : Nat) (hN : 0 < N) (hg0 : 0 < g0)
    (ds : List (Nat × List Nat)) (hds : ∀ d, d ∈ ds → DownOk d) (hdvd : (downSizes g0 ds).prod ∣ N)
    (s : Nat → Nat → V)
    (hs : ∀ t k, t < N → k < (downSizes g0 ds).prod →
      s t k = blockSum inp (stride N (downSizes g0 ds)) t (numAt N (downSizes g0 ds) t k)) :
    ∃ s', Run N (downBlocks N g0 ds) s s' ∧
      ∀ t k, t < N → k < g0 → s' t k = blockSum inp (N / g0) t (numAt N [g0] t k) := by
  induction ds generalizing s with
  | nil =>
    refine ⟨s, .done fun _ _ => rfl, ?_⟩
    intro t k ht hk
    have := hs t k ht (by simpa [downSizes] using hk)
    rw [stride_eq] at this
    simpa [downSizes] using this
  | cons d ds ih =>
    have hd := hds d List.mem_cons_self
    have hds' : ∀ d, d ∈ ds → DownOk d := fun x hx => hds x (List.mem_cons_of_mem _ hx)
    have hpos := downSizes_pos g0 hg0 ds hds'
    have hst := stride_pos N _ hN hdvd
    have hdvd' : (downSizes g0 ds).prod ∣ N := Nat.dvd_trans ⟨d.1, by
      rw [downSizes_cons, List.prod_cons, Nat.mul_comm]⟩ hdvd
    obtain ⟨s1, h1, h2⟩ := down_one inp N d.1 (downSizes g0 ds) d.2 (by have := hd.size; omega) (downSizes_ne g0 ds) hpos
      hst hdvd hd.cover s hs
    obtain ⟨s2, h3, h4⟩ := ih hds' hdvd' s1 h2
    refine ⟨s2, ?_, h4⟩
    apply Recursive.Run.append (p := fun t => (CyclicReduce.firstBlock d.1 (localOf N (downSizes g0 (d :: ds)) t) ::
      downTail d.1 d.2 (localOf N (downSizes g0 (d :: ds)) t)).map (liftBlock N (downSizes g0 (d :: ds)) t)) _ h3
    refine .step _ _ s (fun _ _ => rfl) ?_ h1
    apply inert_step
    intro t _ l hl
    obtain ⟨l', k, h5, _, rfl⟩ := mem_liftBlock hl
    exact liftLine_inert _ _ _ _ _ (firstBlock_inert _ _ _ h5)

/-! ## Gathers after the middle -/

/-- The blocks of the gathers; `acc` are the sizes from the group before to the middle. -/
def upBlocks (N : Nat) : List Nat → List (Nat × List Nat) → Nat → List Block
  | _, [], _ => []
  | acc, u :: us, t =>
    (Cyclic.gatherFirst (localOf N (u.1 :: acc) t) :: upTail u.1 u.2 (localOf N (u.1 :: acc) t)).map
      (liftBlock N (u.1 :: acc) t) ++ upBlocks N (u.1 :: acc) us t

/-- The sizes at the end. -/
def upSizes (acc : List Nat) (us : List (Nat × List Nat)) : List Nat := (us.map Prod.fst).reverse ++ acc

theorem upSizes_cons (acc : List Nat) (u : Nat × List Nat) (us : List (Nat × List Nat)) :
    upSizes acc (u :: us) = upSizes (u.1 :: acc) us := by
  unfold upSizes
  simp

theorem insert_inert (a b : Block) (h : ∀ l, l ∈ b → Inert l) (l : LineD) (hl : l ∈ insertLines a b) : Inert l := by
  unfold insertLines at hl
  rcases List.mem_append.1 hl with hl | hl
  · obtain ⟨x, _, rfl⟩ := List.mem_map.1 hl
    exact ⟨fun _ h => (by cases h), fun _ h => (by cases h), rfl, rfl⟩
  · obtain ⟨x, hx, rfl⟩ := List.mem_map.1 hl
    have := h x hx
    refine ⟨this.send, ?_, ?_, ?_⟩
    · intro e he
      obtain ⟨e', he', rfl⟩ := List.mem_map.1 he
      exact this.recv e' he'
    · dsimp only; rw [this.red]; rfl
    · dsimp only; rw [this.copy]; rfl

theorem insert_sim {F : Nat → Nat → Nat} {m : Nat → Nat} {fac : Nat} {b B : Block} (h : BlockSim F m fac 0 b B) (a : Block) :
    BlockSim F m fac a.length b (insertLines a B) := by
  obtain ⟨pre, parts, rfl, hL, hpre, hp⟩ := h.ex
  have : pre = [] := List.length_eq_zero_iff.1 hL
  subst this
  refine ⟨a.map (fun l => { frac := l.frac }), parts.map fun part => part.map fun l =>
    { l with
      recvfrom := l.recvfrom.map fun e => (e.1, e.2 + (a.length : Int))
      reducefrom := l.reducefrom.map (· + a.length)
      copyreducefrom := l.copyreducefrom.map (· + a.length) }, ?_, by simp, ?_, ?_⟩
  · rw [insertLines, List.nil_append, List.map_flatten]
  · intro l hl
    obtain ⟨x, _, rfl⟩ := List.mem_map.1 hl
    exact ⟨fun _ h => (by cases h), fun _ h => (by cases h), rfl, rfl⟩
  · rw [List.forall₂_map_right_iff]
    apply hp.imp
    intro l part hps
    constructor
    · rw [List.length_map, hps.len]
    · intro k l' hk
      rw [List.getElem?_map] at hk
      obtain ⟨x, hx, rfl⟩ := Option.map_eq_some_iff.1 hk
      have := hps.line k x hx
      refine ⟨this.frac, this.send, ?_, ?_, ?_⟩
      · dsimp only
        rw [List.map_map, ← this.recv]
        rfl
      · dsimp only
        rw [this.red, List.map_map]
        apply List.map_congr_left
        intro r _
        simp only [Function.comp_apply]
        omega
      · dsimp only
        rw [this.copy]
        rfl

/-- One gather after its first block. -/
theorem up_one {V : Type} [Add V] (T : Nat → V) (N : Nat) (hN : 0 < N) (a : Nat → Block) (u : Nat × List Nat)
    (hu : UpOk u) (acc : List Nat) (hacc : acc ≠ []) (hpos : ∀ g, g ∈ acc → 0 < g)
    (hdvd1 : (u.1 :: acc).prod ∣ N) (s : Nat → Nat → V)
    (hs : ∀ t k, t < N → k < acc.prod → s t ((a t).length + k) = T (numAt N acc t k)) :
    ∃ s', Run N (fun t => ((upTail u.1 u.2 (localOf N (u.1 :: acc) t)).map (liftBlock N (u.1 :: acc) t)).map
        (insertLines (a t))) s s' ∧
      ∀ t k, t < N → k < (u.1 :: acc).prod → s' t ((a t).length + k) = T (numAt N (u.1 :: acc) t k) := by
  have hg : 0 < u.1 := by have := hu.size; omega
  have hfac : 0 < acc.prod := prod_pos' _ hpos
  have hst := stride_pos N _ hN hdvd1
  have hd : u.1 * stride N (u.1 :: acc) ∣ N := by
    obtain ⟨Q, hQ⟩ := hdvd1
    rw [List.prod_cons] at hQ
    refine ⟨acc.prod, ?_⟩
    rw [stride_eq, List.prod_cons, hQ, Nat.mul_div_cancel_left _ (Nat.mul_pos hg hfac)]
    ring
  obtain ⟨s1, h1, h2⟩ := up_step N u.1 acc u.2 hg hfac hst hd hu.pos hu.fit hu.cover (fun t => (a t).length)
    (fun t => ((upTail u.1 u.2 (localOf N (u.1 :: acc) t)).map (liftBlock N (u.1 :: acc) t)).map (insertLines (a t)))
    (fun t _ => by
      rw [List.map_map, List.forall₂_map_right_iff, List.forall₂_same]
      intro b _
      exact insert_sim (liftBlock_sim N (u.1 :: acc) t _ b fun j => global_global N (u.1 :: acc) t 0 j hst hg) (a t)) s
  refine ⟨s1, h1, ?_⟩
  intro t k ht hk
  rw [List.prod_cons] at hk
  have hi : k / acc.prod < u.1 := Nat.div_lt_of_lt_mul (by rw [Nat.mul_comm]; exact hk)
  have hm := Nat.mod_lt k hfac
  have e : k / acc.prod * acc.prod + k % acc.prod = k := by rw [Nat.mul_comm]; exact Nat.div_add_mod k acc.prod
  have hl : (k / acc.prod + localOf N (u.1 :: acc) t) % u.1 < u.1 := Nat.mod_lt _ hg
  have h5 := h2 t (k / acc.prod) (k % acc.prod) ht hi hm
  rw [e] at h5
  rw [h5, hs _ _ (global_lt N (u.1 :: acc) t _ hst hd hl ht) hm, ← numAt_get N u.1 acc hacc t _ _ hi hm, e]

theorem upSizes_dvd (N : Nat) (acc : List Nat) (u : Nat × List Nat) (us : List (Nat × List Nat))
    (hdvd : (upSizes (u.1 :: acc) us).prod ∣ N) : (u.1 :: acc).prod ∣ N := by
  apply Nat.dvd_trans _ hdvd
  unfold upSizes
  rw [List.prod_append]
  exact Nat.dvd_mul_left _ _

theorem ups_run {V : Type} [Add V] (T : Nat → V) (N : Nat) (hN : 0 < N) (a : Nat → Block) (us : List (Nat × List Nat))
    (hus : ∀ u, u ∈ us → UpOk u) (acc : List Nat) (hacc : acc ≠ []) (hpos : ∀ g, g ∈ acc → 0 < g)
    (hdvd : (upSizes acc us).prod ∣ N) (s : Nat → Nat → V)
    (hs : ∀ t k, t < N → k < acc.prod → s t ((a t).length + k) = T (numAt N acc t k)) :
    ∃ s', Run N (fun t => (upBlocks N acc us t).map (insertLines (a t))) s s' ∧
      ∀ t k, t < N → k < (upSizes acc us).prod → s' t ((a t).length + k) = T (numAt N (upSizes acc us) t k) := by
  induction us generalizing acc s with
  | nil => exact ⟨s, .done fun _ _ => rfl, hs⟩
  | cons u us ih =>
    have hu := hus u List.mem_cons_self
    have hg : 0 < u.1 := by have := hu.size; omega
    rw [upSizes_cons] at hdvd ⊢
    obtain ⟨s1, h1, h2⟩ := up_one T N hN a u hu acc hacc hpos (upSizes_dvd N acc u us hdvd) s hs
    obtain ⟨s2, h3, h4⟩ := ih (fun x hx => hus x (List.mem_cons_of_mem _ hx)) (u.1 :: acc) (by simp)
      (fun x hx => by
        rcases List.mem_cons.1 hx with rfl | hx
        · exact hg
        · exact hpos x hx) hdvd s1 h2
    refine ⟨s2, ?_, h4⟩
    have e : (fun t => (upBlocks N acc (u :: us) t).map (insertLines (a t))) = fun t =>
        (insertLines (a t) (liftBlock N (u.1 :: acc) t (Cyclic.gatherFirst (localOf N (u.1 :: acc) t))) ::
        ((upTail u.1 u.2 (localOf N (u.1 :: acc) t)).map (liftBlock N (u.1 :: acc) t)).map (insertLines (a t))) ++
        (upBlocks N (u.1 :: acc) us t).map (insertLines (a t)) := by
      funext t
      rw [upBlocks, List.map_append]
      rfl
    rw [e]
    apply Recursive.Run.append _ h3
    refine .step _ _ s (fun _ _ => rfl) ?_ h1
    apply inert_step
    intro t _
    apply insert_inert
    intro l hl
    obtain ⟨l', k, h5, _, rfl⟩ := mem_liftBlock hl
    exact liftLine_inert _ _ _ _ _ (gatherFirst_inert _ _ h5)

/-- All gathers after the first block. -/
theorem ups_tail {V : Type} [Add V] (T : Nat → V) (N : Nat) (hN : 0 < N) (a : Nat → Block) (u : Nat × List Nat)
    (us : List (Nat × List Nat)) (hus : ∀ x, x ∈ u :: us → UpOk x) (acc : List Nat) (hacc : acc ≠ [])
    (hpos : ∀ g, g ∈ acc → 0 < g) (hdvd : (upSizes acc (u :: us)).prod ∣ N) (s : Nat → Nat → V)
    (hs : ∀ t k, t < N → k < acc.prod → s t ((a t).length + k) = T (numAt N acc t k)) :
    ∃ s', Run N (fun t => ((upBlocks N acc (u :: us) t).tail).map (insertLines (a t))) s s' ∧
      ∀ t k, t < N → k < (upSizes acc (u :: us)).prod →
        s' t ((a t).length + k) = T (numAt N (upSizes acc (u :: us)) t k) := by
  have hu := hus u List.mem_cons_self
  have hg : 0 < u.1 := by have := hu.size; omega
  rw [upSizes_cons] at hdvd ⊢
  obtain ⟨s1, h1, h2⟩ := up_one T N hN a u hu acc hacc hpos (upSizes_dvd N acc u us hdvd) s hs
  obtain ⟨s2, h3, h4⟩ := ups_run T N hN a us (fun x hx => hus x (List.mem_cons_of_mem _ hx)) (u.1 :: acc) (by simp)
    (fun x hx => by
      rcases List.mem_cons.1 hx with rfl | hx
      · exact hg
      · exact hpos x hx) hdvd s1 h2
  refine ⟨s2, ?_, h4⟩
  have e : (fun t => ((upBlocks N acc (u :: us) t).tail).map (insertLines (a t))) = fun t =>
      ((upTail u.1 u.2 (localOf N (u.1 :: acc) t)).map (liftBlock N (u.1 :: acc) t)).map (insertLines (a t)) ++
      (upBlocks N (u.1 :: acc) us t).map (insertLines (a t)) := by
    funext t
    rw [← List.map_append]
    rfl
  rw [e]
  exact Recursive.Run.append h1 h3

end ExtMpi.Groups
