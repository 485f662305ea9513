import Verif.Lemmas.GroupsFlow
/-! Reductions and gathers without a middle group. -/
namespace ExtMpi.Groups
open Schedule

theorem join_link (b : Block) (rest : List Block) (fin fout : List Nat) (h : Link (b :: rest) fin fout) (hne : rest ≠ []) :
    ∃ rest' last, join (b :: rest) = some (b :: rest') ∧ rest'.getLast? = some last ∧ OutBlock last fout ∧
      List.Forall₂ (List.Forall₂ LineSame) rest rest' := by
  obtain ⟨last, hl, ho⟩ := h.last
  have hl' : rest.getLast? = some last := by
    cases rest with
    | nil => exact absurd rfl hne
    | cons c rest => rw [List.getLast?_cons_cons] at hl; exact hl
  have hch : List.IsChain (fun a b => agree a b = true) rest := h.chain.tail
  refine ⟨rest.dropLast.map clear ++ [last], last, ?_, ?_, ho, ?_⟩
  · unfold join
    simp only [cancelLoop_chain rest hch, hl', if_true, Option.toList_some]
  · simp
  · have e : rest = rest.dropLast ++ [last] := by
      rw [List.getLast?_eq_some_iff] at hl'
      obtain ⟨ys, rfl⟩ := hl'
      rw [List.dropLast_concat]
    have hp : ∀ x, x ∈ rest → ∀ l, l ∈ x → Plain l := fun x hx => h.plain x (List.mem_cons_of_mem _ hx)
    conv => lhs; rw [e]
    apply List.rel_append
    · rw [List.forall₂_map_right_iff, List.forall₂_same]
      intro x hx
      exact clear_same x (hp x (List.mem_of_mem_dropLast hx))
    · apply List.Forall₂.cons _ .nil
      rw [List.forall₂_same]
      exact fun l _ => LineSame.refl l

theorem InBlock.copyIn {V : Type} {b : Block} {fs : List Nat} (h : InBlock b fs) (inp junk : Nat → V) (n f : Nat)
    (hf : fs[n]? = some f) : Schedule.copyIn b inp junk n = inp f := by
  have e := congrArg (fun l => l[n]?) h.frac
  simp only [List.getElem?_map, hf] at e
  obtain ⟨l, hl, rfl⟩ := Option.map_eq_some_iff.1 e
  unfold Schedule.copyIn
  rw [hl]
  obtain ⟨x, hx⟩ := (h.line l (List.mem_of_getElem? hl)).2
  dsimp only
  rw [hx]
  rfl

theorem OutBlock.get {b : Block} {fs : List Nat} (h : OutBlock b fs) (n f : Nat) (hf : fs[n]? = some f) :
    ∃ l, b[n]? = some l ∧ (l.sendto.any fun e => e.1 == -1) = true ∧ l.frac = f := by
  have e := congrArg (fun l => l[n]?) h.frac
  simp only [List.getElem?_map, hf] at e
  obtain ⟨l, hl, rfl⟩ := Option.map_eq_some_iff.1 e
  refine ⟨l, hl, ?_, rfl⟩
  obtain ⟨x, hx⟩ := (h.line l (List.mem_of_getElem? hl)).2
  rw [hx]
  rfl

/-- All reductions, from the copy-in on. -/
theorem down_phase {V : Type} [AddCommMonoid V] (N g0 : Nat) (hN : 0 < N) (hg0 : 0 < g0) (d : Nat × List Nat)
    (ds : List (Nat × List Nat)) (hds : ∀ x, x ∈ d :: ds → DownOk x) (hprod : (downSizes g0 (d :: ds)).prod = N)
    (inp junk : Nat → Nat → V) :
    ∃ s', Run N (fun t => (downBlocks N g0 (d :: ds) t).tail)
        (fun t => copyIn ((downBlocks N g0 (d :: ds) t).head?.getD []) (inp t) (junk t)) s' ∧
      ∀ t k, t < N → k < g0 → s' t k = blockSum inp (N / g0) t (numAt N [g0] t k) := by
  have hd := hds d List.mem_cons_self
  have hds' : ∀ x, x ∈ ds → DownOk x := fun x hx => hds x (List.mem_cons_of_mem _ hx)
  have hdvd : (downSizes g0 (d :: ds)).prod ∣ N := by rw [hprod]
  have hst1 : stride N (downSizes g0 (d :: ds)) = 1 := by rw [stride_eq, hprod, Nat.div_self hN]
  obtain ⟨s1, h1, h2⟩ := down_one inp N d.1 (downSizes g0 ds) d.2 (by have := hd.size; omega) (downSizes_ne g0 ds)
    (downSizes_pos g0 hg0 ds hds') (by rw [← downSizes_cons, hst1]; omega) hdvd hd.cover
    (fun t => copyIn ((downBlocks N g0 (d :: ds) t).head?.getD []) (inp t) (junk t)) (by
      intro t k ht hk
      rw [← downSizes_cons] at hk ⊢
      have hin := lift_first N d.1 (downSizes g0 ds) (downSizes_ne g0 ds) t
      rw [show copyIn ((downBlocks N g0 (d :: ds) t).head?.getD []) (inp t) (junk t) k =
        inp t (numAt N (downSizes g0 (d :: ds)) t k) from hin.copyIn (inp t) (junk t) k _
          (expand_some N _ (downSizes_ne g0 (d :: ds)) t k hk)]
      unfold blockSum
      rw [hst1]
      simp)
  obtain ⟨s2, h3, h4⟩ := downs_run inp N g0 hN hg0 ds hds' (Nat.dvd_trans ⟨d.1, by
      rw [downSizes_cons, List.prod_cons, Nat.mul_comm]⟩ hdvd) s1 h2
  refine ⟨s2, ?_, h4⟩
  exact Recursive.Run.append (p := fun t => (downTail d.1 d.2 (localOf N (downSizes g0 (d :: ds)) t)).map
    (liftBlock N (downSizes g0 (d :: ds)) t)) h1 h3

theorem insert_nil (b : Block) : insertLines [] b = b := by
  unfold insertLines
  rw [List.map_nil, List.nil_append]
  conv => rhs; rw [← List.map_id b]
  apply List.map_congr_left
  intro l _
  have h1 : (l.recvfrom.map fun e => (e.1, e.2 + ((([] : Block).length : Nat) : Int))) = l.recvfrom := by
    conv => rhs; rw [← List.map_id l.recvfrom]
    apply List.map_congr_left
    intro e _
    simp
  have h2 : ∀ r : List Nat, (r.map (· + ([] : Block).length)) = r := by
    intro r
    simp
  rw [h1, h2, h2]
  rfl

theorem numAt_all (N : Nat) (sizes : List Nat) (h : sizes ≠ []) (hpos : ∀ g, g ∈ sizes → 0 < g) (hprod : sizes.prod = N)
    (hN : 0 < N) (t f : Nat) (ht : t < N) (hf : f < N) : ∃ k, k < N ∧ numAt N sizes t k = f := by
  have hst1 : stride N sizes = 1 := by rw [stride_eq, hprod, Nat.div_self hN]
  obtain ⟨k, h1, h2⟩ := expand_cover N sizes h hpos (by rw [hprod]) t f ht hf (by rw [hst1, Nat.mod_one, Nat.mod_one])
  exact ⟨k, by rw [← hprod]; exact h1, h2⟩

theorem upSizes_pos (acc : List Nat) (us : List (Nat × List Nat)) (hus : ∀ u, u ∈ us → UpOk u)
    (hpos : ∀ g, g ∈ acc → 0 < g) : ∀ g, g ∈ upSizes acc us → 0 < g := by
  intro g hg
  rcases List.mem_append.1 hg with hg | hg
  · obtain ⟨u, hu, rfl⟩ := List.mem_map.1 (List.mem_reverse.1 hg)
    have := (hus u hu).size
    omega
  · exact hpos g hg

theorem upSizes_prod (acc : List Nat) (us : List (Nat × List Nat)) :
    (upSizes acc us).prod = (us.map Prod.fst).prod * acc.prod := by
  unfold upSizes
  rw [List.prod_append, List.prod_reverse]

theorem downSizes_prod (g0 : Nat) (ds : List (Nat × List Nat)) :
    (downSizes g0 ds).prod = (ds.map Prod.fst).prod * g0 := by
  unfold downSizes
  rw [List.prod_append, List.prod_singleton]

theorem blockSum_all {V : Type} [AddCommMonoid V] (inp : Nat → Nat → V) (N t f : Nat) (ht : t < N) :
    blockSum inp N t f = ∑ x ∈ Finset.range N, inp x f := by
  unfold blockSum
  rw [Nat.div_eq_of_lt ht]
  simp

/-- What the last block delivers, when its lines after those of `a` hold the sums. -/
theorem copyOut_last {V : Type} (N : Nat) (sizes : List Nat) (h : sizes ≠ []) (hpos : ∀ g, g ∈ sizes → 0 < g)
    (hprod : sizes.prod = N) (hN : 0 < N) (t : Nat) (ht : t < N) (b : Block) (hb : OutBlock b (expandFrac N sizes t))
    (v : Nat → V) (T : Nat → V) (hv : ∀ k, k < N → v k = T (numAt N sizes t k)) (f : Nat) (hf : f < N) :
    copyOut b v f = some (T f) := by
  apply copyOut_const
  · intro n l hl _ hfr
    have e := congrArg (fun l => l[n]?) hb.frac
    simp only [List.getElem?_map, hl, Option.map_some, hfr] at e
    have hn : n < N := by
      by_contra hc
      rw [List.getElem?_eq_none (by rw [expand_length N sizes h, hprod]; omega)] at e
      cases e
    rw [hv n hn]
    rw [expand_some N sizes h t n (by rw [hprod]; exact hn)] at e
    rw [← Option.some.inj e]
  · obtain ⟨k, hk, hkf⟩ := numAt_all N sizes h hpos hprod hN t f ht hf
    obtain ⟨l, h1, h2, h3⟩ := hb.get k f (by rw [expand_some N sizes h t k (by rw [hprod]; exact hk), hkf])
    exact ⟨k, l, h1, h2, h3⟩

/-- Reductions and gathers without a middle group: the joined blocks compute the allreduce. -/
theorem plain_exec {V : Type} [AddCommMonoid V] (N : Nat) (hN : 0 < N) (d u : Nat × List Nat)
    (ds us : List (Nat × List Nat)) (hds : ∀ x, x ∈ d :: ds → DownOk x) (hus : ∀ x, x ∈ u :: us → UpOk x)
    (hdp : ((d :: ds).map Prod.fst).prod = N) (hup : ((u :: us).map Prod.fst).prod = N) :
    ∃ sched : Nat → List Block,
      (∀ t, join (downBlocks N 1 (d :: ds) t ++ upBlocks N [1] (u :: us) t) = some (sched t)) ∧
      ∀ inp junk : Nat → Nat → V, ∃ out, Exec N copyOut sched inp junk out ∧ AllreducePost N inp out := by
  have hsd : (downSizes 1 (d :: ds)).prod = N := by rw [downSizes_prod, hdp, Nat.mul_one]
  have hsu : (upSizes [1] (u :: us)).prod = N := by rw [upSizes_prod, hup, List.prod_singleton, Nat.mul_one]
  have hpos := upSizes_pos [1] (u :: us) hus (fun g hg => by rw [List.mem_singleton.1 hg]; omega)
  have hne : upSizes [1] (u :: us) ≠ [] := by unfold upSizes; simp
  have hlink : ∀ t, Link (downBlocks N 1 (d :: ds) t ++ upBlocks N [1] (u :: us) t)
      (expandFrac N (downSizes 1 (d :: ds)) t) (expandFrac N (upSizes [1] (u :: us)) t) := fun t =>
    (downs_link N 1 d ds hds t).append (ups_link N [1] (by simp) u us hus t)
  have hcons : ∀ t, downBlocks N 1 (d :: ds) t ++ upBlocks N [1] (u :: us) t =
      (downBlocks N 1 (d :: ds) t).head?.getD [] ::
        ((downBlocks N 1 (d :: ds) t).tail ++ upBlocks N [1] (u :: us) t) := fun t => rfl
  have hj : ∀ t, ∃ rest' last, join (downBlocks N 1 (d :: ds) t ++ upBlocks N [1] (u :: us) t) =
      some ((downBlocks N 1 (d :: ds) t).head?.getD [] :: rest') ∧ rest'.getLast? = some last ∧
      OutBlock last (expandFrac N (upSizes [1] (u :: us)) t) ∧
      List.Forall₂ (List.Forall₂ LineSame) ((downBlocks N 1 (d :: ds) t).tail ++ upBlocks N [1] (u :: us) t) rest' := by
    intro t
    have := hlink t
    rw [hcons t] at this ⊢
    exact join_link _ _ _ _ this (by rw [upBlocks]; simp)
  choose rest' last hj1 hj2 hj3 hj4 using hj
  refine ⟨_, hj1, ?_⟩
  intro inp junk
  obtain ⟨s1, h1, h2⟩ := down_phase N 1 hN (by omega) d ds hds hsd inp junk
  obtain ⟨s2, h3, h4⟩ := ups_run (fun f => ∑ x ∈ Finset.range N, inp x f) N hN (fun _ => []) (u :: us) hus [1] (by simp)
    (fun g hg => by rw [List.mem_singleton.1 hg]; omega) (by rw [hsu]) s1 (by
      intro t k ht hk
      rw [List.prod_singleton] at hk
      rw [List.length_nil, Nat.zero_add, h2 t k ht hk, Nat.div_one, blockSum_all inp N t _ ht])
  have e : (fun t => (upBlocks N [1] (u :: us) t).map (insertLines [])) = upBlocks N [1] (u :: us) := by
    funext t
    conv => rhs; rw [← List.map_id (upBlocks N [1] (u :: us) t)]
    apply List.map_congr_left
    intro b _
    exact insert_nil b
  rw [e] at h3
  refine ⟨fun t => copyOut (last t) (s2 t), ⟨_, rest', last, s2, fun t _ => ⟨rfl, hj2 t⟩,
    Run.same (Recursive.Run.append h1 h3) fun t _ => hj4 t, fun _ _ => rfl⟩, ?_⟩
  intro t f ht hf
  exact copyOut_last N (upSizes [1] (u :: us)) hne hpos hsu hN t ht (last t) (hj3 t) (s2 t)
    (fun f => ∑ x ∈ Finset.range N, inp x f) (fun k hk => by
      have := h4 t k ht (by rw [hsu]; exact hk)
      rwa [List.length_nil, Nat.zero_add] at this) f hf

end ExtMpi.Groups
