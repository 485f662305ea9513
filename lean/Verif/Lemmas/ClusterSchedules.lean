import Verif.Lemmas.TasksSchedules
/-! Messages of the steps of the reductions. -/
namespace ExtMpi.TasksNode
open RawCode Schedule RankPerm

/-- The steps have messages of the kind `C` and their partners are nodes or the user. -/
structure Steps (C : (Nat → Nat → Prop) → Prop) (N : Nat) (ls : Nat → List Block) : Prop where
  len : ∃ L, ∀ a, a < N → (ls a).length = L
  msgs : ∀ k, ∃ P, C P ∧ Messages N (fun a => (ls a).getD k []) P
  good : ∀ a, a < N → ∀ b, b ∈ ls a → Good N b

theorem quiet_nil : Quiet [] := fun l hl => by cases hl

theorem messages_congr {N : Nat} {bs bs' : Nat → Block} {P : Nat → Nat → Prop} (h : Messages N bs P)
    (e : ∀ a, a < N → bs' a = bs a) : Messages N bs' P := by
  intro a q ha hq hne
  rw [e a ha, e q hq]
  exact h a q ha hq hne

theorem Steps.congr {C : (Nat → Nat → Prop) → Prop} {N : Nat} {ls ls' : Nat → List Block} (h : Steps C N ls)
    (e : ∀ a, a < N → ls' a = ls a) : Steps C N ls' := by
  obtain ⟨⟨L, hL⟩, h2, h3⟩ := h
  refine ⟨⟨L, fun a ha => by rw [e a ha, hL a ha]⟩, fun k => ?_, fun a ha b hb => h3 a ha b (by rw [← e a ha]; exact hb)⟩
  obtain ⟨P, hC, hP⟩ := h2 k
  exact ⟨P, hC, messages_congr hP fun a ha => by rw [e a ha]⟩

theorem Steps.nil {C : (Nat → Nat → Prop) → Prop} (hC : C fun _ _ => False) (N : Nat) : Steps C N fun _ => [] :=
  ⟨⟨0, fun _ _ => rfl⟩, fun _ => ⟨_, hC, messages_quiet fun _ _ => quiet_nil⟩, fun _ _ b hb => by cases hb⟩

theorem Steps.cons {C : (Nat → Nat → Prop) → Prop} {N : Nat} {hd : Nat → Block} {ls : Nat → List Block}
    {P : Nat → Nat → Prop} (hC : C P) (hm : Messages N hd P) (hg : ∀ a, a < N → Good N (hd a)) (h : Steps C N ls) :
    Steps C N fun a => hd a :: ls a := by
  obtain ⟨L, hL⟩ := h.len
  refine ⟨⟨L + 1, fun a ha => by rw [List.length_cons, hL a ha]⟩, fun k => ?_, fun a ha b hb => ?_⟩
  · cases k with
    | zero => exact ⟨P, hC, hm⟩
    | succ k => exact h.msgs k
  · rcases List.mem_cons.1 hb with rfl | hb
    · exact hg a ha
    · exact h.good a ha b hb

theorem Steps.append {C : (Nat → Nat → Prop) → Prop} {N : Nat} {ls ls' : Nat → List Block} (h : Steps C N ls)
    (h' : Steps C N ls') : Steps C N fun a => ls a ++ ls' a := by
  obtain ⟨L, hL⟩ := h.len
  obtain ⟨L', hL'⟩ := h'.len
  refine ⟨⟨L + L', fun a ha => by rw [List.length_append, hL a ha, hL' a ha]⟩, fun k => ?_, fun a ha b hb => ?_⟩
  · by_cases hk : k < L
    · obtain ⟨P, hC, hP⟩ := h.msgs k
      refine ⟨P, hC, messages_congr hP fun a ha => ?_⟩
      rw [List.getD_eq_getElem?_getD, List.getD_eq_getElem?_getD, List.getElem?_append_left (by rw [hL a ha]; exact hk)]
    · obtain ⟨P, hC, hP⟩ := h'.msgs (k - L)
      refine ⟨P, hC, messages_congr hP fun a ha => ?_⟩
      rw [List.getD_eq_getElem?_getD, List.getD_eq_getElem?_getD, List.getElem?_append_right (by rw [hL a ha]; omega), hL a ha]
  · rcases List.mem_append.1 hb with hb | hb
    · exact h.good a ha b hb
    · exact h'.good a ha b hb

theorem Steps.quiet {C : (Nat → Nat → Prop) → Prop} (hC : C fun _ _ => False) {N : Nat} {hd : Nat → Block}
    (h : ∀ a, a < N → Quiet (hd a)) : Steps C N fun a => [hd a] :=
  .cons hC (messages_quiet h) (fun a ha => (h a ha).good) (.nil hC N)

theorem good_getD {N : Nat} {ls : List Block} (h : ∀ b, b ∈ ls → Good N b) (k : Nat) : Good N (ls.getD k []) := by
  rw [List.getD_eq_getElem?_getD]
  cases hk : ls[k]? with
  | none => intro l hl; cases hl
  | some b => exact h b (List.mem_of_getElem? hk)

/-- Groups whose members all send to each other. -/
def Clique (P : Nat → Nat → Prop) : Prop := ∀ a q c, P a q → (P c q ↔ P a c)

/-- Messages that depend on the distance only. -/
def Shift (N : Nat) (P : Nat → Nat → Prop) : Prop :=
  ∀ a q a' q', a < N → q < N → a' < N → q' < N → (a + N - q) % N = (a' + N - q') % N → (P a q ↔ P a' q')

theorem clique_false : Clique fun _ _ => False := fun _ _ _ h => h.elim

theorem shift_false (N : Nat) : Shift N fun _ _ => False := fun _ _ _ _ _ _ _ _ _ => Iff.rfl

theorem Steps.agree_clique {N ns : Nat} {perm : List Nat} (hp : IsPerm N perm) {ls : Nat → List Block}
    (h : Steps Clique N ls) (k : Nat) : Agree N ns perm fun a => (ls a).getD k [] := by
  obtain ⟨P, hC, hP⟩ := h.msgs k
  exact TasksNode.agree_clique hp (fun a ha => good_getD (h.good a ha) k) hP fun a q c _ _ _ _ _ _ hh => hC a q c hh

theorem Steps.agree_shift {N ns : Nat} {ls : Nat → List Block} (h : Steps (Shift N) N ls) (k : Nat) :
    Agree N ns (List.range N) fun a => (ls a).getD k [] := by
  obtain ⟨P, hC, hP⟩ := h.msgs k
  exact TasksNode.agree_shift (fun a ha => good_getD (h.good a ha) k) hP hC

/-! ## Recursive reductions -/

theorem clique_rel (g D : Nat) : Clique (Recursive.Rel g D) := fun a q c h => rel_clique g D a q c h

theorem messages_if {N : Nat} {bs : Nat → Block} {m0 n0 : Nat → Nat → Nat} {P : Nat → Nat → Prop} [∀ a q, Decidable (P a q)]
    {w : Nat} (hw : 0 < w) (h : Exchange N bs m0 n0 fun q t => if P q t then w else 0) : Messages N bs P := by
  have h := messages_exchange h
  intro a q ha hq hne
  have := h a q ha hq hne
  dsimp only at this
  rw [this.1, this.2]
  split
  · rename_i hr; simp [hr]; omega
  · rename_i hr; simp [hr]

theorem good_mk {N L : Nat} {f : Nat → LineD} (h : ∀ x, x < L → ∀ e, e ∈ (f x).sendto ++ (f x).recvfrom →
    e.1 = -1 ∨ ∃ q : Nat, q < N ∧ e.1 = (q : Int)) : Good N (Recursive.mk L f) := by
  intro l hl e he
  obtain ⟨x, hx, rfl⟩ := List.mem_map.1 hl
  rcases h x (List.mem_range.1 hx) e he with h | ⟨q, h1, h2⟩ <;> omega

theorem quiet_reduceFirst (lb : Nat) : Quiet (Recursive.reduceFirst lb) := by
  intro l hl e he
  obtain ⟨x, _, rfl⟩ := List.mem_map.1 hl
  split at he
  · dsimp only at he
    rw [List.nil_append] at he
    rw [List.mem_singleton.1 he]
  · cases he

theorem quiet_scatterLast (lb t : Nat) : Quiet (Recursive.scatterLast lb t) := by
  intro l hl e he
  obtain ⟨x, _, rfl⟩ := List.mem_map.1 hl
  split at he
  · cases he
  · dsimp only at he
    rw [List.append_nil] at he
    split at he
    · rw [List.mem_singleton.1 he]
    · cases he

theorem quiet_allreduceLast (lb : Nat) : Quiet (Recursive.allreduceLast lb) := by
  intro l hl e he
  obtain ⟨x, _, rfl⟩ := List.mem_map.1 hl
  dsimp only at he
  rw [List.append_nil] at he
  split at he
  · rw [List.mem_singleton.1 he]
  · cases he

section
variable {lb g p : Nat} (hp : 0 < p) (hg : 0 < g) (hd : g * (p + 1) ∣ lb)
include hg hd

theorem good_reduceBlock {t : Nat} (ht : t < lb) (first last : Bool) : Good lb (Recursive.reduceBlock lb (g * (p + 1)) p t first last) := by
  have hgn : g * (p + 1) / (p + 1) = g := Nat.mul_div_cancel _ (by omega)
  have hlt : ∀ i, Recursive.partner g (g * (p + 1)) t i < lb := fun i =>
    Recursive.partner_lt g (p + 1) lb t i hg (by omega) hd ht
  apply good_mk
  intro x _ e he
  rcases List.mem_append.1 he with he | he
  · dsimp only at he
    unfold Recursive.reduceSend at he
    dsimp only at he
    split_ifs at he <;> first
      | cases he; done
      | (rw [List.mem_singleton.1 he, hgn]; exact .inr ⟨_, hlt _, rfl⟩)
  · dsimp only at he
    unfold Recursive.reduceRecv at he
    dsimp only at he
    split_ifs at he <;> first
      | cases he; done
      | (rw [List.mem_singleton.1 he, hgn]; exact .inr ⟨_, hlt _, rfl⟩)

theorem good_middleBlock {t : Nat} (ht : t < lb) (M : Nat) (first : Bool) : Good lb (Recursive.middleBlock lb M g p t first) := by
  have hlt : ∀ i, Recursive.partner g (g * (p + 1)) t i < lb := fun i =>
    Recursive.partner_lt g (p + 1) lb t i hg (by omega) hd ht
  apply good_mk
  intro x _ e he
  rcases List.mem_append.1 he with he | he
  · dsimp only at he
    split_ifs at he <;> first
      | cases he; done
      | (obtain ⟨i, _, rfl⟩ := List.mem_map.1 he; exact .inr ⟨_, hlt _, rfl⟩)
  · dsimp only at he
    split_ifs at he <;> first
      | cases he; done
      | (rw [List.mem_singleton.1 he]; exact .inr ⟨_, hlt _, rfl⟩)

theorem good_gatherBlock2 {t : Nat} (ht : t < lb) : Good lb (Recursive.gatherBlock2 lb g p t) := by
  have hlt : ∀ i, Recursive.partner g (g * (p + 1)) t i < lb := fun i =>
    Recursive.partner_lt g (p + 1) lb t i hg (by omega) hd ht
  apply good_mk
  intro x _ e he
  rcases List.mem_append.1 he with he | he
  · dsimp only at he
    split at he
    · unfold Recursive.gatherSend at he
      split at he
      · obtain ⟨i, _, rfl⟩ := List.mem_map.1 he
        exact .inr ⟨_, hlt _, rfl⟩
      · cases he
    · cases he
  · dsimp only at he
    split at he
    · unfold Recursive.gatherRecv at he
      split at he
      · rw [List.mem_singleton.1 he]
        exact .inr ⟨_, hlt _, rfl⟩
      · cases he
    · cases he

theorem messages_gatherBlock2 : Messages lb (fun t => Recursive.gatherBlock2 lb g p t) (Recursive.Rel g (p + 1)) :=
  messages_if hg (Recursive.gatherLike2 lb g p hg hd).exchange

include hp

theorem messages_reduceBlock (first last : Bool) :
    Messages lb (fun t => Recursive.reduceBlock lb (g * (p + 1)) p t first last) (Recursive.Rel g (p + 1)) :=
  messages_if hg (Recursive.reduceLike lb g p first last hp hg hd).exchange
end

theorem messages_middleBlock {lb M g p : Nat} (first : Bool) (hp : 0 < p) (hg : 0 < g) (hM : 0 < M)
    (hd : g * (p + 1) ∣ M) (hMl : M ∣ lb) :
    Messages lb (fun t => Recursive.middleBlock lb M g p t first) (Recursive.Rel g (p + 1)) :=
  messages_if hM (Recursive.middleLike lb M g p first hp hg hM hd hMl).exchange

theorem steps_reduce (lb M : Nat) (hM : 0 < M) (ps : List Nat) (hp : ∀ p, p ∈ ps → 0 < p) : ∀ (first : Bool) (gb : Nat),
    gb = M * Recursive.factor ps → gb ∣ lb → Steps Clique lb fun t => Recursive.reduceSteps lb t first gb ps := by
  induction ps with
  | nil => intro _ _ _ _; exact .nil clique_false lb
  | cons p ps ih =>
    intro first gb hgb hd
    have e : gb = M * Recursive.factor ps * (p + 1) := by rw [hgb, Recursive.factor_cons]; ring
    have hg : 0 < M * Recursive.factor ps := Nat.mul_pos hM (Recursive.factor_pos ps)
    have hq : gb / (p + 1) = M * Recursive.factor ps := by rw [e]; exact Nat.mul_div_cancel _ (by omega)
    have hp0 := hp p List.mem_cons_self
    have := ih (fun q hq => hp q (List.mem_cons_of_mem _ hq)) false (gb / (p + 1)) hq
      (Nat.dvd_trans ⟨p + 1, by rw [hq]; exact e⟩ hd)
    have hd' : M * Recursive.factor ps * (p + 1) ∣ lb := e ▸ hd
    refine (Steps.cons (clique_rel (M * Recursive.factor ps) (p + 1)) (messages_reduceBlock hp0 hg hd' first ps.isEmpty)
      (fun t ht => good_reduceBlock hg hd' ht first ps.isEmpty) this).congr fun t _ => ?_
    rw [Recursive.reduceSteps, e]

theorem steps_middle (lb M : Nat) (hMpos : 0 < M) (hMl : M ∣ lb) (mids : List Nat) (hp : ∀ p, p ∈ mids → 0 < p) :
    ∀ (first : Bool) (g : Nat), 0 < g → g * Recursive.factor mids = M →
      Steps Clique lb fun t => Recursive.midList lb M t first g mids := by
  induction mids with
  | nil => intro _ _ _ _; exact .nil clique_false lb
  | cons p ps ih =>
    intro first g hg hM
    rw [Recursive.factor_cons, ← Nat.mul_assoc] at hM
    have hp0 := hp p List.mem_cons_self
    have hd : g * (p + 1) ∣ M := ⟨_, hM.symm⟩
    exact Steps.cons (clique_rel g (p + 1)) (messages_middleBlock first hp0 hg hMpos hd hMl)
      (fun t ht => good_middleBlock hg (Nat.dvd_trans hd hMl) ht M first)
      (ih (fun q hq => hp q (List.mem_cons_of_mem _ hq)) false (g * (p + 1)) (Nat.mul_pos hg (by omega)) hM)

theorem steps_gather2 (lb : Nat) (ps : List Nat) : ∀ g, 0 < g → g * Recursive.factor ps ∣ lb →
    Steps Clique lb fun t => Recursive.gatherSteps2 lb t g ps := by
  induction ps with
  | nil => intro _ _ _; exact .nil clique_false lb
  | cons p ps ih =>
    intro g hg hd
    rw [Recursive.factor_cons, ← Nat.mul_assoc] at hd
    have hd' : g * (p + 1) ∣ lb := Nat.dvd_trans ⟨_, rfl⟩ hd
    exact Steps.cons (clique_rel g (p + 1)) (messages_gatherBlock2 hg hd') (fun t ht => good_gatherBlock2 hg hd' ht)
      (ih (g * (p + 1)) (Nat.mul_pos hg (by omega)) hd)

/-- Every step of a reduce_scatter. -/
theorem steps_reduceScatter (ports : List Nat) (hp : ∀ p, p ∈ ports → 0 < p) :
    Steps Clique (Recursive.factor ports) fun t => Recursive.reduceScatter ports t :=
  .cons clique_false (messages_quiet fun _ _ => quiet_reduceFirst _) (fun _ _ => (quiet_reduceFirst _).good)
    ((steps_reduce _ 1 (by omega) ports hp true _ (by rw [Nat.one_mul]) (dvd_refl _)).append
      (.quiet clique_false fun t _ => quiet_scatterLast _ t))

theorem middleSize_eq (M : Nat) (ps : List Nat) : Recursive.middleSize (M * Recursive.factor ps) ps = M := by
  induction ps with
  | nil => simp [Recursive.middleSize, Recursive.factor]
  | cons p ps ih =>
    rw [Recursive.middleSize, Recursive.factor_cons, show M * ((p + 1) * Recursive.factor ps) = M * Recursive.factor ps * (p + 1) by ring,
      Nat.mul_div_cancel _ (by omega), ih]

/-- Every step of an allreduce. -/
theorem steps_allreduce (negs mids gs : List Nat) (hn : ∀ p, p ∈ negs → 0 < p) (hm : ∀ p, p ∈ mids → 0 < p)
    (hbal : Recursive.factor negs = Recursive.factor gs) :
    Steps Clique (Recursive.factor (mids ++ gs)) fun t => Recursive.allreduce negs (mids ++ gs) t := by
  have hf : Recursive.factor (mids ++ gs) = Recursive.factor mids * Recursive.factor gs := by
    simp [Recursive.factor]
  have hms : Recursive.middleSize (Recursive.factor (mids ++ gs)) negs = Recursive.factor mids := by
    rw [hf, ← hbal, middleSize_eq]
  have hM := Recursive.factor_pos mids
  have hMl : Recursive.factor mids ∣ Recursive.factor (mids ++ gs) := ⟨_, hf⟩
  have h1 := steps_reduce (Recursive.factor (mids ++ gs)) (Recursive.factor mids) hM negs hn true (Recursive.factor (mids ++ gs))
    (by rw [hbal]; exact hf) (dvd_refl _)
  have h2 := steps_middle (Recursive.factor (mids ++ gs)) (Recursive.factor mids) hM hMl mids hm negs.isEmpty 1 (by omega)
    (Nat.one_mul _)
  have h3 := steps_gather2 (Recursive.factor (mids ++ gs)) gs (Recursive.factor mids) hM (by rw [← hf])
  have hq : Steps Clique (Recursive.factor (mids ++ gs)) fun _ => [Recursive.allreduceLast (Recursive.factor (mids ++ gs))] :=
    .quiet clique_false fun _ _ => quiet_allreduceLast _
  refine (Steps.cons clique_false (messages_quiet fun _ _ => quiet_reduceFirst (Recursive.factor (mids ++ gs)))
    (fun _ _ => (quiet_reduceFirst _).good) (((h1.append h2).append h3).append hq)).congr fun t _ => ?_
  unfold Recursive.allreduce
  dsimp only
  rw [hms, Recursive.middleSteps_eq _ _ t mids gs hm negs.isEmpty 1 (by omega) (Nat.one_mul _)]

end ExtMpi.TasksNode
