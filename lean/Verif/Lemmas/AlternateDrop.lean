import Verif.Lemmas.ClusterRepeat
/-! Programs without the barriers at their start. -/
namespace ExtMpi.Cluster
open RawCode Schedule
open TasksNode
open OnNode (leadSk nodeW)

/-! ## What the processes know -/

theorem kn_le {N ns : Nat} {W : Nat → Nat → Nat → Prop} {p i q j : Nat} (h : Kn N ns W p i q j) : p / ns = q / ns ∧ i ≤ j := by
  induction h with
  | own h => exact ⟨rfl, h⟩
  | sync _ h _ => exact ⟨h.symm, Nat.le_refl _⟩
  | mono _ _ _ ih => exact ⟨ih.1, by omega⟩
  | trans _ _ ih1 ih2 => exact ⟨ih1.1.trans ih2.1, by omega⟩

/-- Barriers `b + 1, ..., b + d` of a node are removed. -/
theorem kn_shift {N ns : Nat} {W W' : Nat → Nat → Nat → Prop} {a b d : Nat}
    (hW : ∀ q k p, q / ns = a → b + d < k → W q k p → W' q (k - d) p) {p i q j : Nat} (h : Kn N ns W p i q j) (hq : q / ns = a)
    (hi : b + d < i) : Kn N ns W' p (i - d) q (j - d) := by
  induction h with
  | own h => exact .own (by omega)
  | sync h1 h2 h3 => exact .sync h1 h2 (hW _ _ _ hq hi h3)
  | mono _ _ _ ih => exact .mono (ih hq (by omega)) (by omega) (by omega)
  | @trans p i r k q j h1 h2 ih1 ih2 =>
    have l1 := (kn_le h1).2
    have e2 := (kn_le h2).1
    have g2 := ih2 hq (by omega)
    rw [show k + 1 - d = k - d + 1 by omega] at g2
    exact .trans (ih1 (e2.trans hq) hi) g2

/-- The partners with additional ones after the first `c`. -/
def insertW (c : Nat) (L : List (Nat → Nat)) (V : Nat → List (Nat → Nat)) (a : Nat) : List (Nat → Nat) :=
  (List.range c).map (fun j => (V a).getD j id) ++ (L ++ (V a).drop c)

theorem insertW_late (c : Nat) (L : List (Nat → Nat)) (V : Nat → List (Nat → Nat)) (a j : Nat) :
    (insertW c L V a)[c + (L.length + j)]? = (V a)[c + j]? := by
  unfold insertW
  rw [List.getElem?_append_right (by rw [List.length_map, List.length_range]; omega), List.length_map, List.length_range,
    Nat.add_sub_cancel_left, List.getElem?_append_right (Nat.le_add_right _ _), Nat.add_sub_cancel_left, List.getElem?_drop]

theorem insertW_new (c : Nat) (L : List (Nat → Nat)) (V : Nat → List (Nat → Nat)) (a j : Nat) (w : Nat → Nat) (h : L[j]? = some w) :
    (insertW c L V a)[c + j]? = some w := by
  unfold insertW
  rw [List.getElem?_append_right (by rw [List.length_map, List.length_range]; omega), List.length_map, List.length_range,
    Nat.add_sub_cancel_left, List.getElem?_append_left (List.getElem?_eq_some_iff.1 h).1, h]

theorem ordered_drop {N ns a c : Nat} {L ws : List (Nat → Nat)} {E : Master} 
    (h : ∀ (V : Nat → List (Nat → Nat)) (c : Nat), (∀ j w, (L ++ ws)[j]? = some w → (V a)[c + j]? = some w) →
      OrderedAt N ns (single ns (partOf ns V)) a c (List.replicate L.length (none, .barrier) ++ E))
    {V : Nat → List (Nat → Nat)} (hV : ∀ j w, ws[j]? = some w → (V a)[c + j]? = some w) :
    OrderedAt N ns (single ns (partOf ns V)) a c E := by
  intro A r i M r' i' B e hne hr hr' hc
  have h1 := h (insertW c L V) c (fun j w hj => by
    by_cases hl : j < L.length
    · rw [List.getElem?_append_left hl] at hj
      exact insertW_new c L V a j w hj
    · rw [List.getElem?_append_right (by omega)] at hj
      obtain ⟨k, rfl⟩ : ∃ k, j = L.length + k := ⟨j - L.length, by omega⟩
      rw [Nat.add_sub_cancel_left] at hj
      rw [insertW_late]
      exact hV k w hj) (List.replicate L.length (none, .barrier) ++ A) r i M r' i' B (by rw [e, List.append_assoc]) hne hr hr' hc
  rw [bars_append, bars_replicate] at h1
  have h2 := kn_shift (W' := single ns (partOf ns V)) (a := a) (b := c) (d := L.length) (fun q k p hq hk hw => by
    show _ = _
    rw [show p % ns = _ from hw]
    unfold partOf
    rw [hq]
    obtain ⟨j, rfl⟩ : ∃ j, k = c + (L.length + j) + 1 := ⟨k - 1 - c - L.length, by omega⟩
    rw [Nat.add_sub_cancel, show c + (L.length + j) + 1 - L.length - 1 = c + j by omega, List.getD_eq_getElem?_getD,
      List.getD_eq_getElem?_getD, insertW_late]) h1 (proc_div hr' a) (by omega)
  exact h2.mono (by omega) (by omega)

/-! ## The execution -/

variable {X : Type} [Add X]

/-- Processes with additional barriers to pass. -/
def withBars (n : Nat → Nat) (s : State X) : State X :=
  ⟨fun t => { s.proc t with rest := List.replicate (n t) .barrier ++ (s.proc t).rest }, s.chan⟩

theorem withBars_put (n : Nat → Nat) (f : Nat → Proc X) (t : Nat) (p : Proc X) (c : Nat → Nat → List (List X)) :
    withBars n ⟨setProc f t p, c⟩ = ⟨setProc (withBars n ⟨f, c⟩).proc t { p with rest := List.replicate (n t) .barrier ++ p.rest }, c⟩ := by
  unfold withBars
  congr 1
  funext a
  by_cases h : a = t
  · subst h; simp only [setProc_same]
  · simp only [setProc_ne _ _ _ _ h]

theorem step_withBars {N : Nat} {n : Nat → Nat} {l : Lab} {s s1 : State X} (hu : Unbuffered l (withBars n s))
    (h : Step N l (withBars n s) s1) :
    (∃ n', s1 = withBars n' s) ∨ ∃ s', Unbuffered l s ∧ Step N l s s' ∧ s1 = withBars n s' := by
  generalize hw : withBars n s = w at h
  cases h with
  | @loc _ t p ht hl =>
    subst hw
    cases hn : n t with
    | succ k =>
      left
      have hr : ((withBars n s).proc t).rest = .barrier :: (List.replicate k .barrier ++ (s.proc t).rest) := by
        show List.replicate (n t) _ ++ _ = _
        rw [hn]; rfl
      refine ⟨put n t k, ?_⟩
      have hp : p = { s.proc t with rest := List.replicate k .barrier ++ (s.proc t).rest } := by
        cases hl with
        | copy h1 _ _ _ _ => rw [hr] at h1; cases h1
        | irecv h1 _ _ => rw [hr] at h1; cases h1
        | isend h1 _ => rw [hr] at h1; cases h1
        | waitall h1 _ => rw [hr] at h1; cases h1
        | barrier h1 => rw [hr] at h1; cases h1; rfl
      subst hp
      unfold withBars
      congr 1
      funext a
      by_cases h : a = t
      · subst h; simp only [setProc_same, put_same]
      · simp only [setProc_ne _ _ _ _ h, put_other _ _ h]
    | zero =>
      right
      have hr : (withBars n s).proc t = s.proc t := by
        show ({ s.proc t with rest := List.replicate (n t) .barrier ++ (s.proc t).rest } : Proc X) = _
        rw [hn]; rfl
      rw [hr] at hl
      refine ⟨_, trivial, .loc ht hl, ?_⟩
      rw [withBars_put, hn]
      rfl
  | @depart _ q t a k r hq ht hne hs =>
    subst hw
    refine .inr ⟨_, hu, .depart hq ht hne hs, ?_⟩
    rw [withBars_put]
    rfl
  | @arrive _ q t a k r msg ms hq ht hne hc hr hl =>
    subst hw
    refine .inr ⟨_, trivial, .arrive hq ht hne hc hr hl, ?_⟩
    rw [withBars_put]
    rfl

theorem delayed_withBars {n : Nat → Nat} {l : Lab} {s : State X} (h : Delayed l (withBars n s)) : Delayed l s := by
  have key : ∀ t, (∃ r, ((withBars n s).proc t).rest = .waitall :: r) → ∃ r, (s.proc t).rest = .waitall :: r := by
    rintro t ⟨r, hr⟩
    have hr : List.replicate (n t) Instr.barrier ++ (s.proc t).rest = .waitall :: r := hr
    cases hn : n t with
    | zero => rw [hn] at hr; exact ⟨r, hr⟩
    | succ k => rw [hn] at hr; cases hr
  cases l with
  | loc t => exact trivial
  | depart q t => exact key q h
  | arrive q t => exact key t h

theorem run_withBars {N k : Nat} {w e : State X} (h : URun N k w e) :
    ∀ (n : Nat → Nat) (s : State X), w = withBars n s → ∃ k' e' n', URun N k' s e' ∧ e = withBars n' e' := by
  induction h with
  | refl => intro n s hw; exact ⟨0, s, n, .refl, hw⟩
  | step hu hd hs _ ih =>
    intro n s hw
    subst hw
    have hd' := delayed_withBars hd
    rcases step_withBars hu hs with ⟨n', h1⟩ | ⟨s', h1, h2, h3⟩
    · exact ih n' s h1
    · obtain ⟨k', e', n', g1, g2⟩ := ih n s' h3
      exact ⟨_, e', n', .step h1 hd' h2 g1, g2⟩

/-! ## The programs -/

theorem toC_shift (part part' : Nat → Nat) (rank d : Nat) (l : List Instr) : ∀ c, (∀ k, c < k → part (k + d) = part' k) →
    toC part rank (c + d) l = toC part' rank c l := by
  induction l with
  | nil => intro c _; rfl
  | cons i l ih =>
    intro c h
    by_cases hi : i = .barrier
    · subst hi
      show CInstr.set _ :: .wait (part (c + d + 1) : Nat) :: toC part rank (c + d + 1) l = .set _ :: .wait (part' (c + 1) : Nat) :: _
      rw [Nat.add_right_comm c d 1, h (c + 1) (by omega), ih (c + 1) fun k hk => h k (by omega)]
    · rw [toC_op _ _ _ hi, toC_op _ _ _ hi, ih c h]

theorem toC_barriers_length (part : Nat → Nat) (rank n : Nat) : ∀ c, (toC part rank c (List.replicate n .barrier)).length = 2 * n := by
  induction n with
  | zero => intro c; rfl
  | succ n ih =>
    intro c
    rw [List.replicate_succ]
    show (toC part rank (c + 1) (List.replicate n .barrier)).length + 1 + 1 = _
    rw [ih]
    omega

theorem share_replicate (ns r n : Nat) : share ns r (List.replicate n (none, .barrier)) = List.replicate n .barrier := by
  induction n with
  | zero => rfl
  | succ n ih => rw [List.replicate_succ, share_all, ih]; rfl

theorem tags_replicate (q n : Nat) : sendTags q (List.replicate n (none, .barrier)) = [] ∧ recvTags q (List.replicate n (none, .barrier)) = [] := by
  constructor <;> (induction n with
    | zero => rfl
    | succ n ih => rw [List.replicate_succ]; exact ih)

/-- Without the first `L.length` rounds. -/
theorem Piece.drop {N ns : Nat} {E E' : Nat → Master} {ws ws' : Nat → List (Nat → Nat)} {prog : Nat → List CInstr} {m : Nat → Mem X}
    {post : (Nat → Mem X) → Prop} (h : Piece N ns E ws prog m post) (L : List (Nat → Nat))
    (hE : ∀ a, a < N → E a = List.replicate L.length (none, .barrier) ++ E' a) (hws : ∀ a, a < N → ws a = L ++ ws' a) :
    Piece N ns E' ws' (fun p => (prog p).drop (2 * L.length)) m post where
  len := fun a ha => by
    have := h.len a ha
    rw [hE a ha, hws a ha, List.length_append, bars_append, bars_replicate] at this
    omega
  part := fun a ha w hw => h.part a ha w (by rw [hws a ha]; exact List.mem_append_right _ hw)
  wf := fun a ha x hx => h.wf a ha x (by rw [hE a ha]; exact List.mem_append_right _ hx)
  ord := fun a ha V c hV => ordered_drop (L := L) (fun V c hV => by
    rw [← hE a ha]
    exact h.ord a ha V c (by rw [hws a ha]; exact hV)) hV
  waits := fun a ha A B e => by
    obtain ⟨B', v1, v2, h1, h2, h3⟩ := h.waits a ha (List.replicate L.length (none, .barrier) ++ A) B (by
      rw [hE a ha, e, List.append_assoc])
    rw [bars_append, bars_replicate] at h3
    rw [hws a ha] at h2
    rcases List.append_eq_append_iff.1 h2 with ⟨C, c1, c2⟩ | ⟨C, c1, c2⟩
    · exact ⟨B', C, v2, h1, c2, by rw [c1, List.length_append] at h3; omega⟩
    · have hC : C = [] := List.length_eq_zero_iff.1 (by
        have := congrArg List.length c1
        rw [List.length_append] at this
        omega)
      subst hC
      exact ⟨B', [], v2, h1, c2.symm, by
        have := congrArg List.length c1
        rw [List.append_nil] at this
        show 0 = bars A
        omega⟩
  tags := fun a q ha hq hne => by
    have := h.tags a q ha hq hne
    rw [hE a ha, hE q hq, sendTags_append, recvTags_append, (tags_replicate q _).1, (tags_replicate a _).2] at this
    exact this
  code := fun p hp part c hpart => by
    have ha : p / ns < N := div_lt hp
    have := h.code p hp (fun k => if k ≤ c + L.length then (L.getD (k - 1 - c) id) (p % ns) else part (k - L.length)) c (fun j w hj => by
      rw [hws _ ha] at hj
      by_cases hl : j < L.length
      · rw [List.getElem?_append_left hl] at hj
        rw [if_pos (by omega), show c + j + 1 - 1 - c = j by omega, List.getD_eq_getElem?_getD, hj]
        rfl
      · rw [List.getElem?_append_right (by omega)] at hj
        rw [if_neg (by omega), show c + j + 1 - L.length = c + (j - L.length) + 1 by omega]
        exact hpart _ w hj)
    rw [hE _ ha, share_append, share_replicate, toC_append, List.count_replicate_self,
      toC_shift _ part _ _ _ _ (fun k hk => by rw [if_neg (by omega), Nat.add_sub_cancel])] at this
    rw [← this]
    rw [List.drop_append_of_le_length (by rw [toC_barriers_length]), List.drop_of_length_le (by rw [toC_barriers_length]), List.nil_append]
  run := by
    obtain ⟨k, e, h1, h2, h3⟩ := h.run
    have r1 := run_others (initial (fun a => List.replicate L.length Instr.barrier ++ (E' a).map Prod.snd) m).proc h1
    have hs : others N (initial (fun a => List.replicate L.length Instr.barrier ++ (E' a).map Prod.snd) m).proc
        (initial (fun a => (E a).map Prod.snd) m) = withBars (fun _ => L.length) (initial (fun a => (E' a).map Prod.snd) m) := by
      unfold others initial withBars
      congr 1
      funext a
      dsimp only
      by_cases ha : a < N
      · rw [if_pos ha, hE a ha, List.map_append, List.map_replicate]
      · rw [if_neg ha]
    obtain ⟨k', e', n', g1, g2⟩ := run_withBars r1 _ _ hs
    have hp : ∀ a, a < N → e.proc a = { e'.proc a with rest := List.replicate (n' a) .barrier ++ (e'.proc a).rest } := fun a ha => by
      rw [← others_proc N _ e ha, g2]; rfl
    have hc : e.chan = e'.chan := by
      have := congrArg State.chan g2
      exact this
    refine ⟨k', e', g1, fun t ht => ?_, fun mem hm => h3 mem fun a ha => by rw [hm a ha, hp a ha]⟩
    have := h2 t ht
    rw [hp t ht, hc] at this
    exact ⟨(List.append_eq_nil_iff.1 this.1).2, this.2⟩

theorem Full.after {ns : Nat} {A E : Master} {w ws : List (Nat → Nat)} (h : Full ns E ws) (hl : w.length = bars A) :
    Full ns (A ++ E) (w ++ ws) := by
  obtain ⟨E1, E2, ws1, ws2, rfl, rfl, h3⟩ := h
  exact ⟨A ++ E1, E2, w ++ ws1, ws2, by rw [List.append_assoc], by rw [List.append_assoc], by
    rw [List.length_append, bars_append, hl, h3]⟩

/-- Without `j` of the `d` barriers at the start. -/
theorem Serial.drop {N ns d j : Nat} {prog : Nat → List CInstr} {m : Nat → Mem X} {post : (Nat → Mem X) → Prop}
    (h : Serial N ns d prog m post) (hj : j ≤ d) :
    ∃ E ws, Piece N ns E ws (fun p => (prog p).drop (2 * K ns * j)) m post ∧ ∀ a, a < N → Full ns (E a) (ws a) := by
  obtain ⟨_, E, ws, h1, h2⟩ := h
  obtain ⟨k, rfl⟩ : ∃ k, d = j + k := ⟨d - j, by omega⟩
  have hc : ∀ a, ∃ E' ws', a < N → E a = List.replicate (K ns * (j + k)) (none, .barrier) ++ E' ∧
      ws a = syncs (leadSk ns 0 (j + k)) ++ ws' ∧ Full ns E' ws' := fun a => by
    by_cases ha : a < N
    · obtain ⟨E', ws', g⟩ := h2 a ha
      exact ⟨E', ws', fun _ => g⟩
    · exact ⟨[], [], fun h => absurd h ha⟩
  choose E' ws' hh using hc
  refine ⟨fun a => List.replicate (K ns * k) (none, .barrier) ++ E' a, fun a => syncs (leadSk ns 0 k) ++ ws' a, ?_, fun a ha => ?_⟩
  · have := h1.drop (E' := fun a => List.replicate (K ns * k) (none, .barrier) ++ E' a) (ws' := fun a => syncs (leadSk ns 0 k) ++ ws' a)
      (syncs (leadSk ns 0 j)) (fun a ha => by
        rw [(hh a ha).1, syncs_lead_length, Nat.mul_add, List.replicate_add, List.append_assoc]) (fun a ha => by
        rw [(hh a ha).2.1, lead_add, syncs_append, List.append_assoc])
    rw [syncs_lead_length] at this
    rw [Nat.mul_assoc]
    exact this
  · exact (hh a ha).2.2.after (by rw [syncs_lead_length, bars_replicate])

end ExtMpi.Cluster
