import Verif.Lemmas.SocketsRun
/-! Rounds of messages that become copies. -/
namespace ExtMpi.Sockets
open RawCode

/-! ### Parts -/

theorem splitWaits_cons {i : Instr} (h : i ≠ .waitall) (ls : List Instr) :
    splitWaits (i :: ls) = match (splitWaits ls).1 with
      | b :: bs => ((i :: b) :: bs, (splitWaits ls).2)
      | [] => ([], i :: (splitWaits ls).2) := by
  cases i with
  | waitall => exact absurd rfl h
  | _ => simp only [splitWaits]; cases (splitWaits ls).1 <;> rfl

theorem splitWaits_eq (l : List Instr) :
    (splitWaits l).1.flatMap (fun b => b ++ [.waitall]) ++ (splitWaits l).2 = l ∧
      (∀ b ∈ (splitWaits l).1, ∀ i ∈ b, i ≠ .waitall) ∧ ∀ i ∈ (splitWaits l).2, i ≠ .waitall := by
  induction l with
  | nil => simp [splitWaits]
  | cons i l ih =>
    obtain ⟨h1, h2, h3⟩ := ih
    by_cases hi : i = .waitall
    · subst hi
      refine ⟨by simp [splitWaits, h1], ?_, by simpa [splitWaits] using h3⟩
      intro b hb
      simp only [splitWaits, List.mem_cons] at hb
      rcases hb with rfl | hb
      · intro i hi; cases hi
      · exact h2 b hb
    · rw [splitWaits_cons hi]
      cases hs : (splitWaits l).1 with
      | nil =>
        rw [hs] at h1
        refine ⟨by simpa using h1, by simp, ?_⟩
        intro j hj
        rcases List.mem_cons.1 hj with rfl | hj
        · exact hi
        · exact h3 j hj
      | cons b bs =>
        rw [hs] at h1 h2
        refine ⟨by simpa using h1, ?_, h3⟩
        intro c hc
        rcases List.mem_cons.1 hc with rfl | hc
        · intro j hj
          rcases List.mem_cons.1 hj with rfl | hj
          · exact hi
          · exact h2 b (by simp) j hj
        · exact h2 c (by simp [hc])

structure RoundOk (n : Nat) (b : Nat → List Instr) : Prop where
  lines : ∀ t, t < n → ∀ i ∈ b t, LineOk n t i
  waits : ∀ t, t < n → ∀ i ∈ b t, i ≠ .waitall
  matched : ∀ t q, t < n → q < n →
    (sendsTo t (b q)).map Prod.snd = (recvsFrom q (b t)).map Prod.snd ∧ (recvsFrom q (b t)).length ≤ 1

theorem Regular.round {n K : Nat} {prog : Nat → List Instr} (h : Regular n K prog) {r : Nat} (hr : r < K) :
    RoundOk n fun t => part prog t r := by
  have hmem : ∀ t, t < n → ∃ b ∈ (splitWaits (prog t)).1, part prog t r = b := by
    intro t ht
    have hl : r < (splitWaits (prog t)).1.length := by rw [h.waits t ht]; exact hr
    exact ⟨_, List.getElem_mem hl, by simp [part, List.getElem?_eq_getElem hl]⟩
  refine ⟨fun t ht i hi => ?_, fun t ht i hi => ?_, fun t q ht hq => h.matched t q r ht hq hr⟩
  · obtain ⟨b, hb, e⟩ := hmem t ht
    apply h.lines t ht
    rw [← (splitWaits_eq (prog t)).1]
    refine List.mem_append_left _ (List.mem_flatMap.2 ⟨b, hb, List.mem_append_left _ ?_⟩)
    rw [← e]; exact hi
  · obtain ⟨b, hb, e⟩ := hmem t ht
    exact (splitWaits_eq (prog t)).2.1 b hb i (by rw [← e]; exact hi)

/-! ### Messages of a round -/

def delOf (b : Nat → List Instr) (t : Nat) : Instr → Option Del
  | .irecv a _ q => (sendsTo t (b q))[0]?.map fun s => ⟨t, a, s.1, s.2, q⟩
  | _ => none

def dels (b : Nat → List Instr) (t : Nat) (ls : List Instr) : List Del := (ls.filterMap (delOf b t)).reverse

theorem list_one {α : Type} {l : List α} (h : l.length ≤ 1) {x : α} (hx : x ∈ l) : l = [x] := by
  match l, h with
  | [], _ => cases hx
  | [y], _ => rw [List.mem_singleton.1 hx]
  | _ :: _ :: _, h => simp at h

theorem RoundOk.mem_dels {n : Nat} {b : Nat → List Instr} (h : RoundOk n b) {t : Nat} (ht : t < n) {d : Del}
    (hd : d ∈ dels b t (b t)) :
    d.t = t ∧ d.Ok n ∧ recvsFrom d.q (b t) = [(d.a, d.k)] ∧ sendsTo t (b d.q) = [(d.b, d.k)] := by
  unfold dels at hd
  rw [List.mem_reverse, List.mem_filterMap] at hd
  obtain ⟨i, hi, he⟩ := hd
  cases i with
  | irecv a k q =>
    simp only [delOf, Option.map_eq_some_iff] at he
    obtain ⟨s, hs, rfl⟩ := he
    obtain ⟨l1, l2, l3⟩ := h.lines t ht _ hi
    obtain ⟨m1, m2⟩ := h.matched t q ht l2
    have hr := list_one m2 (mem_recvsFrom.2 hi : (a, k) ∈ recvsFrom q (b t))
    have hlen : (sendsTo t (b q)).length ≤ 1 := by
      have := congrArg List.length m1
      simp only [List.length_map] at this
      omega
    have hs' := list_one hlen (List.mem_of_getElem? hs)
    have hk : s.2 = k := by
      rw [hr, hs'] at m1
      simpa using m1
    have hb := (h.lines q l2 _ (mem_sendsTo.1 (List.mem_of_getElem? hs))).1
    exact ⟨rfl, ⟨ht, l2, l3, l1, hb⟩, by rw [hr, hk], by rw [hs']⟩
  | _ => simp [delOf] at he

theorem RoundOk.dels_complete {n : Nat} {b : Nat → List Instr} (h : RoundOk n b) {t q : Nat} (ht : t < n) (hq : q < n)
    (hne : recvsFrom q (b t) ≠ []) : ∃ d ∈ dels b t (b t), d.q = q := by
  obtain ⟨x, hx⟩ := List.exists_mem_of_ne_nil _ hne
  have hi := mem_recvsFrom.1 hx
  have m1 := (h.matched t q ht hq).1
  have hl : 0 < (sendsTo t (b q)).length := by
    have := congrArg List.length m1
    simp only [List.length_map] at this
    have := List.length_pos_iff.2 hne
    omega
  refine ⟨⟨t, x.1, (sendsTo t (b q))[0].1, (sendsTo t (b q))[0].2, q⟩, ?_, rfl⟩
  unfold dels
  rw [List.mem_reverse, List.mem_filterMap]
  exact ⟨_, hi, by simp [delOf, List.getElem?_eq_getElem hl]⟩

theorem dels_nodup (b : Nat → List Instr) (t : Nat) (ls : List Instr) (h : ∀ q, (recvsFrom q ls).length ≤ 1) :
    (ls.filterMap (delOf b t)).Pairwise (fun x y => x.q ≠ y.q) ∧ ∀ d ∈ ls.filterMap (delOf b t), recvsFrom d.q ls ≠ [] := by
  induction ls with
  | nil => simp
  | cons i ls ih =>
    cases i with
    | irecv a k q =>
      have hle : ∀ q', (recvsFrom q' ls).length ≤ (recvsFrom q' (.irecv a k q :: ls)).length := by
        intro q'
        simp only [recvsFrom]
        split <;> simp
      obtain ⟨i1, i2⟩ := ih fun q' => Nat.le_trans (hle q') (h q')
      have hq : recvsFrom q ls = [] := by
        have := h q
        simp only [recvsFrom, if_pos] at this
        exact List.length_eq_zero_iff.1 (by simpa using this)
      have i3 : ∀ d ∈ ls.filterMap (delOf b t), recvsFrom d.q (.irecv a k q :: ls) ≠ [] := by
        intro d hd hc
        have := hle d.q
        rw [hc] at this
        exact i2 d hd (List.length_eq_zero_iff.1 (by simpa using this))
      rw [List.filterMap_cons]
      cases he : delOf b t (.irecv a k q) with
      | none => exact ⟨i1, i3⟩
      | some d =>
        have hdq : d.q = q := by
          simp only [delOf, Option.map_eq_some_iff] at he
          obtain ⟨s, _, rfl⟩ := he
          rfl
        refine ⟨List.pairwise_cons.2 ⟨fun y hy hc => ?_, i1⟩, fun e he => ?_⟩
        · rw [hdq] at hc
          exact i2 y hy (by rw [← hc]; exact hq)
        · rcases List.mem_cons.1 he with rfl | he
          · rw [hdq]; simp [recvsFrom]
          · exact i3 e he
    | _ => exact ih h

theorem RoundOk.one {n : Nat} {b : Nat → List Instr} (h : RoundOk n b) {t : Nat} (ht : t < n) (q : Nat) :
    (recvsFrom q (b t)).length ≤ 1 := by
  by_cases hq : q < n
  · exact (h.matched t q ht hq).2
  · by_contra hc
    obtain ⟨x, hx⟩ := List.exists_mem_of_length_pos (l := recvsFrom q (b t)) (by omega)
    exact hq (h.lines t ht _ (mem_recvsFrom.1 hx)).2.1

def allDels (n : Nat) (b : Nat → List Instr) : List Del := (List.range n).flatMap fun t => dels b t (b t)

theorem RoundOk.nodup {n : Nat} {b : Nat → List Instr} (h : RoundOk n b) :
    ((allDels n b).map fun d => (d.q, d.t)).Nodup := by
  unfold List.Nodup allDels
  rw [List.pairwise_map, List.pairwise_flatMap]
  constructor
  · intro t ht
    rw [List.mem_range] at ht
    unfold dels
    rw [List.pairwise_reverse]
    refine (dels_nodup b t (b t) (h.one ht)).1.imp ?_
    intro x y hxy hc
    exact hxy (Prod.ext_iff.1 hc).1.symm
  · have : (List.range n).Pairwise (fun x y => x < n ∧ y < n ∧ x ≠ y) := by
      refine (List.nodup_range (n := n)).imp_of_mem ?_
      intro x y hx hy hne
      exact ⟨List.mem_range.1 hx, List.mem_range.1 hy, hne⟩
    refine this.imp ?_
    rintro t t' ⟨ht, ht', hne⟩ x hx y hy hc
    have := (h.mem_dels ht hx).1
    have := (h.mem_dels ht' hy).1
    have := (Prod.ext_iff.1 hc).2
    simp_all

theorem RoundOk.mem_all {n : Nat} {b : Nat → List Instr} (h : RoundOk n b) {d : Del} (hd : d ∈ allDels n b) :
    d.Ok n ∧ recvsFrom d.q (b d.t) = [(d.a, d.k)] ∧ sendsTo d.t (b d.q) = [(d.b, d.k)] := by
  obtain ⟨t, ht, hd⟩ := List.mem_flatMap.1 hd
  obtain ⟨rfl, h2, h3, h4⟩ := h.mem_dels (List.mem_range.1 ht) hd
  exact ⟨h2, h3, h4⟩

/-! ### One round -/

variable {X : Type} [AddCommMonoid X]

abbrev Good (n : Nat) (s : State X) : Prop := ∀ k s', Steps n k s s' → Safe n s' ∧ ∀ t, Sep (s'.proc t)

def none2 : Nat → Nat → List (Addr × Nat) := fun _ _ => []

theorem Good.steps {n k : Nat} {s s' : State X} (h : Good n s) (hs : Steps n k s s') : Good n s' :=
  fun l s'' hl => h (k + l) s'' (steps_trans hs hl)

/-- Buffers of the messages of a process are disjoint. -/
def SepLines (ls : List Instr) : Prop :=
  ∀ q q' x y, x ∈ recvsFrom q ls → y ∈ sendsTo q' ls → ¬overlap x.1 x.2 y.1 y.2

theorem sim_locals {n : Nat} (b rest : Nat → List Instr) (hw : ∀ t, t < n → ∀ i ∈ b t, i ≠ .waitall)
    (hl : ∀ t, t < n → ∀ i ∈ b t, LineOk n t i) {s : State X}
    {mem : Nat → Mem X} {M : OnNode.Cell → X} (hat : At n s (fun t => b t ++ rest t) mem none2 none2) (hg : Good n s)
    (hh : Holds n mem M) :
    ∃ k s' mem', Steps n k s s' ∧ At n s' rest mem' (fun t q => recvsFrom q (b t)) (fun t q => sendsTo q (b t)) ∧
      Holds n mem' (OnNode.runElems ((List.range n).flatMap fun t => (b t).flatMap (lineElems n t)) M) := by
  have ho : ∀ t, t < n → ∀ r d c k, Instr.copy r d c k ∈ b t → ¬overlap d k c k := fun t ht =>
    (run_part ht (b t) (rest t) s (fun k s' h => (hg k s' h).1) (hw t ht) (by rw [hat.1 t ht])).2
  obtain ⟨k, s', h1, h2, h3⟩ := run_each (N := n) (s := s) (fun t => after (s.proc t) (b t) (rest t)) (by
    intro t ht k s' hs e _
    have := (run_part ht (b t) (rest t) s' (fun l s'' h => (hg _ s'' (steps_trans hs h)).1) (hw t ht)
      (by rw [e, hat.1 t ht])).1
    rwa [e] at this)
  refine ⟨k, s', fun t => locMem (b t) (mem t), h1, ⟨fun t ht => ?_, by rw [h2, hat.2]⟩, holds_all b hl ho hh⟩
  rw [h3 t ht, hat.1 t ht]
  simp [after, none2]

theorem sim_round {n : Nat} (b rest : Nat → List Instr) (hb : RoundOk n b) {s : State X}
    {mem : Nat → Mem X} {M : OnNode.Cell → X} (hat : At n s (fun t => b t ++ .waitall :: rest t) mem none2 none2) (hg : Good n s)
    (hh : Holds n mem M) :
    (∃ k s' mem', Steps n k s s' ∧ At n s' rest mem' none2 none2 ∧
      Holds n mem' (OnNode.runElems ((allDels n b).flatMap (Del.elems n))
        (OnNode.runElems ((List.range n).flatMap fun t => (b t).flatMap (lineElems n t)) M))) ∧
    ∀ t, t < n → SepLines (b t) := by
  obtain ⟨k1, s1, mem1, h1, hat1, hh1⟩ := sim_locals b (fun t => .waitall :: rest t) hb.waits hb.lines hat hg hh
  have hsep : ∀ t, t < n → SepLines (b t) := by
    intro t ht q q' x y hx hy
    have := (hg k1 s1 h1).2 t
    rw [hat1.1 t ht] at this
    exact this.rs q q' x y hx hy
  refine ⟨?_, hsep⟩
  obtain ⟨k2, s2, R', S', h2, hat2, hor, hem⟩ := run_exch (allDels n b) hb.nodup (fun d hd => (hb.mem_all hd).1) hat1
    (fun d hd => ⟨(hb.mem_all hd).2.2, (hb.mem_all hd).2.1⟩)
  have hR : ∀ t, t < n → ∀ q, R' t q = [] := by
    intro t ht q
    rcases (hor t q).1 with e | e
    · exact e
    · by_cases hne : recvsFrom q (b t) = []
      · rw [e, hne]
      · obtain ⟨x, hx⟩ := List.exists_mem_of_ne_nil _ hne
        have hq := (hb.lines t ht _ (mem_recvsFrom.1 hx)).2.1
        obtain ⟨d, hd, rfl⟩ := hb.dels_complete ht hq hne
        have hdt := (hb.mem_dels ht hd).1
        have := (hem d (List.mem_flatMap.2 ⟨t, List.mem_range.2 ht, hd⟩)).1
        rwa [hdt] at this
  have hS : ∀ t, t < n → ∀ q, S' t q = [] := by
    intro t ht q
    rcases (hor t q).2 with e | e
    · exact e
    · by_cases hne : sendsTo q (b t) = []
      · rw [e, hne]
      · obtain ⟨x, hx⟩ := List.exists_mem_of_ne_nil _ hne
        have hq := (hb.lines t ht _ (mem_sendsTo.1 hx)).2.1
        have hne' : recvsFrom t (b q) ≠ [] := by
          intro hc
          have := (hb.matched q t hq ht).1
          rw [hc] at this
          exact hne (by simpa using this)
        obtain ⟨d, hd, rfl⟩ := hb.dels_complete hq ht hne'
        have hdt := (hb.mem_dels hq hd).1
        have := (hem d (List.mem_flatMap.2 ⟨q, List.mem_range.2 hq, hd⟩)).2
        rwa [hdt] at this
  obtain ⟨k3, s3, h3, hc3, hp3⟩ := run_each (N := n) (s := s2) (fun t => { s2.proc t with rest := rest t }) (by
    intro t ht k s' _ e _
    refine ⟨1, .step (.loc ht ?_) .refl⟩
    rw [e]
    refine .waitall (by rw [hat2.1 t ht]) fun q => ?_
    rw [hat2.1 t ht]
    exact ⟨hR t ht q, hS t ht q⟩)
  refine ⟨_, s3, exch (allDels n b) mem1, steps_trans h1 (steps_trans h2 h3), ⟨fun t ht => ?_, by rw [hc3, hat2.2]⟩,
    holds_exch _ (fun d hd => (hb.mem_all hd).1) hh1⟩
  rw [hp3 t ht, hat2.1 t ht]
  simp only [Proc.mk.injEq, true_and]
  exact ⟨funext fun q => hR t ht q, funext fun q => hS t ht q⟩

/-! ### All rounds -/

def anyR (n : Nat) (b : Nat → List Instr) : Bool := (List.range n).any fun t => receives n t (b t)

def rnd (n : Nat) (b : Nat → List Instr) : Rnd :=
  (anyR n b, fun t => (b t).flatMap (lineElems n t), fun t => (dels b t (b t)).flatMap (Del.elems n))

theorem receives_of_del {n : Nat} {b : Nat → List Instr} (h : RoundOk n b) {t : Nat} (ht : t < n) {d : Del} (hd : d ∈ dels b t (b t)) :
    receives n t (b t) = true := by
  obtain ⟨_, h2, h3, _⟩ := h.mem_dels ht hd
  have : (d.a, d.k) ∈ recvsFrom d.q (b t) := by rw [h3]; simp
  unfold receives
  rw [List.any_eq_true]
  refine ⟨_, mem_recvsFrom.1 this, ?_⟩
  simp [Nat.div_eq_of_lt ht, Nat.div_eq_of_lt h2.q]

theorem lockstep_round {n : Nat} {b : Nat → List Instr} (h : RoundOk n b) (T : Nat → List OnNode.Elem) (rs : List Rnd)
    (M : OnNode.Cell → X) : OnNode.lockstep n (roundsSk n T (rnd n b :: rs)) M =
      OnNode.lockstep n (roundsSk n T rs) (OnNode.runElems ((allDels n b).flatMap (Del.elems n))
        (OnNode.runElems ((List.range n).flatMap fun t => (b t).flatMap (lineElems n t)) M)) := by
  have hE : (allDels n b).flatMap (Del.elems n) = (List.range n).flatMap fun t => (dels b t (b t)).flatMap (Del.elems n) := by
    rw [allDels, List.flatMap_assoc]
  have hcons : ∀ (f : Nat → List OnNode.Elem) (B : OnNode.Skel) (m : OnNode.Cell → X),
      OnNode.lockstep n (.ops f :: B) m = OnNode.lockstep n B (OnNode.runElems ((List.range n).flatMap f) m) := by
    intro f B m
    rw [← List.singleton_append, OnNode.lockstep_append, OnNode.lockstep_ops]
  unfold rnd
  rw [roundsSk, hcons]
  by_cases ha : anyR n b = true
  · rw [if_pos ha, OnNode.lockstep_append, OnNode.lockstep_quiet n (quiet_barrier n), hcons, OnNode.lockstep_append,
      OnNode.lockstep_quiet n (quiet_barrier n), hE]
  · rw [if_neg ha]
    have : allDels n b = [] := by
      rw [List.eq_nil_iff_forall_not_mem]
      intro d hd
      obtain ⟨t, ht, hd⟩ := List.mem_flatMap.1 hd
      exact ha (List.any_eq_true.2 ⟨t, ht, receives_of_del h (List.mem_range.1 ht) hd⟩)
    rw [this]
    rfl

theorem sim {n : Nat} (tail : Nat → List Instr) (hw : ∀ t, t < n → ∀ i ∈ tail t, i ≠ .waitall)
    (hl : ∀ t, t < n → ∀ i ∈ tail t, LineOk n t i) (Bs : List (Nat → List Instr)) (hb : ∀ b ∈ Bs, RoundOk n b) {s : State X}
    {mem : Nat → Mem X} {M : OnNode.Cell → X}
    (hat : At n s (fun t => Bs.flatMap (fun b => b t ++ [.waitall]) ++ tail t) mem none2 none2) (hg : Good n s)
    (hh : Holds n mem M) :
    (∃ k s' mem', Steps n k s s' ∧
      At n s' (fun _ => []) mem' (fun t q => recvsFrom q (tail t)) (fun t q => sendsTo q (tail t)) ∧
      Holds n mem' (OnNode.lockstep n (roundsSk n (fun t => (tail t).flatMap (lineElems n t)) (Bs.map (rnd n))) M)) ∧
    ∀ b ∈ Bs, ∀ t, t < n → SepLines (b t) := by
  induction Bs generalizing s mem M with
  | nil =>
    refine ⟨?_, fun b hb => by cases hb⟩
    obtain ⟨k, s', mem', h1, h2, h3⟩ := sim_locals tail (fun _ => []) hw hl (by simpa using hat) hg hh
    refine ⟨k, s', mem', h1, h2, ?_⟩
    show Holds n mem' (OnNode.lockstep n [.ops _] M)
    rw [OnNode.lockstep_ops]
    exact h3
  | cons b Bs ih =>
    obtain ⟨⟨k1, s1, mem1, h1, hat1, hh1⟩, hs⟩ := sim_round b (fun t => Bs.flatMap (fun b => b t ++ [.waitall]) ++ tail t) (hb b (by simp))
      (by simpa using hat) hg hh
    obtain ⟨⟨k2, s2, mem2, h2, hat2, hh2⟩, hs2⟩ := ih (fun b h => hb b (by simp [h])) hat1 (hg.steps h1) hh1
    refine ⟨⟨_, s2, mem2, steps_trans h1 h2, hat2, ?_⟩, fun c hc => ?_⟩
    · rw [List.map_cons, lockstep_round (hb b (by simp))]
      exact hh2
    · rcases List.mem_cons.1 hc with rfl | hc
      · exact hs
      · exact hs2 c hc

end ExtMpi.Sockets
