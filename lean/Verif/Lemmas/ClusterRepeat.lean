import Verif.Lemmas.ClusterRun
import Verif.Spec.ClusterRepeat
/-! Programs of several nodes one after the other. -/
namespace ExtMpi.Cluster
open RawCode Schedule
open TasksNode
open OnNode (dis nodeW)

/-- The changes of a process concern its own data: no other process of the node changes an element that is used, or uses an
element that is changed. -/
structure Private (ns : Nat) (fills : Nat → Nat → List Change) (prog : Nat → List CInstr) : Prop where
  own : ∀ i p x, x ∈ fills i p → ∀ i' p' x', x' ∈ fills i' p' → p ≠ p' → p / ns = p' / ns → ¬Conflict x.instr x'.instr
  used : ∀ i p x, x ∈ fills i p → ∀ p' j, .op j ∈ prog p' → p ≠ p' → p / ns = p' / ns → ¬Conflict x.instr j
  ne : ∀ i p x, x ∈ fills i p → x.1 ≠ x.2

variable {X : Type} [Add X]

/-! ## Executions followed by others -/

/-- Processes that have more to do. -/
def withRest (R : Nat → List Instr) (s : State X) : State X :=
  ⟨fun t => { s.proc t with rest := (s.proc t).rest ++ R t }, s.chan⟩

theorem withRest_put (R : Nat → List Instr) (f : Nat → Proc X) (t : Nat) (p : Proc X) (c : Nat → Nat → List (List X)) :
    withRest R ⟨setProc f t p, c⟩ = ⟨setProc (withRest R ⟨f, c⟩).proc t { p with rest := p.rest ++ R t }, c⟩ := by
  unfold withRest
  congr 1
  funext a
  by_cases h : a = t
  · subst h; simp only [setProc_same]
  · simp only [setProc_ne _ _ _ _ h]

theorem lstep_withRest (R : List Instr) {p q : Proc X} (h : LStep p q) :
    LStep { p with rest := p.rest ++ R } { q with rest := q.rest ++ R } := by
  cases h with
  | copy h1 h2 h3 h4 h5 => exact LStep.copy (p := { p with rest := p.rest ++ R }) (by dsimp only; rw [h1]; rfl) h2 h3 h4 h5
  | irecv h1 h2 h3 => exact LStep.irecv (p := { p with rest := p.rest ++ R }) (by dsimp only; rw [h1]; rfl) h2 h3
  | isend h1 h2 => exact LStep.isend (p := { p with rest := p.rest ++ R }) (by dsimp only; rw [h1]; rfl) h2
  | waitall h1 h2 => exact LStep.waitall (p := { p with rest := p.rest ++ R }) (by dsimp only; rw [h1]; rfl) h2
  | barrier h1 => exact LStep.barrier (p := { p with rest := p.rest ++ R }) (by dsimp only; rw [h1]; rfl)

theorem step_withRest {N : Nat} (R : Nat → List Instr) {l : Lab} {s s' : State X} (hu : Unbuffered l s) (h : Step N l s s') :
    Unbuffered l (withRest R s) ∧ Step N l (withRest R s) (withRest R s') := by
  cases h with
  | @loc _ t p ht hl =>
    refine ⟨trivial, ?_⟩
    rw [withRest_put]
    exact Step.loc (s := withRest R s) ht (lstep_withRest (R t) hl)
  | @depart _ q t a n r hq ht hne hs =>
    refine ⟨hu, ?_⟩
    rw [withRest_put]
    exact Step.depart (s := withRest R s) (a := a) (n := n) (r := r) hq ht hne hs
  | @arrive _ q t a n r msg ms hq ht hne hc hr hl =>
    refine ⟨trivial, ?_⟩
    rw [withRest_put]
    exact Step.arrive (s := withRest R s) hq ht hne hc hr hl

theorem delayed_withRest (R : Nat → List Instr) {l : Lab} {s : State X} (h : Delayed l s) : Delayed l (withRest R s) := by
  cases l with
  | loc t => exact trivial
  | depart q t =>
    obtain ⟨r, hr⟩ := h
    exact ⟨r ++ R q, by show (s.proc q).rest ++ R q = _; rw [hr]; rfl⟩
  | arrive q t =>
    obtain ⟨r, hr⟩ := h
    exact ⟨r ++ R t, by show (s.proc t).rest ++ R t = _; rw [hr]; rfl⟩

theorem run_withRest {N k : Nat} (R : Nat → List Instr) {s s' : State X} (h : URun N k s s') :
    URun N k (withRest R s) (withRest R s') := by
  induction h with
  | refl => exact .refl
  | step hu hd hs _ ih =>
    obtain ⟨h1, h2⟩ := step_withRest R hu hs
    exact .step h1 (delayed_withRest R hd) h2 ih

/-- Processes that do not take part do not send. -/
theorem run_chan {N k : Nat} {s s' : State X} (h : URun N k s s') {q t : Nat} (hq : ¬q < N) : s'.chan q t = s.chan q t := by
  induction h with
  | refl => rfl
  | step hu _ hs _ ih =>
    rw [ih]
    cases hs with
    | loc => rfl
    | depart hq' _ _ _ =>
      show setChan _ _ _ _ q t = _
      unfold setChan
      rw [if_neg]
      rintro ⟨rfl, _⟩
      exact hq hq'
    | arrive hq' _ _ _ _ _ =>
      show setChan _ _ _ _ q t = _
      unfold setChan
      rw [if_neg]
      rintro ⟨rfl, _⟩
      exact hq hq'

/-- One execution after the other. -/
theorem run_append {N k k' : Nat} {P Q : Nat → List Instr} {m : Nat → Mem X} {e e' : State X}
    (h : URun N k (initial P m) e) (he : Final N e) (h' : URun N k' (initial Q fun a => (e.proc a).mem) e') :
    ∃ j f, URun N j (initial (fun a => P a ++ Q a) m) (others N f e') := by
  have r1 := run_withRest Q h
  have e1 : withRest Q (initial P m) = initial (fun a => P a ++ Q a) m := rfl
  rw [e1] at r1
  have r2 := run_others (withRest Q e).proc h'
  have e2 : others N (withRest Q e).proc (initial Q fun a => (e.proc a).mem) = withRest Q e := by
    unfold others
    have hc : (withRest Q e).chan = (initial Q fun a => (e.proc a).mem).chan := by
      funext q t
      show e.chan q t = []
      by_cases hq : q < N
      · exact ((he q hq).2 t).2.2.2
      · exact run_chan h hq
    cases hw : withRest Q e with
    | mk pr ch =>
      rw [hw] at hc
      dsimp only at hc
      subst hc
      congr 1
      funext a
      by_cases ha : a < N
      · rw [if_pos ha]
        have : pr a = (withRest Q e).proc a := by rw [hw]
        rw [this]
        obtain ⟨f1, f2⟩ := he a ha
        show (⟨Q a, (e.proc a).mem, fun _ => [], fun _ => []⟩ : Proc X) = ⟨(e.proc a).rest ++ Q a, (e.proc a).mem, (e.proc a).recvs, (e.proc a).sends⟩
        rw [f1, show (e.proc a).recvs = fun _ => [] from funext fun q => (f2 q).1,
          show (e.proc a).sends = fun _ => [] from funext fun q => (f2 q).2.1]
        rfl
      · rw [if_neg ha]
  rw [e2] at r2
  exact ⟨_, _, r1.trans r2⟩

/-! ## Parts of programs one after the other -/

theorem bars_mid {x : Option Nat × Instr} (A B : Master) (h : x.2 ≠ .barrier) : bars (A ++ x :: B) = bars A + bars B := by
  rw [bars_append, bars_cons, bars_zero (M := [x]) fun y hy => by rw [List.mem_singleton.1 hy]; exact h]
  omega

/-- Accesses of the instructions `E` come after the accesses of other processes in `E1`. -/
def Follows (N ns : Nat) (E1 E : Nat → Master) (ws : Nat → List (Nat → Nat)) : Prop :=
  ∀ a, a < N → ∀ r i A r' i' B, (some r, i) ∈ E1 a → E a = A ++ (some r', i') :: B → r ≠ r' → r < ns → r' < ns → Conflict i i' →
    ∀ (V : Nat → List (Nat → Nat)) (c : Nat), (∀ j w, (ws a)[j]? = some w → (V a)[c + j]? = some w) →
    Kn N ns (single ns (partOf ns V)) (a * ns + r) (c + 1) (a * ns + r') (c + bars A)

theorem not_barrier_left {i j : Instr} (h : Conflict i j) : i ≠ .barrier := fun e => no_conflict_left (.inr e) h

theorem Piece.append {N ns : Nat} {E1 E2 : Nat → Master} {ws1 ws2 : Nat → List (Nat → Nat)} {prog1 prog2 : Nat → List CInstr}
    {m : Nat → Mem X} {post1 post2 : (Nat → Mem X) → Prop} (h1 : Piece N ns E1 ws1 prog1 m post1)
    {k : Nat} {e : State X} (r1 : URun N k (initial (fun a => (E1 a).map Prod.snd) m) e) (r2 : Final N e)
    (h2 : Piece N ns E2 ws2 prog2 (fun a => (e.proc a).mem) post2)
    (hx : Follows N ns E1 E2 ws2) :
    Piece N ns (fun a => E1 a ++ E2 a) (fun a => ws1 a ++ ws2 a) (fun p => prog1 p ++ prog2 p) m post2 := by
  obtain ⟨k', e', q1, q2, q3⟩ := h2.run
  obtain ⟨j, f, hj⟩ := run_append r1 r2 q1
  refine ⟨fun a ha => ?_, fun a ha w hw r hr => ?_, fun a ha x hx => ?_, fun a ha V c hV => ?_,
    fun a ha => (h1.waits a ha).append (h2.waits a ha) (h1.len a ha), fun a q ha hq hne => ?_,
    fun p hp part c hc => ?_, j, others N f e', ?_, fun t ht => ?_, fun mem hm => q3 mem fun a ha => ?_⟩
  · rw [List.length_append, bars_append, h1.len a ha, h2.len a ha]
  · rcases List.mem_append.1 hw with h | h
    · exact h1.part a ha w h r hr
    · exact h2.part a ha w h r hr
  · rcases List.mem_append.1 hx with h | h
    · exact h1.wf a ha x h
    · exact h2.wf a ha x h
  · have o1 := h1.ord a ha V c fun j w hj => hV j w (by rw [List.getElem?_append_left (List.getElem?_eq_some_iff.1 hj).1]; exact hj)
    have hV2 : ∀ j w, (ws2 a)[j]? = some w → (V a)[c + bars (E1 a) + j]? = some w := fun j w hj => by
      rw [Nat.add_assoc]
      apply hV
      rw [← h1.len a ha, List.getElem?_append_right (Nat.le_add_right _ _), Nat.add_sub_cancel_left]
      exact hj
    have o2 := h2.ord a ha V _ hV2
    intro A r i L r' i' B hE hne hr hr' hcon
    rcases List.append_eq_append_iff.1 hE with ⟨A2, e1, e2⟩ | ⟨C, e1, e2⟩
    · have := o2 A2 r i L r' i' B e2 hne hr hr' hcon
      rw [e1, bars_append]
      refine this.mono (by omega) (by omega)
    · cases C with
      | nil =>
        rw [List.append_nil] at e1
        have := o2 [] r i L r' i' B e2.symm hne hr hr' hcon
        have hz : bars ([] : Master) = 0 := rfl
        rw [← e1]
        rw [hz] at this
        exact this.mono (by omega) (by omega)
      | cons z C =>
        obtain ⟨rfl, e3⟩ := List.cons.inj e2
        rcases List.append_eq_append_iff.1 e3.symm with ⟨D, g1, g2⟩ | ⟨D, g1, g2⟩
        · -- the second access is in the second part
          have := hx a ha r i D r' i' B (by rw [e1]; exact List.mem_append_right _ List.mem_cons_self) g2 hne hr hr' hcon V _ hV2
          have hb : bars (E1 a) = bars A + bars C := by rw [e1, bars_mid _ _ (not_barrier_left hcon)]
          rw [g1, bars_append]
          exact this.mono (by omega) (by omega)
        · cases D with
          | nil =>
            rw [List.append_nil] at g1
            have := hx a ha r i [] r' i' B (by rw [e1]; exact List.mem_append_right _ List.mem_cons_self) g2.symm hne hr hr' hcon
              V _ hV2
            have hb : bars (E1 a) = bars A + bars C := by rw [e1, bars_mid _ _ (not_barrier_left hcon)]
            have hz : bars ([] : Master) = 0 := rfl
            rw [hz] at this
            rw [← g1]
            exact this.mono (by omega) (by omega)
          | cons y D =>
            obtain ⟨rfl, g3⟩ := List.cons.inj g2
            exact o1 A r i L r' i' D (by rw [e1, g1]) hne hr hr' hcon
  · rw [sendTags_append, recvTags_append, h1.tags a q ha hq hne, h2.tags a q ha hq hne]
  · have ha : p / ns < N := div_lt hp
    rw [share_append, toC_append, share_count (h1.wf _ ha),
      h1.code p hp part c fun j w hj => hc j w (by rw [List.getElem?_append_left (List.getElem?_eq_some_iff.1 hj).1]; exact hj),
      h2.code p hp part _ fun j w hj => ?_]
    rw [Nat.add_assoc c]
    apply hc
    rw [← h1.len _ ha, List.getElem?_append_right (Nat.le_add_right _ _), Nat.add_sub_cancel_left]
    exact hj
  · simp only [List.map_append]
    exact hj
  · rw [others_proc N _ _ ht]
    exact q2 t ht
  · rw [hm a ha, others_proc N _ _ ha]

/-- Nothing. -/
theorem piece_nil (N ns : Nat) (m : Nat → Mem X) :
    Piece N ns (fun _ => []) (fun _ => []) (fun _ => []) m fun mem => ∀ a, a < N → mem a = m a where
  len := fun _ _ => rfl
  part := fun a _ w h => absurd h List.not_mem_nil
  wf := fun a _ x h => absurd h List.not_mem_nil
  ord := fun a _ V c _ A r i L r' i' B h => by simp at h
  waits := fun a _ => sealed_none List.not_mem_nil
  tags := fun _ _ _ _ _ => rfl
  code := fun _ _ _ _ _ => rfl
  run := ⟨0, _, .refl, fun _ _ => ⟨rfl, fun _ => ⟨rfl, rfl, rfl, rfl⟩⟩, fun mem h a ha => h a ha⟩

/-- The changes of the processes of a node. -/
def fillM (ns : Nat) (f : Nat → List Change) (a : Nat) : Master := perProc ns fun r => (f (a * ns + r)).map Change.instr

theorem fill_snd (ns : Nat) (f : Nat → List Change) (a : Nat) :
    (fillM ns f a).map Prod.snd = ((List.range ns).flatMap fun r => f (a * ns + r)).map Change.instr := by
  unfold fillM
  rw [perProc_snd, List.map_flatMap]

theorem mem_fill {ns : Nat} {f : Nat → List Change} {a : Nat} {r : Nat} {i : Instr} (h : (some r, i) ∈ fillM ns f a) :
    ∃ x, x ∈ f (a * ns + r) ∧ i = x.instr := by
  obtain ⟨r', _, h1, h2⟩ := mem_perProc h
  obtain rfl : r = r' := Option.some.inj h1
  obtain ⟨x, hx, e⟩ := List.mem_map.1 h2
  exact ⟨x, hx, e.symm⟩

theorem fill_copies {ns : Nat} {fills : Nat → Nat → List Change} {prog : Nat → List CInstr} (hP : Private ns fills prog) (s a : Nat) :
    Copies ns (fillM ns (fills s) a) := by
  apply perProc_copies
  intro r i hi
  obtain ⟨x, hx, rfl⟩ := List.mem_map.1 hi
  refine ⟨⟨_, _, _, _, rfl⟩, ?_⟩
  rintro ⟨h1, h2, h3⟩
  refine hP.ne s _ x hx ?_
  obtain ⟨⟨r1, o1⟩, r2, o2⟩ := x
  dsimp only at h1 h2 h3
  rw [h1, show o1 = o2 by omega]

theorem exec1_change (m : Mem X) (x : Change) : exec1 m x.instr = change m x := by
  funext r e
  show (if _ then _ else _) = if _ then _ else _
  by_cases h : r = x.1.reg ∧ e = x.1.off
  · rw [if_pos h, if_pos ⟨h.1, by omega, by omega⟩]
    rw [if_neg (by decide), h.2, Nat.sub_self, Nat.add_zero]
  · rw [if_neg h, if_neg]
    rintro ⟨h1, h2, h3⟩
    exact h ⟨h1, by omega⟩

theorem foldl_change (l : List Change) : ∀ m : Mem X, (l.map Change.instr).foldl exec1 m = l.foldl change m := by
  induction l with
  | nil => intro m; rfl
  | cons x l ih => intro m; rw [List.map_cons, List.foldl_cons, List.foldl_cons, exec1_change, ih]

theorem bars_fill (ns : Nat) (f : Nat → List Change) (a : Nat) : bars (fillM ns f a) = 0 := by
  apply bars_zero
  intro x hx
  obtain ⟨r, _, _, h2⟩ := mem_perProc hx
  obtain ⟨y, _, e⟩ := List.mem_map.1 h2
  rw [← e]
  intro h; cases h

theorem piece_fill {N ns : Nat} (hns : 0 < ns) {fills : Nat → Nat → List Change} {prog : Nat → List CInstr}
    (hP : Private ns fills prog) (s : Nat) (m : Nat → Mem X) :
    Piece N ns (fillM ns (fills s)) (fun _ => []) (fun p => (fills s p).map fun x => .op x.instr) m
      fun mem => ∀ a, a < N → mem a = changed ns (fills s) m a where
  len := fun a _ => (bars_fill ns (fills s) a).symm
  part := fun a _ w h => absurd h List.not_mem_nil
  wf := fun a _ => (fill_copies hP s a).wf
  ord := fun a _ V c _ A r i L r' i' B h hne hr hr' hc => by
    obtain ⟨x, hx, rfl⟩ := mem_fill (by rw [h]; exact List.mem_append_right _ List.mem_cons_self : (some r, i) ∈ fillM ns (fills s) a)
    obtain ⟨x', hx', rfl⟩ := mem_fill (by
      rw [h]; exact List.mem_append_right _ (List.mem_cons_of_mem _ (List.mem_append_right _ List.mem_cons_self)) :
        (some r', i') ∈ fillM ns (fills s) a)
    exact absurd hc (hP.own s _ x hx s _ x' hx' (by omega) (by rw [proc_div hr, proc_div hr']))
  waits := fun a _ => sealed_none fun hm => by
    rcases (fill_copies hP s a _ hm).2 with e | ⟨_, _, _, _, _, _, e⟩ <;> cases e
  tags := fun a q _ _ _ => by rw [(fill_copies hP s a).tags.1, (fill_copies hP s q).tags.2]
  code := fun p _ part c _ => by
    have hr : p % ns < ns := Nat.mod_lt _ hns
    rw [fillM, share_perProc (fun r i hi => by
      obtain ⟨x, _, rfl⟩ := List.mem_map.1 hi
      exact ⟨_, _, _, _, rfl⟩) hr, Nat.div_add_mod', toC_ops _ _ _ (fun i hi => by
      obtain ⟨x, _, rfl⟩ := List.mem_map.1 hi
      intro h; cases h), List.map_map]
    rfl
  run := by
    obtain ⟨s1, ⟨k, r1⟩, q1⟩ := Quiet.copies (is := fun a => (fillM ns (fills s) a).map Prod.snd) (R := fun _ => [])
      ((quiet_initial N (fun a => (fillM ns (fills s) a).map Prod.snd) m).congr fun a ha => by rw [List.append_nil])
      (fun a _ i hi => by
        obtain ⟨x, hx, rfl⟩ := List.mem_map.1 hi
        exact (fill_copies hP s a x hx).1)
    refine ⟨k, s1, r1, fun t ht => ?_, fun mem hm a ha => ?_⟩
    · rw [q1.proc t ht]
      exact ⟨rfl, fun q => ⟨rfl, rfl, q1.chan q t, q1.chan t q⟩⟩
    · rw [hm a ha, q1.proc a ha]
      dsimp only
      rw [fill_snd, foldl_change]
      rfl

/-! ## Repetition -/

theorem Piece.mem_congr {N ns : Nat} {E : Nat → Master} {ws : Nat → List (Nat → Nat)} {prog : Nat → List CInstr}
    {m m' : Nat → Mem X} {post : (Nat → Mem X) → Prop} (h : Piece N ns E ws prog m post) (hm : ∀ a, a < N → m' a = m a) :
    Piece N ns E ws prog m' post := by
  obtain ⟨k, e, h1, h2, h3⟩ := h.run
  have r := run_others (initial (fun a => (E a).map Prod.snd) m').proc h1
  have hs : others N (initial (fun a => (E a).map Prod.snd) m').proc (initial (fun a => (E a).map Prod.snd) m) =
      initial (fun a => (E a).map Prod.snd) m' := by
    unfold others initial
    congr 1
    funext a
    by_cases ha : a < N
    · rw [if_pos ha]
      dsimp only
      rw [hm a ha]
    · rw [if_neg ha]
  rw [hs] at r
  exact ⟨h.len, h.part, h.wf, h.ord, h.waits, h.tags, h.code, k, _, r, fun t ht => by rw [others_proc N _ _ ht]; exact h2 t ht,
    fun mem hmem => h3 mem fun a ha => by rw [hmem a ha, others_proc N _ _ ha]⟩

theorem op_mem {part : Nat → Nat} {rank : Nat} {i : Instr} (hi : i ≠ .barrier) (l : List Instr) (h : i ∈ l) :
    ∀ c, CInstr.op i ∈ toC part rank c l := by
  induction l with
  | nil => cases h
  | cons j l ih =>
    intro c
    by_cases hj : j = .barrier
    · subst hj
      rcases List.mem_cons.1 h with rfl | h
      · exact absurd rfl hi
      · exact List.mem_cons_of_mem _ (List.mem_cons_of_mem _ (ih h (c + 1)))
    · rw [toC_op _ _ _ hj]
      rcases List.mem_cons.1 h with rfl | h
      · exact List.mem_cons_self
      · exact List.mem_cons_of_mem _ (ih h c)

/-- Instructions of a node are in the programs. -/
theorem Piece.mem {N ns : Nat} {E : Nat → Master} {ws : Nat → List (Nat → Nat)} {prog : Nat → List CInstr}
    {m : Nat → Mem X} {post : (Nat → Mem X) → Prop} (h : Piece N ns E ws prog m post) {a r : Nat} (ha : a < N) (hr : r < ns)
    {i : Instr} (hi : i ≠ .barrier) (hm : (some r, i) ∈ E a) : CInstr.op (toProc ns r i) ∈ prog (a * ns + r) := by
  have hc := h.code (a * ns + r) (proc_lt hr ha)
    (fun k => ((ws ((a * ns + r) / ns)).getD (k - 1) id) ((a * ns + r) % ns)) 0 (fun j w hj => by
      rw [Nat.zero_add, Nat.add_sub_cancel, List.getD_eq_getElem?_getD, hj]; rfl)
  rw [← hc, proc_mod hr, proc_div hr]
  refine op_mem (fun e => hi (toProc_barrier.1 e)) _ ?_ _
  obtain ⟨A, B, e⟩ := List.append_of_mem hm
  rw [e, share_append, share_own]
  exact List.mem_append_right _ List.mem_cons_self

theorem follows_led {N ns : Nat} {E1 E : Nat → Master} {ws : Nat → List (Nat → Nat)} (h : Starts N ns E ws) : Follows N ns E1 E ws := by
  intro a ha r i A r' i' B _ e hne hr hr' _ V c hV
  obtain ⟨⟨E', e1⟩, ws', e2⟩ := h a ha
  have hb : K ns ≤ bars A := lead_le (by rw [← e1]; exact e)
  refine (kn_node ha hr hr' hne (V := V) (c := c) fun j w hj => hV j w ?_).mono (Nat.le_refl _) (by omega)
  rw [e2, List.getElem?_append_left (List.getElem?_eq_some_iff.1 hj).1]
  exact hj

theorem led_append {N ns : Nat} {E E1 : Nat → Master} {ws ws1 : Nat → List (Nat → Nat)} (h : Starts N ns E ws) :
    Starts N ns (fun a => E a ++ E1 a) (fun a => ws a ++ ws1 a) := by
  intro a ha
  obtain ⟨⟨E', e1⟩, ws', e2⟩ := h a ha
  dsimp only
  rw [e1, e2]
  exact ⟨⟨_, List.append_assoc ..⟩, _, List.append_assoc ..⟩

/-- The executions before have come to the end when another process reaches the inner instructions. -/
theorem follows_fill {N ns : Nat} {fills : Nat → Nat → List Change} {prog : Nat → List CInstr} (hP : Private ns fills prog) {s : Nat}
    {E1 E : Nat → Master} {ws1 ws : Nat → List (Nat → Nat)} {m : Nat → Mem X} {post : (Nat → Mem X) → Prop}
    (h1 : Piece N ns E1 ws1 prog m post) (h : Starts N ns E ws) :
    Follows N ns E1 (fun a => fillM ns (fills s) a ++ E a) ws := by
  intro a ha r i A r' i' B hi e hne hr hr' hc V c hV
  rcases List.append_eq_append_iff.1 e with ⟨C, e1, e2⟩ | ⟨C, e1, e2⟩
  · rw [e1, bars_append, bars_fill, Nat.zero_add]
    exact follows_led (E1 := E1) h a ha r i C r' i' B hi e2 hne hr hr' hc V c hV
  · cases C with
    | nil =>
      rw [List.append_nil] at e1
      rw [← e1, bars_fill]
      exact follows_led (E1 := E1) h a ha r i [] r' i' B hi e2.symm hne hr hr' hc V c hV
    | cons z C =>
      obtain ⟨rfl, _⟩ := List.cons.inj e2
      obtain ⟨x, hx, rfl⟩ := mem_fill (by rw [e1]; exact List.mem_append_right _ List.mem_cons_self :
        (some r', i') ∈ fillM ns (fills s) a)
      have hm := h1.mem ha hr (not_barrier_left hc) hi
      refine absurd ?_ (hP.used s _ x hx _ _ hm (by omega) (by rw [proc_div hr, proc_div hr']))
      have w : ∀ r i, writes (toProc ns r i) = writes i := by intro r i; cases i <;> rfl
      have d : ∀ r i, reads (toProc ns r i) = reads i := by intro r i; cases i <;> rfl
      have := hc.symm
      unfold Conflict at this ⊢
      rw [w, d]
      exact this

theorem repeat_piece {N ns : Nat} (hns : 0 < ns) {fills : Nat → Nat → List Change} {prog : Nat → List CInstr}
    (hP : Private ns fills prog) {post : (Nat → Mem X) → (Nat → Mem X) → Prop} 
    (h : ∀ m, ∃ E ws, Piece N ns E ws prog m (post m) ∧ Starts N ns E ws) (n : Nat) :
    ∀ s (m : Nat → Mem X), ∃ E ws, Piece N ns E ws (repeatFrom fills prog s n) m (Serially N ns fills post s n m) ∧
      ((∀ a, E a = []) ∨ ∃ E', E = (fun a => fillM ns (fills s) a ++ E' a) ∧ Starts N ns E' ws) := by
  induction n with
  | zero => intro s m; exact ⟨_, _, piece_nil N ns m, .inl fun _ => rfl⟩
  | succ n ih =>
    intro s m
    obtain ⟨E2, ws2, h2, l2⟩ := h (changed ns (fills s) m)
    obtain ⟨k, e, r1, r2, r3⟩ := h2.run
    obtain ⟨E3, ws3, h3, o3⟩ := ih (s + 1) fun a => (e.proc a).mem
    have x3 : Follows N ns E2 E3 ws3 := by
      rcases o3 with o3 | ⟨E', rfl, l3⟩
      · intro a _ r i A r' i' B _ e
        rw [o3 a] at e
        simp at e
      · exact follows_fill hP h2 l3
    have h4 := (h2.append r1 r2 h3 x3).imp (B := Serially N ns fills post s (n + 1) m) fun mem hmem =>
      ⟨_, r3 _ fun _ _ => rfl, hmem⟩
    have h1 := piece_fill (N := N) hns hP s m
    obtain ⟨k1, e1, q1, q2, q3⟩ := h1.run
    have h5 := h4.mem_congr (m' := fun a => (e1.proc a).mem) fun a ha => q3 _ (fun _ _ => rfl) a ha
    have l4 := led_append (E1 := E3) (ws1 := ws3) l2
    exact ⟨_, _, h1.append q1 q2 h5 (follows_led l4), .inr ⟨_, rfl, l4⟩⟩

theorem repeatFrom_congr {fills : Nat → Nat → List Change} {prog prog' : Nat → List CInstr} {p : Nat} (h : prog p = prog' p) (n : Nat) :
    ∀ s, repeatFrom fills prog s n p = repeatFrom fills prog' s n p := by
  induction n with
  | zero => intro s; rfl
  | succ n ih => intro s; rw [repeatFrom, repeatFrom, h, ih]

/-- Executions of programs that start with a barrier of the node. -/
theorem repeat_starts {N ns : Nat} (hns : 0 < ns) {fills : Nat → Nat → List Change} {prog : Nat → List CInstr}
    (hP : Private ns fills fun p => if p < N * ns then prog p else []) {post : (Nat → Mem X) → (Nat → Mem X) → Prop}
    (h : ∀ m, ∃ E ws, Piece N ns E ws prog m (post m) ∧ Starts N ns E ws) (n : Nat)
    (m : Nat → Mem X) : CCorrect N ns (repeated N ns fills prog n) m (Serially N ns fills post 0 n m) := by
  obtain ⟨E, ws, h1, _⟩ := repeat_piece hns hP (fun m => by
    obtain ⟨E, ws, g2, g3⟩ := h m
    exact ⟨E, ws, g2.congr fun p hp => by rw [if_pos hp], g3⟩) n 0 m
  refine ccorrect_congr (h1.ccorrect hns) fun p => ?_
  unfold repeated
  by_cases hp : p < N * ns
  · rw [if_pos hp, if_pos hp]
    exact repeatFrom_congr (by rw [if_pos hp]) _ _
  · rw [if_neg hp, if_neg hp]

/-- Executions of programs that agree with programs of the library. -/
theorem repeat_ccorrect {N ns : Nat} (hns : 0 < ns) {fills : Nat → Nat → List Change} {prog : Nat → List CInstr}
    (hP : Private ns fills fun p => if p < N * ns then prog p else []) {post : (Nat → Mem X) → (Nat → Mem X) → Prop}
    (h : ∀ m, ∃ d pr, 0 < d ∧ (∀ p, p < N * ns → pr p = prog p) ∧ Serial N ns d pr m (post m)) (n : Nat)
    (m : Nat → Mem X) : CCorrect N ns (repeated N ns fills prog n) m (Serially N ns fills post 0 n m) := by
  refine repeat_starts hns hP (fun m => ?_) n m
  obtain ⟨d, pr, hd, g1, _, E, ws, g2, g3⟩ := h m
  exact ⟨E, ws, g2.congr fun p hp => (g1 p hp).symm, g3.starts hd⟩

end ExtMpi.Cluster
