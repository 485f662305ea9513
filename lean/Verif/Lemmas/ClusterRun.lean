import Verif.Lemmas.ClusterOrder
/-! From the instructions of the nodes to the programs of the processes. -/
namespace ExtMpi.Cluster
open RawCode Schedule
open TasksNode
open OnNode (Skel Item Elem R Cell code leadSk dis nodeW)

/-! ## The programs -/

/-- Actions of an instruction with its addresses. -/
def expandRaw (ns rank : Nat) : Instr → List CInstr
  | .copy red d s n => (List.range n).map fun e => .op (.copy red (shift d e) (shift s e) 1)
  | .barrier => rounds ns rank
  | i => [.op i]

theorem toC_append (part : Nat → Nat) (rank : Nat) (l l' : List Instr) : ∀ c,
    toC part rank c (l ++ l') = toC part rank c l ++ toC part rank (c + l.count .barrier) l' := by
  induction l with
  | nil => intro c; rfl
  | cons i l ih =>
    intro c
    by_cases hi : i = .barrier
    · subst hi
      show .set _ :: .wait _ :: toC part rank (c + 1) (l ++ l') = .set _ :: .wait _ :: (toC part rank (c + 1) l ++ _)
      rw [ih, List.count_cons_self, Nat.add_right_comm, Nat.add_assoc]
    · rw [List.cons_append, toC_op _ _ _ hi, toC_op _ _ _ hi, ih, List.count_cons_of_ne hi]
      rfl

theorem toC_ops (part : Nat → Nat) (rank : Nat) (l : List Instr) (h : ∀ i, i ∈ l → i ≠ .barrier) (c : Nat) :
    toC part rank c l = l.map .op := by
  induction l with
  | nil => rfl
  | cons i l ih =>
    rw [toC_op _ _ _ (h i List.mem_cons_self), ih fun j hj => h j (List.mem_cons_of_mem _ hj)]
    rfl

theorem toC_barriers (part : Nat → Nat) (rank : Nat) (n : Nat) : ∀ c,
    toC part rank c (List.replicate n .barrier) =
      (List.range n).flatMap fun k => [.set (rank : Nat), .wait (part (c + k + 1) : Nat)] := by
  induction n with
  | zero => intro c; rfl
  | succ n ih =>
    intro c
    rw [List.replicate_succ', toC_append, ih, List.range_succ, List.flatMap_append, List.flatMap_singleton,
      List.count_replicate_self]
    rfl

theorem toC_skel {ns : Nat} {u : Users} {a : Nat} {part : Nat → Nat} {rank : Nat} (hr : rank < ns) (S : Skel) : ∀ c,
    (∀ j w, (syncs S)[j]? = some w → part (c + j + 1) = w rank) →
    toC part rank c (share ns rank (skelM ns u a S)) = (code S rank).map (fromAct ns u a) ∧
      (share ns rank (skelM ns u a S)).count .barrier = (syncs S).length := by
  induction S with
  | nil => intro c _; exact ⟨rfl, rfl⟩
  | cons I S ih =>
    intro c h
    have e1 : share ns rank (skelM ns u a (I :: S)) = share ns rank (itemM ns u a I) ++ share ns rank (skelM ns u a S) := by
      rw [← share_append]; rfl
    have e2 : code (I :: S) rank = I.acts rank ++ code S rank := rfl
    rw [e1, toC_append, e2, List.map_append, List.count_append]
    cases I with
    | ops f =>
      have e3 : share ns rank (itemM ns u a (.ops f)) = (f rank).map (einstr ns u a) :=
        share_perProc (fun r i hi => by
          obtain ⟨e, _, rfl⟩ := List.mem_map.1 hi
          exact ⟨_, _, _, _, rfl⟩) hr
      have hnb : ∀ i, i ∈ (f rank).map (einstr ns u a) → i ≠ .barrier := by
        intro i hi
        obtain ⟨e, _, rfl⟩ := List.mem_map.1 hi
        intro h; cases h
      have hz : ((f rank).map (einstr ns u a)).count .barrier = 0 := by
        rw [List.count_eq_zero]
        exact fun hm => hnb _ hm rfl
      obtain ⟨i1, i2⟩ := ih c h
      rw [e3, toC_ops _ _ _ hnb, hz, Nat.add_zero, i1, i2, Nat.zero_add]
      refine ⟨?_, rfl⟩
      show _ = ((f rank).map Elem.act).map _ ++ _
      rw [List.map_map, List.map_map]
      rfl
    | sync b w =>
      have e3 : share ns rank (itemM ns u a (.sync b w)) = [.barrier] := by
        show share ns rank [(none, .barrier)] = _
        rw [share_all]; rfl
      obtain ⟨i1, i2⟩ := ih (c + 1) (fun j w' hj => by
        have := h (j + 1) w' hj
        rw [show c + 1 + j + 1 = c + (j + 1) + 1 by omega]
        exact this)
      rw [e3, List.count_singleton_self, i1, i2]
      have := h 0 w rfl
      refine ⟨?_, by show _ = (syncs S).length + 1; omega⟩
      show [CInstr.set _, CInstr.wait (part (c + 1) : Nat)] ++ _ = _
      rw [Nat.add_zero] at this
      rw [this]
      rfl

theorem toC_elem {ns : Nat} {part : Nat → Nat} {rank : Nat} (l : List Instr) : ∀ c,
    (∀ j k, j < l.count .barrier → k < K ns → part (c + (K ns * j + k) + 1) = (rank + 2 ^ k) % ns) →
    toC part rank c (l.flatMap (elemI (K ns))) = l.flatMap (expandRaw ns rank) := by
  induction l with
  | nil => intro c _; rfl
  | cons i l ih =>
    intro c h
    rw [List.flatMap_cons, List.flatMap_cons, toC_append]
    cases i with
    | barrier =>
      rw [List.count_cons_self] at h
      rw [show elemI (K ns) .barrier = List.replicate (K ns) .barrier from rfl, toC_barriers, List.count_replicate_self]
      congr 1
      · show _ = rounds ns rank
        unfold rounds
        apply List.flatMap_congr
        intro k hk
        have := h 0 k (by omega) (List.mem_range.1 hk)
        rw [Nat.mul_zero, Nat.zero_add] at this
        rw [this]
      · apply ih
        intro j k hj hk
        rw [show c + K ns + (K ns * j + k) = c + (K ns * (j + 1) + k) by rw [Nat.mul_add]; omega]
        exact h (j + 1) k (by omega) hk
    | copy red d s n =>
      have hnb : ∀ i, i ∈ elemI (K ns) (.copy red d s n) → i ≠ .barrier := by
        intro i hi
        obtain ⟨e, _, rfl⟩ := List.mem_map.1 hi
        intro h; cases h
      have hz : (elemI (K ns) (.copy red d s n)).count .barrier = 0 := by
        rw [List.count_eq_zero]
        exact fun hm => hnb _ hm rfl
      rw [toC_ops _ _ _ hnb, hz, Nat.add_zero, ih c (by rwa [List.count_cons_of_ne (by intro h; cases h)] at h)]
      congr 1
      unfold elemI
      rw [List.map_map]
      rfl
    | irecv b n q =>
      rw [ih _ (by rwa [List.count_cons_of_ne (by intro h; cases h)] at h)]; rfl
    | isend b n q =>
      rw [ih _ (by rwa [List.count_cons_of_ne (by intro h; cases h)] at h)]; rfl
    | waitall =>
      rw [ih _ (by rwa [List.count_cons_of_ne (by intro h; cases h)] at h)]; rfl

/-- With addresses first. -/
theorem expand_placed {ns : Nat} {u : Users} {t : Nat} (l : List Instr)
    (h : ∀ red d s n, Instr.copy red d s n ∈ l.map (placed u t) → ¬overlap d n s n) :
    l.flatMap (expand ns u t) = (l.map (placed u t)).flatMap (expandRaw ns (t % ns)) := by
  rw [List.flatMap_map]
  apply List.flatMap_congr
  intro i hi
  cases i with
  | copy red d s n =>
    have := h red (place u t d) (place u t s) n (List.mem_map.2 ⟨_, hi, rfl⟩)
    show (if _ then _ else _) = _
    rw [if_neg fun (h : red = false ∧ overlap (place u t d) n (place u t s) n) => this h.2]
    rfl
  | barrier => rfl
  | irecv b n q => rfl
  | isend b n q => rfl
  | waitall => rfl

/-! ## The execution -/

variable {X : Type} [Add X]

theorem skel_copies {ns : Nat} {u : Users} {a : Nat} {S : Skel} (hS : SkelOk ns S) : Copies ns (skelM ns u a S) := by
  intro x hx
  obtain ⟨I, hI, hx⟩ := List.mem_flatMap.1 hx
  obtain ⟨k, hk⟩ := List.mem_iff_getElem?.1 hI
  rcases mem_item hx with ⟨_, _, _, rfl⟩ | ⟨r, e, hr, he, rfl⟩
  · exact ⟨trivial, .inl rfl⟩
  · refine ⟨?_, .inr ⟨r, _, _, _, _, hr, rfl⟩⟩
    have hne := hS.ne r hr k I e hk he
    obtain ⟨⟨x, hd⟩, hs⟩ := hS.shape r hr k I e hk he
    show ¬overlap _ _ _ _
    rcases hs with ⟨y, hs⟩ | ⟨y, hs⟩
    · rw [hd, hs] at hne ⊢
      exact fun h => hne (by rw [overlap_cells h])
    · rw [hd, hs]
      exact fun h => absurd h.1 (by intro h; cases h)

/-- Replace the processes that do not take part. -/
def others (N : Nat) (f : Nat → Proc X) (s : State X) : State X := ⟨fun a => if a < N then s.proc a else f a, s.chan⟩

theorem others_put (N : Nat) (f g : Nat → Proc X) (t : Nat) (p : Proc X) (c : Nat → Nat → List (List X)) (ht : t < N) :
    others N f ⟨setProc g t p, c⟩ = ⟨setProc (others N f ⟨g, c⟩).proc t p, c⟩ := by
  unfold others
  congr 1
  funext a
  by_cases h : a = t
  · subst h; simp only [setProc_same, if_pos ht]
  · simp only [setProc_ne _ _ _ _ h]

theorem others_proc (N : Nat) (f : Nat → Proc X) (s : State X) {t : Nat} (ht : t < N) : (others N f s).proc t = s.proc t :=
  if_pos ht

theorem step_others {N : Nat} (f : Nat → Proc X) {l : Lab} {s s' : State X} (hu : Unbuffered l s) (h : Step N l s s') :
    Unbuffered l (others N f s) ∧ Step N l (others N f s) (others N f s') := by
  cases h with
  | @loc _ t p ht hl =>
    refine ⟨trivial, ?_⟩
    rw [others_put _ _ _ _ _ _ ht]
    exact Step.loc (s := others N f s) ht (by rw [others_proc N f s ht]; exact hl)
  | @depart _ q t a n r hq ht hne hs =>
    refine ⟨⟨hu.1, by rw [others_proc N f s ht]; exact hu.2⟩, ?_⟩
    rw [others_put _ _ _ _ _ _ hq]
    have := Step.depart (s := others N f s) (a := a) (n := n) (r := r) hq ht hne (by rw [others_proc N f s hq]; exact hs)
    rw [others_proc N f s hq] at this
    exact this
  | @arrive _ q t a n r msg ms hq ht hne hc hr hl =>
    refine ⟨trivial, ?_⟩
    rw [others_put _ _ _ _ _ _ ht]
    have := Step.arrive (s := others N f s) hq ht hne hc (by rw [others_proc N f s ht]; exact hr) hl
    rw [others_proc N f s ht] at this
    exact this

theorem delayed_others {N : Nat} (f : Nat → Proc X) {l : Lab} {s s' : State X} (h : Delayed l s) (hs : Step N l s s') :
    Delayed l (others N f s) := by
  cases hs with
  | loc _ _ => exact trivial
  | @depart _ q t a n r hq ht hne hs =>
    obtain ⟨r, hr⟩ := h
    exact ⟨r, by rw [others_proc N f s hq]; exact hr⟩
  | @arrive _ q t a n r msg ms hq ht hne hc hr hl =>
    obtain ⟨r, hr⟩ := h
    exact ⟨r, by rw [others_proc N f s ht]; exact hr⟩

theorem run_others {N k : Nat} (f : Nat → Proc X) {s s' : State X} (h : URun N k s s') :
    URun N k (others N f s) (others N f s') := by
  induction h with
  | refl => exact .refl
  | step hu hd hs _ ih =>
    obtain ⟨h1, h2⟩ := step_others f hu hs
    exact .step h1 (delayed_others f hd hs) h2 ih

/-! ## Parts of programs -/

/-- A barrier of the node. -/
theorem kn_node {N ns a : Nat} (ha : a < N) {r r' : Nat} (hr : r < ns) (hr' : r' < ns) (hne : r ≠ r') {V : Nat → List (Nat → Nat)} {c : Nat}
    (hV : ∀ j w, ((List.range (K ns)).map (nodeW ns))[j]? = some w → (V a)[c + j]? = some w) :
    Kn N ns (single ns (partOf ns V)) (a * ns + r) (c + 1) (a * ns + r') (c + K ns) := by
  have hR := OnNode.R_node (n := ns) [] 0 hr hr'
  rw [List.nil_append, List.length_nil, Nat.zero_add] at hR
  have hP : OnNode.Partners ns (dis 0 (K ns) (nodeW ns)) := OnNode.partners_dis fun k p _ => Nat.mod_lt _ (by omega)
  have := (kn_of_R ha (c := c) hP (by rw [syncs_dis]; exact hV) hR).resolve_left fun h => hne h.1
  have hl : (dis 0 (K ns) (nodeW ns)).length = K ns := OnNode.dis_length _ _ _
  have hs : seg (dis 0 (K ns) (nodeW ns)) (K ns) = K ns := by
    have := seg_full (dis 0 (K ns) (nodeW ns))
    rw [hl, syncs_dis, List.length_map, List.length_range] at this
    exact this
  rw [show Nat.clog 2 ns = K ns from rfl, show seg (dis 0 (K ns) (nodeW ns)) 0 = 0 from rfl, hs, Nat.add_zero] at this
  exact this

theorem bars_replicate (n : Nat) : bars (List.replicate n (none, .barrier)) = n := by
  induction n with
  | zero => rfl
  | succ n ih =>
    rw [List.replicate_succ, bars_cons, ih, Nat.add_comm]
    rfl

/-- What comes before a process's own access contains the leading barriers. -/
theorem lead_le {n : Nat} {E' A B : Master} {r : Nat} {i : Instr}
    (h : List.replicate n (none, .barrier) ++ E' = A ++ (some r, i) :: B) : n ≤ bars A := by
  rcases List.append_eq_append_iff.1 h with ⟨C, e1, _⟩ | ⟨C, e1, e2⟩
  · rw [e1, bars_append, bars_replicate]
    omega
  · cases C with
    | nil =>
      rw [List.append_nil] at e1
      rw [← e1, bars_replicate]
    | cons z C =>
      obtain ⟨rfl, _⟩ := List.cons.inj e2
      have : (some r, i) ∈ List.replicate n ((none : Option Nat), Instr.barrier) := by
        rw [e1]; exact List.mem_append_right _ List.mem_cons_self
      cases (List.mem_replicate.1 this).2

/-- Every wait is directly followed by a barrier of the node. -/
def Sealed (ns : Nat) (E : Master) (ws : List (Nat → Nat)) : Prop :=
  ∀ A B, E = A ++ (none, .waitall) :: B → ∃ B' ws1 ws2, B = List.replicate (K ns) (none, .barrier) ++ B' ∧
    ws = ws1 ++ ((List.range (K ns)).map (nodeW ns) ++ ws2) ∧ ws1.length = bars A

theorem sealed_none {ns : Nat} {E : Master} {ws : List (Nat → Nat)} (h : (none, Instr.waitall) ∉ E) : Sealed ns E ws :=
  fun _ _ e => absurd (by rw [e]; exact List.mem_append_right _ List.mem_cons_self) h

theorem Sealed.append {ns : Nat} {E1 E2 : Master} {ws1 ws2 : List (Nat → Nat)} (h1 : Sealed ns E1 ws1) (h2 : Sealed ns E2 ws2)
    (hl : ws1.length = bars E1) : Sealed ns (E1 ++ E2) (ws1 ++ ws2) := by
  intro A B h
  rcases wait_split h with ⟨B1, e1, rfl⟩ | ⟨A2, rfl, e2⟩
  · obtain ⟨B', v1, v2, rfl, rfl, h3⟩ := h1 _ _ e1
    exact ⟨B' ++ E2, v1, v2 ++ ws2, by rw [List.append_assoc], by simp only [List.append_assoc], h3⟩
  · obtain ⟨B', v1, v2, rfl, rfl, h3⟩ := h2 _ _ e2
    exact ⟨B', ws1 ++ v1, v2, rfl, by simp only [List.append_assoc], by rw [List.length_append, bars_append, hl, h3]⟩

theorem elem_barrier (ns : Nat) (M : Master) : elemM (K ns) ((none, .barrier) :: M) = List.replicate (K ns) (none, .barrier) ++ elemM (K ns) M := by
  rw [elemM_cons]
  show ((elemI (K ns) .barrier).map fun i => (none, i)) ++ _ = _
  unfold elemI
  rw [List.map_replicate]

theorem syncs_lead_one (ns b : Nat) : syncs (leadSk ns b 1) = (List.range (K ns)).map (nodeW ns) := by
  rw [show (1 : Nat) = 0 + 1 from rfl, lead_succ, syncs_append, syncs_dis]; rfl

theorem sealed_elem (ns : Nat) {M : Master} (h : TasksNode.Sealed M) : Sealed ns (elemM (K ns) M) (syncs (leadSk ns 0 (bars M))) := by
  intro A B e
  obtain ⟨A', ⟨o, j⟩, B', P, Q, rfl, e2, e3, e4, e5, e6⟩ := elemM_split e
  have e4 : none = o := e4
  have e5 : Instr.waitall ∈ elemI (K ns) j := e5
  subst e4
  have hj : j = .waitall := by
    cases j with
    | copy red d s n =>
      obtain ⟨_, _, h⟩ := List.mem_map.1 e5
      cases h
    | barrier => cases (List.mem_replicate.1 e5).2
    | irecv a n q => cases List.mem_singleton.1 e5
    | isend a n q => cases List.mem_singleton.1 e5
    | waitall => rfl
  subst hj
  have hl := congrArg List.length e6
  rw [List.length_append, List.length_cons] at hl
  have hl : 1 = P.length + (Q.length + 1) := hl
  obtain rfl : P = [] := List.length_eq_zero_iff.1 (by omega)
  obtain rfl : Q = [] := List.length_eq_zero_iff.1 (by omega)
  obtain ⟨B2, rfl⟩ := h _ _ rfl
  rw [List.append_nil] at e2
  rw [List.nil_append, elem_barrier] at e3
  refine ⟨elemM (K ns) B2, syncs (leadSk ns 0 (bars A')), syncs (leadSk ns 0 (bars B2)), e3, ?_, ?_⟩
  · rw [bars_append, bars_cons, bars_cons (none, .barrier), show bars [((none : Option Nat), Instr.barrier)] = 1 from rfl,
      show bars [((none : Option Nat), Instr.waitall)] = 0 from rfl, Nat.zero_add, lead_add, lead_add, syncs_append, syncs_append,
      syncs_lead_one]
  · rw [syncs_lead_length, e2, bars_elem]

theorem Sealed.waited {N ns a : Nat} (ha : a < N) {E : Master} {ws : Nat → List (Nat → Nat)} (h : Sealed ns E (ws a)) :
    Waited N ns (single ns (partOf ns ws)) a E := by
  intro A L r i B e hr r' hr' hne
  obtain ⟨B', v1, v2, e1, e2, h3⟩ := h _ _ e
  have hb : K ns ≤ bars L := lead_le e1.symm
  refine (kn_node ha hr' hr hne (V := ws) (c := bars A) fun j w hj => ?_).mono (Nat.le_refl _) (by omega)
  rw [e2, ← h3, List.getElem?_append_right (Nat.le_add_right _ _), Nat.add_sub_cancel_left,
    List.getElem?_append_left (List.getElem?_eq_some_iff.1 hj).1]
  exact hj

/-- Instructions `E` of the nodes with the partners `ws` of their barriers, of which the shares of the processes are the
programs `prog`, and which lead from the memories `m` to memories with the property `post`. -/
structure Piece (N ns : Nat) (E : Nat → Master) (ws : Nat → List (Nat → Nat)) (prog : Nat → List CInstr) (m : Nat → Mem X)
    (post : (Nat → Mem X) → Prop) : Prop where
  len : ∀ a, a < N → (ws a).length = bars (E a)
  part : ∀ a, a < N → ∀ w, w ∈ ws a → ∀ r, r < ns → w r < ns
  wf : ∀ a, a < N → ∀ x, x ∈ E a → WF N ns a x
  ord : ∀ a, a < N → ∀ (V : Nat → List (Nat → Nat)) (c : Nat), (∀ j w, (ws a)[j]? = some w → (V a)[c + j]? = some w) →
    OrderedAt N ns (single ns (partOf ns V)) a c (E a)
  waits : ∀ a, a < N → Sealed ns (E a) (ws a)
  tags : ∀ a q, a < N → q < N → a ≠ q → sendTags q (E a) = recvTags a (E q)
  code : ∀ p, p < N * ns → ∀ (part : Nat → Nat) (c : Nat),
    (∀ j w, (ws (p / ns))[j]? = some w → part (c + j + 1) = w (p % ns)) →
    toC part (p % ns) c (share ns (p % ns) (E (p / ns))) = prog p
  run : ∃ k e, URun N k (initial (fun a => (E a).map Prod.snd) m) e ∧ Final N e ∧
    ∀ mem : Nat → Mem X, (∀ a, a < N → mem a = (e.proc a).mem) → post mem

theorem Piece.imp {N ns : Nat} {E : Nat → Master} {ws : Nat → List (Nat → Nat)} {prog : Nat → List CInstr} {m : Nat → Mem X}
    {A B : (Nat → Mem X) → Prop} (h : Piece N ns E ws prog m A) (hAB : ∀ mem, A mem → B mem) : Piece N ns E ws prog m B := by
  obtain ⟨k, e, h1, h2, h3⟩ := h.run
  exact ⟨h.len, h.part, h.wf, h.ord, h.waits, h.tags, h.code, k, e, h1, h2, fun mem hm => hAB mem (h3 mem hm)⟩

theorem Piece.ccorrect {N ns : Nat} (hns : 0 < ns) {E : Nat → Master} {ws : Nat → List (Nat → Nat)} {prog : Nat → List CInstr}
    {m : Nat → Mem X} {post : (Nat → Mem X) → Prop} (h : Piece N ns E ws prog m post) :
    CCorrect N ns (fun p => if p < N * ns then prog p else []) m post := by
  obtain ⟨k, e, h1, h2, h3⟩ := h.run
  obtain ⟨E', hE'⟩ : ∃ E' : Nat → Master, E' = fun a => if a < N then E a else [] := ⟨_, rfl⟩
  have hE : ∀ a, a < N → E' a = E a := fun a ha => by rw [hE']; exact if_pos ha
  have r1 := run_others (initial (fun a => (E' a).map Prod.snd) m).proc h1
  have hs : others N (initial (fun a => (E' a).map Prod.snd) m).proc (initial (fun a => (E a).map Prod.snd) m) =
      initial (fun a => (E' a).map Prod.snd) m := by
    unfold others initial
    congr 1
    funext a
    by_cases ha : a < N
    · rw [if_pos ha]
      dsimp only
      rw [hE a ha]
    · rw [if_neg ha]
  rw [hs] at r1
  have hW := wcorrect_of_masters (N := N) (ns := ns) (W := single ns (partOf ns ws)) (M := E') (m := m) (post := post)
    (fun a ha => by rw [hE a ha]; exact h.wf a ha)
    (fun a ha => by rw [hE a ha]; exact (h.ord a ha ws 0 fun j w hj => by rw [Nat.zero_add]; exact hj).ordered)
    (fun a ha => by rw [hE a ha]; exact (h.waits a ha).waited ha)
    (fun a q ha hq hne => by rw [hE a ha, hE q hq]; exact h.tags a q ha hq hne)
    r1 (fun t ht => by rw [others_proc N _ _ ht]; exact h2 t ht)
    (fun mem hmem => h3 mem fun a ha => by rw [hmem a ha, others_proc N _ _ ha])
  rw [← ccorrect_iff hns (fun p k => partOf_lt hns ws p k)] at hW
  refine ccorrect_congr hW fun p => Eq.symm ?_
  by_cases hp : p < N * ns
  · have ha : p / ns < N := div_lt hp
    have hr : p % ns < ns := Nat.mod_lt _ hns
    rw [if_pos hp, hE _ ha]
    refine h.code p hp _ 0 fun j w hj => ?_
    have := partOf_get hr hj (h.part _ ha w (List.mem_of_getElem? hj) _ hr)
    rwa [Nat.div_add_mod', ← Nat.zero_add j] at this
  · have ha : ¬p / ns < N := fun h => hp (by
      have := proc_lt (Nat.mod_lt p hns) h
      rwa [Nat.div_add_mod'] at this)
    rw [if_neg hp, hE']
    show toC _ _ 0 (share ns (p % ns) (if p / ns < N then _ else [])) = []
    rw [if_neg ha]
    rfl

/-- Instructions that start with a barrier of the node. -/
def Starts (N ns : Nat) (E : Nat → Master) (ws : Nat → List (Nat → Nat)) : Prop :=
  ∀ a, a < N → (∃ E', E a = List.replicate (K ns) (none, .barrier) ++ E') ∧ ∃ ws', ws a = (List.range (K ns)).map (nodeW ns) ++ ws'

/-- There is a barrier of the node among the instructions. -/
def Full (ns : Nat) (E : Master) (ws : List (Nat → Nat)) : Prop :=
  ∃ E1 E2 ws1 ws2, E = E1 ++ (List.replicate (K ns) (none, .barrier) ++ E2) ∧
    ws = ws1 ++ ((List.range (K ns)).map (nodeW ns) ++ ws2) ∧ ws1.length = bars E1

/-- `d` barriers of the node followed by instructions among which there is another one. -/
def Led (N ns d : Nat) (E : Nat → Master) (ws : Nat → List (Nat → Nat)) : Prop :=
  ∀ a, a < N → ∃ E' ws', E a = List.replicate (K ns * d) (none, .barrier) ++ E' ∧ ws a = syncs (leadSk ns 0 d) ++ ws' ∧ Full ns E' ws'

theorem Led.starts {N ns d : Nat} {E : Nat → Master} {ws : Nat → List (Nat → Nat)} (h : Led N ns d E ws) (hd : 0 < d) : Starts N ns E ws := by
  intro a ha
  obtain ⟨E', ws', e1, e2, _⟩ := h a ha
  obtain ⟨d, rfl⟩ : ∃ k, d = k + 1 := ⟨d - 1, by omega⟩
  rw [e1, e2, Nat.mul_add, Nat.mul_one, Nat.add_comm, List.replicate_add, Nat.add_comm, lead_add, syncs_append,
    show leadSk ns 0 1 = dis 0 (K ns) (nodeW ns) from by rw [show (1 : Nat) = 0 + 1 from rfl, lead_succ]; rfl, syncs_dis]
  exact ⟨⟨_, List.append_assoc ..⟩, _, List.append_assoc ..⟩

theorem mem_syncs {w : Nat → Nat} (T : Skel) (h : w ∈ syncs T) : ∃ b, Item.sync b w ∈ T := by
  induction T with
  | nil => cases h
  | cons I T ih =>
    cases I with
    | ops f =>
      obtain ⟨b, hb⟩ := ih h
      exact ⟨b, List.mem_cons_of_mem _ hb⟩
    | sync b w' =>
      rcases List.mem_cons.1 h with rfl | h
      · exact ⟨b, List.mem_cons_self⟩
      · obtain ⟨b, hb⟩ := ih h
        exact ⟨b, List.mem_cons_of_mem _ hb⟩

/-- Programs of nodes that start with a copy-in, then run `M`. -/
theorem piece_cluster {N ns k : Nat} (hns : 0 < ns) (u : Users) (S : Nat → Skel) (M : Nat → Master) (m m1 : Nat → Mem X)
    {e : State X} {post : (Nat → Mem X) → Prop}
    (hS : ∀ a, a < N → SkelOk ns (S a))
    (hm : ∀ a, a < N → m1 a = ((skelM ns u a (S a)).map Prod.snd).foldl exec1 (m a))
    (hw : ∀ a, a < N → ∀ x, x ∈ M a → WF N ns a x) (hM : ∀ a, a < N → mfree (M a))
    (hsl : ∀ a, a < N → TasksNode.Sealed (M a))
    (ht : ∀ a q, a < N → q < N → a ≠ q → sendTags q (M a) = recvTags a (M q))
    (hr : URun N k (initial (fun a => (M a).map Prod.snd) m1) e) (he : Final N e)
    (hp : ∀ mem : Nat → Mem X, (∀ a, a < N → mem a = (e.proc a).mem) → post mem) :
    Piece N ns (fun a => skelM ns u a (S a) ++ elemM (K ns) (M a)) (fun a => syncs (fullSk ns (S a) (M a)))
      (fun p => (code (S (p / ns)) (p % ns)).map (fromAct ns u (p / ns)) ++
        (share ns (p % ns) (M (p / ns))).flatMap (expandRaw ns (p % ns))) m post where
  len := fun a _ => by
    rw [bars_append, bars_skel, bars_elem, fullSk, syncs_append, List.length_append, syncs_lead_length]
  part := fun a ha w hw r hr => by
    obtain ⟨b, hb⟩ := mem_syncs _ hw
    rcases List.mem_append.1 hb with h | h
    · exact (hS a ha).partners b w h r hr
    · exact OnNode.partners_lead hns b w h r hr
  wf := fun a ha x hx => by
    rcases List.mem_append.1 hx with hx | hx
    · exact (skel_copies (hS a ha)).wf x hx
    · exact elemM_wf (hw a ha) x hx
  ord := fun a ha V c hV => ordered_node ha (hS a ha) (hM a ha) hV
  waits := fun a ha => by
    rw [fullSk, syncs_append]
    refine (sealed_none fun hm => ?_).append (sealed_elem ns (hsl a ha)) (bars_skel ns u a (S a)).symm
    rcases (skel_copies (hS a ha) _ hm).2 with e | ⟨_, _, _, _, _, _, e⟩ <;> cases e
  tags := fun a q ha hq hne => by
    rw [sendTags_append, recvTags_append, (skel_copies (hS a ha)).tags.1, (skel_copies (hS q hq)).tags.2,
      sendTags_elem, recvTags_elem, ht a q ha hq hne]
  code := fun p hp part c hpart => by
    have ha : p / ns < N := div_lt hp
    have hr : p % ns < ns := Nat.mod_lt _ hns
    rw [share_append, share_elem, toC_append]
    obtain ⟨t1, t2⟩ := toC_skel (u := u) (a := p / ns) (part := part) hr (S (p / ns)) c (fun j w hj => by
      apply hpart
      rw [fullSk, syncs_append, List.getElem?_append_left (List.getElem?_eq_some_iff.1 hj).1]
      exact hj)
    rw [t1, t2, toC_elem]
    intro j k hj hk
    rw [share_count (hw _ ha)] at hj
    have := hpart ((syncs (S (p / ns))).length + (K ns * j + k)) (nodeW ns k) (by
      rw [fullSk, syncs_append, List.getElem?_append_right (Nat.le_add_right _ _), Nat.add_sub_cancel_left]
      exact syncs_lead_get ns 0 hj hk)
    rw [← Nat.add_assoc] at this
    rw [this]
    rfl
  run := by
    obtain ⟨s1, r1, q1⟩ := Quiet.copies (is := fun a => (skelM ns u a (S a)).map Prod.snd)
      (R := fun a => (elemM (K ns) (M a)).map Prod.snd)
      ((quiet_initial N (fun a => (skelM ns u a (S a) ++ elemM (K ns) (M a)).map Prod.snd) m).congr fun a ha => by
        rw [List.map_append])
      (fun a ha i hi => by
        obtain ⟨x, hx, rfl⟩ := List.mem_map.1 hi
        exact (skel_copies (hS a ha) x hx).1)
    obtain ⟨k2, r2⟩ := run_elem (K ns) hr
    have r3 := run_others s1.proc r2
    have hs1 : others N s1.proc (elemS (K ns) (initial (fun a => (M a).map Prod.snd) m1)) = s1 := by
      have hc : s1.chan = fun _ _ => [] := funext fun q => funext fun t => q1.chan q t
      cases s1 with
      | mk pr ch =>
        dsimp only at hc
        subst hc
        unfold others
        congr 1
        funext a
        by_cases ha : a < N
        · rw [if_pos ha]
          have := q1.proc a ha
          dsimp only at this
          rw [this, elemM_snd, ← hm a ha]
          rfl
        · rw [if_neg ha]
    rw [hs1] at r3
    obtain ⟨k3, r4⟩ := r1.trans ⟨k2, r3⟩
    refine ⟨k3, _, r4, fun t ht => ?_, fun mem hmem => hp mem fun a ha => by rw [hmem a ha, others_proc N _ _ ha]; rfl⟩
    rw [others_proc N _ _ ht]
    exact final_elem (K ns) he t ht

theorem skelM_dis (ns : Nat) (u : Users) (a b n : Nat) (W : Nat → Nat → Nat) :
    skelM ns u a (dis b n W) = List.replicate n (none, .barrier) := by
  unfold skelM dis
  rw [List.flatMap_map]
  show (List.range n).flatMap (fun _ => [(none, Instr.barrier)]) = _
  induction n with
  | zero => rfl
  | succ n ih => rw [List.range_succ, List.flatMap_append, ih, List.replicate_succ']; rfl

theorem skelM_lead (ns : Nat) (u : Users) (a b d : Nat) : skelM ns u a (leadSk ns b d) = List.replicate (K ns * d) (none, .barrier) := by
  induction d with
  | zero => rfl
  | succ d ih => rw [lead_succ, skelM_append, ih, skelM_dis, Nat.mul_add, Nat.mul_one, List.replicate_add]

theorem full_master (ns : Nat) (u : Users) (a : Nat) (S : Skel) {M : Master} (h : (none, .barrier) ∈ M) :
    Full ns (skelM ns u a S ++ elemM (K ns) M) (syncs S ++ syncs (leadSk ns 0 (bars M))) := by
  obtain ⟨M1, M2, rfl⟩ := List.append_of_mem h
  refine ⟨skelM ns u a S ++ elemM (K ns) M1, elemM (K ns) M2, syncs S ++ syncs (leadSk ns 0 (bars M1)), syncs (leadSk ns 0 (bars M2)), ?_, ?_, ?_⟩
  · rw [elemM_append, elem_barrier, List.append_assoc]
  · rw [bars_append, bars_cons, show bars [((none : Option Nat), Instr.barrier)] = 1 from rfl, ← Nat.add_assoc, Nat.add_right_comm,
      Nat.add_assoc, Nat.add_comm (bars M2) 1, lead_add, lead_add, syncs_append, syncs_append, syncs_lead_one, List.append_assoc]
  · rw [List.length_append, bars_append, bars_skel, bars_elem, syncs_lead_length]

/-- The copy-in starts with `d` barriers, or there is none and `M` starts with one. -/
theorem led_cluster {N ns : Nat} (u : Users) (S : Nat → Skel) (M : Nat → Master) (d : Nat)
    (h : ∀ a, a < N → (∃ S', S a = leadSk ns 0 d ++ S') ∧ (none, .barrier) ∈ M a ∨
      S a = [] ∧ d = 1 ∧ ∃ M', M a = (none, .barrier) :: M' ∧ (none, .barrier) ∈ M') :
    Led N ns d (fun a => skelM ns u a (S a) ++ elemM (K ns) (M a)) (fun a => syncs (fullSk ns (S a) (M a))) := by
  intro a ha
  dsimp only
  rcases h a ha with ⟨⟨S', e⟩, hb⟩ | ⟨e, rfl, M', e', hb⟩
  · refine ⟨skelM ns u a S' ++ elemM (K ns) (M a), _, ?_, ?_, full_master ns u a S' hb⟩
    · rw [e, skelM_append, skelM_lead, List.append_assoc]
    · rw [fullSk, e, syncs_append, syncs_append, List.append_assoc]
  · refine ⟨elemM (K ns) M', _, ?_, ?_, full_master ns u a [] hb⟩
    · rw [e, e', elem_barrier, Nat.mul_one]; rfl
    · rw [e, e', fullSk, List.nil_append, bars_cons, show bars [((none : Option Nat), Instr.barrier)] = 1 from rfl, lead_add, syncs_append]; rfl

/-- Programs that are correct, also one after the other: they are shares of instructions of the nodes, and they start with
`d` barriers of the node, after which there is another one. -/
def Serial (N ns d : Nat) (prog : Nat → List CInstr) (m : Nat → Mem X) (post : (Nat → Mem X) → Prop) : Prop :=
  (∀ p, ¬p < N * ns → prog p = []) ∧ ∃ E ws, Piece N ns E ws prog m post ∧ Led N ns d E ws

theorem Serial.imp {N ns d : Nat} {prog : Nat → List CInstr} {m : Nat → Mem X} {A B : (Nat → Mem X) → Prop}
    (h : Serial N ns d prog m A) (hAB : ∀ mem, A mem → B mem) : Serial N ns d prog m B := by
  obtain ⟨hz, E, ws, h1, h2⟩ := h
  exact ⟨hz, E, ws, h1.imp hAB, h2⟩

theorem Serial.ccorrect {N ns d : Nat} (hns : 0 < ns) {prog : Nat → List CInstr} {m : Nat → Mem X} {post : (Nat → Mem X) → Prop}
    (h : Serial N ns d prog m post) : CCorrect N ns prog m post := by
  obtain ⟨hz, E, ws, h1, _⟩ := h
  refine ccorrect_congr (h1.ccorrect hns) fun p => ?_
  by_cases hp : p < N * ns
  · rw [if_pos hp]
  · rw [if_neg hp, hz p hp]

theorem Piece.congr {N ns : Nat} {E : Nat → Master} {ws : Nat → List (Nat → Nat)} {prog prog' : Nat → List CInstr} {m : Nat → Mem X}
    {post : (Nat → Mem X) → Prop} (h : Piece N ns E ws prog m post) (e : ∀ p, p < N * ns → prog' p = prog p) :
    Piece N ns E ws prog' m post :=
  ⟨h.len, h.part, h.wf, h.ord, h.waits, h.tags, fun p hp part c hc => by rw [e p hp]; exact h.code p hp part c hc, h.run⟩

end ExtMpi.Cluster
