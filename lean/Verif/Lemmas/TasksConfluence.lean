import Verif.Lemmas.TasksDiamond
/-! One execution of several processes per node determines all others. -/
namespace ExtMpi.TasksNode
open RawCode

variable {X : Type} [Add X] {W : Nat → Nat → Nat → Prop}

theorem TStep.depart' {N ns q t : Nat} {s s' : TState X} {a : Addr} {n : Nat} {r : List (Addr × Nat)}
    (hq : q < N * ns) (ht : t < N * ns) (hne : q ≠ t) (h : (s.task q).sends t = (a, n) :: r)
    (e1 : s'.task = put s.task q { s.task q with sends := pop (s.task q).sends t }) (e2 : s'.mem = s.mem)
    (e3 : s'.chan = setChan s.chan q t (s.chan q t ++ [readMem (s.mem (q / ns)) a n])) :
    TStep N ns W (.depart q t) s s' := by
  have := TStep.depart (W := W) hq ht hne h
  rw [← e1, ← e3, ← e2] at this
  exact this

theorem TStep.arrive' {N ns q t : Nat} {s s' : TState X} {a : Addr} {r : List (Addr × Nat)} {msg : List X}
    {ms : List (List X)} (hq : q < N * ns) (ht : t < N * ns) (hne : q ≠ t) (h : s.chan q t = msg :: ms)
    (g : (s.task t).recvs q = (a, msg.length) :: r)
    (e1 : s'.task = put s.task t { s.task t with recvs := pop (s.task t).recvs q })
    (e2 : s'.mem = put s.mem (t / ns) (writeMem (s.mem (t / ns)) a msg)) (e3 : s'.chan = setChan s.chan q t ms) :
    TStep N ns W (.arrive q t) s s' := by
  have := TStep.arrive (W := W) hq ht hne h g rfl
  rw [← e1, ← e2, ← e3] at this
  exact this

/-- Two effects on memories of nodes that commute if the node is the same. -/
theorem put_mem_comm (f : Nat → Mem X) (a b : Nat) (F G : Mem X → Mem X)
    (h : a = b → G (F (f a)) = F (G (f a))) :
    put (put f a (F (f a))) b (G (put f a (F (f a)) b)) = put (put f b (G (f b))) a (F (put f b (G (f b)) a)) := by
  by_cases e : a = b
  · subst e
    rw [put_same, put_same, put_put, put_put, h rfl]
  · rw [put_ne _ _ _ _ (Ne.symm e), put_ne _ _ _ _ e, put_comm _ _ _ _ _ e]

theorem LocOk.after_loc {N ns p p' : Nat} {s : TState X} {i j : Instr} {t1 t2 : Task} {M : Nat → Mem X}
    (hp : p < N * ns) (hp' : p' < N * ns) (hne : p ≠ p') (hr : NoRace N ns s)
    (h1 : LocOk N ns W s p i t1) (h2 : LocOk N ns W s p' j t2) :
    LocOk N ns W ⟨put s.task p t1, M, s.chan⟩ p' j t2 := by
  have hc : p / ns = p' / ns → ¬Conflict i j := by
    intro hn
    obtain ⟨r1, e1⟩ := h1.rest
    obtain ⟨r2, e2⟩ := h2.rest
    exact hr p p' hp hp' hne hn i r1 j r2 e1 e2
  refine h2.transport (put_ne _ _ _ _ (Ne.symm hne)) (fun k => ?_) ⟨fun k hk q x hx y hy => ?_, fun k hk q x hx y hy => ?_,
    h2.clear.2.2⟩
  · by_cases e : k = p
    · subst e; dsimp only; rw [put_same]; exact h1.entered
    · dsimp only; rw [put_ne _ _ _ _ e]
  · rcases h1.put_recvs hx with hx | ⟨e, hx, _⟩
    · exact h2.clear.1 k hk q x hx y hy
    · exact fun ho => hc (e ▸ hk) (.inl ⟨x, y, hx, hy, ho⟩)
  · rcases h1.put_sends hx with hx | ⟨e, hx, _⟩
    · exact h2.clear.2.1 k hk q x hx y hy
    · exact fun ho => hc (e ▸ hk) (.inr ⟨x, y, hx, hy, ho⟩)

theorem tdiamond_loc_loc {N ns p p' : Nat} {s s1 s2 : TState X} (hne : p ≠ p') (hr : NoRace N ns s)
    (h1 : TStep N ns W (.loc p) s s1) (h2 : TStep N ns W (.loc p') s s2) :
    ∃ s', TStep N ns W (.loc p') s1 s' ∧ TStep N ns W (.loc p) s2 s' := by
  obtain ⟨hp, i, t1, g1, rfl⟩ := h1.toLoc
  obtain ⟨hp', j, t2, g2, rfl⟩ := h2.toLoc
  refine ⟨⟨put (put s.task p t1) p' t2,
      put (put s.mem (p / ns) (memAfter i (s.mem (p / ns)))) (p' / ns)
        (memAfter j (put s.mem (p / ns) (memAfter i (s.mem (p / ns))) (p' / ns))), s.chan⟩,
    .ofLoc hp' (g1.after_loc hp hp' hne hr g2) rfl rfl rfl,
    .ofLoc hp (g2.after_loc hp' hp (Ne.symm hne) hr g1) (put_comm _ _ _ _ _ hne) ?_ rfl⟩
  dsimp only
  apply put_mem_comm _ _ _ (memAfter i) (memAfter j)
  intro hn
  obtain ⟨r1, e1⟩ := g1.rest
  obtain ⟨r2, e2⟩ := g2.rest
  exact (memAfter_comm i j _ (hr p p' hp hp' hne hn i r1 j r2 e1 e2)).symm

/-- A local step of the process that loses a pending send. -/
theorem LocOk.after_depart {N ns q t : Nat} {s : TState X} {i : Instr} {t1 : Task} {c : Nat → Nat → List (List X)}
    (h : LocOk N ns W s q i t1) {a : Addr} {n : Nat} {r : List (Addr × Nat)} (hs : (s.task q).sends t = (a, n) :: r) :
    LocOk N ns W ⟨put s.task q { s.task q with sends := pop (s.task q).sends t }, s.mem, c⟩ q i
      { t1 with sends := pop t1.sends t } ∧ (∃ r', t1.sends t = (a, n) :: r') := by
  have hc : Clear ns (⟨put s.task q { s.task q with sends := pop (s.task q).sends t }, s.mem, c⟩ : TState X) (q / ns) i := by
    refine h.clear.mono (fun k j x hx => ?_) (fun k j x hx => ?_)
    · rcases TasksNode.put_recvs hx with ⟨_, g⟩ | ⟨rfl, g⟩
      · exact g
      · exact g
    · rcases TasksNode.put_sends hx with ⟨_, g⟩ | ⟨rfl, g⟩
      · exact g
      · exact mem_pop g
  have hp : (s.task q).sends t ≠ [] := by rw [hs]; exact List.cons_ne_nil _ _
  have hh : (put s.task q { s.task q with sends := pop (s.task q).sends t } q) =
      { s.task q with sends := pop (s.task q).sends t } := put_same _ _ _
  cases h with
  | @instr _ rest h1 h2 h3 h4 =>
    have key : LocOk N ns W ⟨put s.task q { s.task q with sends := pop (s.task q).sends t }, s.mem, c⟩ q i
        (taskAfter i rest (put s.task q { s.task q with sends := pop (s.task q).sends t } q)) := by
      refine .instr ?_ h2 hc ?_
      · dsimp only; rw [hh]; exact h1
      · intro e
        exact absurd ((h4 e t).2) hp
    dsimp only at key
    rw [hh] at key
    cases i with
    | isend b k q' =>
      refine ⟨?_, push_head _ _ _ _ _ _ hs⟩
      dsimp only [taskAfter] at key ⊢
      rw [pop_push _ _ _ _ hp]
      exact key
    | _ => exact ⟨key, r, hs⟩
  | enter h1 h2 =>
    refine ⟨?_, r, hs⟩
    have key : LocOk N ns W ⟨put s.task q { s.task q with sends := pop (s.task q).sends t }, s.mem, c⟩ q .barrier _ :=
      .enter (by dsimp only; rw [hh]; exact h1) (by dsimp only; rw [hh]; exact h2)
    dsimp only at key
    rw [hh] at key
    exact key
  | leave h1 h2 h3 =>
    refine ⟨?_, r, hs⟩
    have key : LocOk N ns W ⟨put s.task q { s.task q with sends := pop (s.task q).sends t }, s.mem, c⟩ q .barrier _ :=
      .leave (by dsimp only; rw [hh]; exact h1) (by dsimp only; rw [hh]; exact h2) (by
        intro p' hp' hn
        dsimp only
        rw [hh]
        by_cases e : p' = q
        · subst e; rw [hh]; exact fun _ => Nat.le_refl _
        · rw [put_ne _ _ _ _ e]; exact h3 p' hp' hn)
    dsimp only at key
    rw [hh] at key
    exact key

theorem tdiamond_loc_depart {N ns p q t : Nat} {s s1 s2 : TState X}
    (h1 : TStep N ns W (.loc p) s s1) (h2 : TStep N ns W (.depart q t) s s2) :
    ∃ s', TStep N ns W (.depart q t) s1 s' ∧ TStep N ns W (.loc p) s2 s' := by
  obtain ⟨hp, i, t1, g1, rfl⟩ := h1.toLoc
  cases h2 with
  | @depart _ _ _ a n r hq ht hne h =>
    have hread : readMem (put s.mem (p / ns) (memAfter i (s.mem (p / ns))) (q / ns)) a n = readMem (s.mem (q / ns)) a n := by
      by_cases e : q / ns = p / ns
      · rw [e, put_same]
        exact readMem_memAfter _ _ _ _ fun y hy => g1.clear.2.1 q e t (a, n) (by rw [h]; exact List.mem_cons_self) y hy
      · rw [put_ne _ _ _ _ e]
    by_cases e : p = q
    · subst e
      obtain ⟨k1, r', k2⟩ := g1.after_depart (c := setChan s.chan p t (s.chan p t ++ [readMem (s.mem (p / ns)) a n])) h
      refine ⟨⟨put s.task p { t1 with sends := pop t1.sends t }, put s.mem (p / ns) (memAfter i (s.mem (p / ns))),
          setChan s.chan p t (s.chan p t ++ [readMem (s.mem (p / ns)) a n])⟩,
        .depart' (a := a) (n := n) (r := r') hq ht hne ?_ ?_ rfl ?_, .ofLoc hp k1 ?_ rfl rfl⟩
      · dsimp only; rw [put_same]; exact k2
      · dsimp only; rw [put_same, put_put]
      · dsimp only; rw [hread]
      · dsimp only; rw [put_put]
    · refine ⟨⟨put (put s.task q { s.task q with sends := pop (s.task q).sends t }) p t1,
          put s.mem (p / ns) (memAfter i (s.mem (p / ns))),
          setChan s.chan q t (s.chan q t ++ [readMem (s.mem (q / ns)) a n])⟩,
        .depart' (a := a) (n := n) (r := r) hq ht hne ?_ ?_ rfl ?_, .ofLoc (i := i) (t' := t1) hp ?_ rfl rfl rfl⟩
      · dsimp only; rw [put_ne _ _ _ _ (Ne.symm e)]; exact h
      · dsimp only; rw [put_ne _ _ _ _ (Ne.symm e)]; exact put_comm _ _ _ _ _ (Ne.symm e)
      · dsimp only; rw [hread]
      · refine g1.transport (put_ne _ _ _ _ e) (fun k => ?_) (g1.clear.mono (fun k j x hx => ?_) (fun k j x hx => ?_))
        · by_cases ek : k = q
          · subst ek; dsimp only; rw [put_same]
          · dsimp only; rw [put_ne _ _ _ _ ek]
        · rcases TasksNode.put_recvs hx with ⟨_, g⟩ | ⟨rfl, g⟩
          · exact g
          · exact g
        · rcases TasksNode.put_sends hx with ⟨_, g⟩ | ⟨rfl, g⟩
          · exact g
          · exact mem_pop g

/-- A local step of the process that loses a pending receive. -/
theorem LocOk.after_arrive {N ns q t : Nat} {s : TState X} {i : Instr} {t1 : Task} {M : Nat → Mem X}
    {c : Nat → Nat → List (List X)} (h : LocOk N ns W s t i t1) {a : Addr} {n : Nat} {r : List (Addr × Nat)}
    (hs : (s.task t).recvs q = (a, n) :: r) :
    LocOk N ns W ⟨put s.task t { s.task t with recvs := pop (s.task t).recvs q }, M, c⟩ t i
      { t1 with recvs := pop t1.recvs q } ∧ (∃ r', t1.recvs q = (a, n) :: r') := by
  have hc : Clear ns (⟨put s.task t { s.task t with recvs := pop (s.task t).recvs q }, M, c⟩ : TState X) (t / ns) i := by
    refine h.clear.mono (fun k j x hx => ?_) (fun k j x hx => ?_)
    · rcases TasksNode.put_recvs hx with ⟨_, g⟩ | ⟨rfl, g⟩
      · exact g
      · exact mem_pop g
    · rcases TasksNode.put_sends hx with ⟨_, g⟩ | ⟨rfl, g⟩
      · exact g
      · exact g
  have hp : (s.task t).recvs q ≠ [] := by rw [hs]; exact List.cons_ne_nil _ _
  have hh : (put s.task t { s.task t with recvs := pop (s.task t).recvs q } t) =
      { s.task t with recvs := pop (s.task t).recvs q } := put_same _ _ _
  cases h with
  | @instr _ rest h1 h2 h3 h4 =>
    have key : LocOk N ns W ⟨put s.task t { s.task t with recvs := pop (s.task t).recvs q }, M, c⟩ t i
        (taskAfter i rest (put s.task t { s.task t with recvs := pop (s.task t).recvs q } t)) := by
      refine .instr ?_ h2 hc ?_
      · dsimp only; rw [hh]; exact h1
      · intro e
        exact absurd ((h4 e q).1) hp
    dsimp only at key
    rw [hh] at key
    cases i with
    | irecv b k q' =>
      refine ⟨?_, push_head _ _ _ _ _ _ hs⟩
      dsimp only [taskAfter] at key ⊢
      rw [pop_push _ _ _ _ hp]
      exact key
    | _ => exact ⟨key, r, hs⟩
  | enter h1 h2 =>
    refine ⟨?_, r, hs⟩
    have key : LocOk N ns W ⟨put s.task t { s.task t with recvs := pop (s.task t).recvs q }, M, c⟩ t .barrier _ :=
      .enter (by dsimp only; rw [hh]; exact h1) (by dsimp only; rw [hh]; exact h2)
    dsimp only at key
    rw [hh] at key
    exact key
  | leave h1 h2 h3 =>
    refine ⟨?_, r, hs⟩
    have key : LocOk N ns W ⟨put s.task t { s.task t with recvs := pop (s.task t).recvs q }, M, c⟩ t .barrier _ :=
      .leave (by dsimp only; rw [hh]; exact h1) (by dsimp only; rw [hh]; exact h2) (by
        intro p' hp' hn
        dsimp only
        rw [hh]
        by_cases e : p' = t
        · subst e; rw [hh]; exact fun _ => Nat.le_refl _
        · rw [put_ne _ _ _ _ e]; exact h3 p' hp' hn)
    dsimp only at key
    rw [hh] at key
    exact key

theorem tdiamond_loc_arrive {N ns p q t : Nat} {s s1 s2 : TState X}
    (h1 : TStep N ns W (.loc p) s s1) (h2 : TStep N ns W (.arrive q t) s s2) :
    ∃ s', TStep N ns W (.arrive q t) s1 s' ∧ TStep N ns W (.loc p) s2 s' := by
  obtain ⟨hp, i, t1, g1, rfl⟩ := h1.toLoc
  cases h2 with
  | @arrive _ _ _ a n r msg ms hq ht hne h g hn =>
    subst hn
    have hmem : put (put s.mem (p / ns) (memAfter i (s.mem (p / ns)))) (t / ns)
        (writeMem (put s.mem (p / ns) (memAfter i (s.mem (p / ns))) (t / ns)) a msg) =
        put (put s.mem (t / ns) (writeMem (s.mem (t / ns)) a msg)) (p / ns)
          (memAfter i (put s.mem (t / ns) (writeMem (s.mem (t / ns)) a msg) (p / ns))) := by
      apply put_mem_comm _ _ _ (memAfter i) (fun m => writeMem m a msg)
      intro e
      cases i with
      | copy red dst src k =>
        have hc := g1.clear.1 t e.symm q (a, msg.length) (by rw [g]; exact List.mem_cons_self)
        exact writeMem_copyMem _ _ _ _ _ _ _ (hc (dst, k) (List.mem_append.2 (.inl (List.mem_singleton.2 rfl))))
          (hc (src, k) (List.mem_append.2 (.inr (List.mem_singleton.2 rfl))))
      | _ => rfl
    by_cases e : p = t
    · subst e
      obtain ⟨k1, r', k2⟩ := g1.after_arrive (M := put s.mem (p / ns) (writeMem (s.mem (p / ns)) a msg))
        (c := setChan s.chan q p ms) g
      refine ⟨⟨put s.task p { t1 with recvs := pop t1.recvs q },
          put (put s.mem (p / ns) (memAfter i (s.mem (p / ns)))) (p / ns)
            (writeMem (put s.mem (p / ns) (memAfter i (s.mem (p / ns))) (p / ns)) a msg), setChan s.chan q p ms⟩,
        .arrive' (a := a) (r := r') (msg := msg) (ms := ms) hq ht hne h ?_ ?_ rfl rfl, .ofLoc hp k1 ?_ hmem rfl⟩
      · dsimp only; rw [put_same]; exact k2
      · dsimp only; rw [put_same, put_put]
      · dsimp only; rw [put_put]
    · refine ⟨⟨put (put s.task t { s.task t with recvs := pop (s.task t).recvs q }) p t1,
          put (put s.mem (p / ns) (memAfter i (s.mem (p / ns)))) (t / ns)
            (writeMem (put s.mem (p / ns) (memAfter i (s.mem (p / ns))) (t / ns)) a msg), setChan s.chan q t ms⟩,
        .arrive' (a := a) (r := r) (msg := msg) (ms := ms) hq ht hne h ?_ ?_ rfl rfl,
        .ofLoc (i := i) (t' := t1) hp ?_ rfl hmem rfl⟩
      · dsimp only; rw [put_ne _ _ _ _ (Ne.symm e)]; exact g
      · dsimp only; rw [put_ne _ _ _ _ (Ne.symm e)]; exact put_comm _ _ _ _ _ (Ne.symm e)
      · refine g1.transport (put_ne _ _ _ _ e) (fun k => ?_) (g1.clear.mono (fun k j x hx => ?_) (fun k j x hx => ?_))
        · by_cases ek : k = t
          · subst ek; dsimp only; rw [put_same]
          · dsimp only; rw [put_ne _ _ _ _ ek]
        · rcases TasksNode.put_recvs hx with ⟨_, g⟩ | ⟨rfl, g⟩
          · exact g
          · exact mem_pop g
        · rcases TasksNode.put_sends hx with ⟨_, g⟩ | ⟨rfl, g⟩
          · exact g
          · exact g

theorem tdiamond_depart_depart {N ns q t q' t' : Nat} {s s1 s2 : TState X} (hd : ¬(q' = q ∧ t' = t))
    (h1 : TStep N ns W (.depart q t) s s1) (h2 : TStep N ns W (.depart q' t') s s2) :
    ∃ s', TStep N ns W (.depart q' t') s1 s' ∧ TStep N ns W (.depart q t) s2 s' := by
  cases h1 with
  | @depart _ _ _ a n r hq ht hne h =>
    cases h2 with
    | @depart _ _ _ a' n' r' hq' ht' hne' h' =>
      have hd' : ¬(q = q' ∧ t = t') := fun e => hd ⟨e.1.symm, e.2.symm⟩
      by_cases e : q = q'
      · subst e
        have e' : t ≠ t' := fun e => hd ⟨rfl, e.symm⟩
        refine ⟨⟨put s.task q { s.task q with sends := pop (pop (s.task q).sends t) t' }, s.mem,
            setChan (setChan s.chan q t (s.chan q t ++ [readMem (s.mem (q / ns)) a n])) q t'
              (s.chan q t' ++ [readMem (s.mem (q / ns)) a' n'])⟩,
          .depart' (a := a') (n := n') (r := r') hq ht' hne' ?_ ?_ rfl ?_,
          .depart' (a := a) (n := n) (r := r) hq ht hne ?_ ?_ rfl ?_⟩
        · dsimp only; rw [put_same]; dsimp only; rw [pop_ne _ _ _ e'.symm]; exact h'
        · dsimp only; rw [put_same, put_put]
        · dsimp only; rw [setChan_ne _ _ _ _ _ _ hd]
        · dsimp only; rw [put_same]; dsimp only; rw [pop_ne _ _ _ e']; exact h
        · dsimp only; rw [put_same, put_put]; dsimp only; rw [pop_comm _ _ _ e']
        · dsimp only; rw [setChan_ne _ _ _ _ _ _ hd', setChan_comm _ _ _ _ _ _ _ hd]
      · refine ⟨⟨put (put s.task q { s.task q with sends := pop (s.task q).sends t }) q'
              { s.task q' with sends := pop (s.task q').sends t' }, s.mem,
            setChan (setChan s.chan q t (s.chan q t ++ [readMem (s.mem (q / ns)) a n])) q' t'
              (s.chan q' t' ++ [readMem (s.mem (q' / ns)) a' n'])⟩,
          .depart' (a := a') (n := n') (r := r') hq' ht' hne' ?_ ?_ rfl ?_,
          .depart' (a := a) (n := n) (r := r) hq ht hne ?_ ?_ rfl ?_⟩
        · dsimp only; rw [put_ne _ _ _ _ (Ne.symm e)]; exact h'
        · dsimp only; rw [put_ne _ _ _ _ (Ne.symm e)]
        · dsimp only; rw [setChan_ne _ _ _ _ _ _ hd]
        · dsimp only; rw [put_ne _ _ _ _ e]; exact h
        · dsimp only; rw [put_ne _ _ _ _ e]; exact put_comm _ _ _ _ _ e
        · dsimp only
          rw [setChan_ne _ _ _ _ _ _ hd', setChan_comm _ _ _ _ _ _ _ hd]

theorem tdiamond_depart_arrive {N ns q t q' t' : Nat} {s s1 s2 : TState X} (hs : TSep ns s)
    (h1 : TStep N ns W (.depart q t) s s1) (h2 : TStep N ns W (.arrive q' t') s s2) :
    ∃ s', TStep N ns W (.arrive q' t') s1 s' ∧ TStep N ns W (.depart q t) s2 s' := by
  cases h1 with
  | @depart _ _ _ a n r hq ht hne h =>
    cases h2 with
    | @arrive _ _ _ b k u msg ms hq' ht' hne' h' g' hn =>
      subst hn
      obtain ⟨c, hc1, hc2⟩ : ∃ c, setChan s.chan q t (s.chan q t ++ [readMem (s.mem (q / ns)) a n]) q' t' = msg :: c ∧
          setChan (setChan s.chan q t (s.chan q t ++ [readMem (s.mem (q / ns)) a n])) q' t' c =
            setChan (setChan s.chan q' t' ms) q t
              (setChan s.chan q' t' ms q t ++ [readMem (s.mem (q / ns)) a n]) := by
        by_cases e : q' = q ∧ t' = t
        · obtain ⟨e1, e2⟩ := e
          subst e1; subst e2
          refine ⟨ms ++ [readMem (s.mem (q' / ns)) a n], ?_, ?_⟩
          · rw [setChan_same, h']; rfl
          · rw [setChan_same, setChan_setChan, setChan_setChan]
        · refine ⟨ms, ?_, ?_⟩
          · rw [setChan_ne _ _ _ _ _ _ e, h']
          · rw [setChan_ne _ _ _ _ _ _ (fun g => e ⟨g.1.symm, g.2.symm⟩)]
            exact setChan_comm _ _ _ _ _ _ _ e
      have hread : readMem (put s.mem (t' / ns) (writeMem (s.mem (t' / ns)) b msg) (q / ns)) a n =
          readMem (s.mem (q / ns)) a n := by
        by_cases e : q / ns = t' / ns
        · rw [e, put_same]
          apply readMem_writeMem
          exact hs.rs t' q e.symm q' t (b, msg.length) (a, n) (by rw [g']; exact List.mem_cons_self)
            (by rw [h]; exact List.mem_cons_self)
        · rw [put_ne _ _ _ _ e]
      by_cases e : q = t'
      · subst e
        refine ⟨⟨put s.task q { s.task q with recvs := pop (s.task q).recvs q', sends := pop (s.task q).sends t },
            put s.mem (q / ns) (writeMem (s.mem (q / ns)) b msg),
            setChan (setChan s.chan q' q ms) q t (setChan s.chan q' q ms q t ++ [readMem (s.mem (q / ns)) a n])⟩,
          .arrive' (a := b) (r := u) (msg := msg) (ms := c) hq' ht' hne' hc1 ?_ ?_ rfl hc2.symm,
          .depart' (a := a) (n := n) (r := r) hq ht hne ?_ ?_ rfl ?_⟩
        · dsimp only; rw [put_same]; exact g'
        · dsimp only; rw [put_same, put_put]
        · dsimp only; rw [put_same]; exact h
        · dsimp only; rw [put_same, put_put]
        · dsimp only; rw [hread]
      · refine ⟨⟨put (put s.task q { s.task q with sends := pop (s.task q).sends t }) t'
              { s.task t' with recvs := pop (s.task t').recvs q' },
            put s.mem (t' / ns) (writeMem (s.mem (t' / ns)) b msg),
            setChan (setChan s.chan q' t' ms) q t (setChan s.chan q' t' ms q t ++ [readMem (s.mem (q / ns)) a n])⟩,
          .arrive' (a := b) (r := u) (msg := msg) (ms := c) hq' ht' hne' hc1 ?_ ?_ rfl hc2.symm,
          .depart' (a := a) (n := n) (r := r) hq ht hne ?_ ?_ rfl ?_⟩
        · dsimp only; rw [put_ne _ _ _ _ (Ne.symm e)]; exact g'
        · dsimp only; rw [put_ne _ _ _ _ (Ne.symm e)]
        · dsimp only; rw [put_ne _ _ _ _ e]; exact h
        · dsimp only; rw [put_ne _ _ _ _ e]; exact put_comm _ _ _ _ _ e
        · dsimp only; rw [hread]

theorem tdiamond_arrive_arrive {N ns q t q' t' : Nat} {s s1 s2 : TState X} (hs : TSep ns s) (hd : ¬(q' = q ∧ t' = t))
    (h1 : TStep N ns W (.arrive q t) s s1) (h2 : TStep N ns W (.arrive q' t') s s2) :
    ∃ s', TStep N ns W (.arrive q' t') s1 s' ∧ TStep N ns W (.arrive q t) s2 s' := by
  cases h1 with
  | @arrive _ _ _ a n r msg ms hq ht hne h g hn =>
    subst hn
    cases h2 with
    | @arrive _ _ _ b k u msg' ms' hq' ht' hne' h' g' hn =>
      subst hn
      have hd' : ¬(q = q' ∧ t = t') := fun e => hd ⟨e.1.symm, e.2.symm⟩
      have hmem : put (put s.mem (t / ns) (writeMem (s.mem (t / ns)) a msg)) (t' / ns)
          (writeMem (put s.mem (t / ns) (writeMem (s.mem (t / ns)) a msg) (t' / ns)) b msg') =
          put (put s.mem (t' / ns) (writeMem (s.mem (t' / ns)) b msg')) (t / ns)
            (writeMem (put s.mem (t' / ns) (writeMem (s.mem (t' / ns)) b msg') (t / ns)) a msg) := by
        apply put_mem_comm _ _ _ (fun m => writeMem m a msg) (fun m => writeMem m b msg')
        intro e
        apply writeMem_comm
        exact hs.rr t t' e q q' (a, msg.length) (b, msg'.length) (fun c => hd ⟨c.2.symm, c.1.symm⟩)
          (by rw [g]; exact List.mem_cons_self) (by rw [g']; exact List.mem_cons_self)
      by_cases e : t = t'
      · subst e
        have e' : q ≠ q' := fun e => hd ⟨e.symm, rfl⟩
        refine ⟨⟨put s.task t { s.task t with recvs := pop (pop (s.task t).recvs q) q' },
            put (put s.mem (t / ns) (writeMem (s.mem (t / ns)) a msg)) (t / ns)
              (writeMem (put s.mem (t / ns) (writeMem (s.mem (t / ns)) a msg) (t / ns)) b msg'),
            setChan (setChan s.chan q t ms) q' t ms'⟩,
          .arrive' (a := b) (r := u) (msg := msg') (ms := ms') hq' ht hne' ?_ ?_ ?_ rfl rfl,
          .arrive' (a := a) (r := r) (msg := msg) (ms := ms) hq ht hne ?_ ?_ ?_ hmem ?_⟩
        · dsimp only; rw [setChan_ne _ _ _ _ _ _ hd]; exact h'
        · dsimp only; rw [put_same]; dsimp only; rw [pop_ne _ _ _ e'.symm]; exact g'
        · dsimp only; rw [put_same, put_put]
        · dsimp only; rw [setChan_ne _ _ _ _ _ _ hd']; exact h
        · dsimp only; rw [put_same]; dsimp only; rw [pop_ne _ _ _ e']; exact g
        · dsimp only; rw [put_same, put_put, pop_comm _ _ _ e']
        · exact setChan_comm _ _ _ _ _ _ _ hd
      · refine ⟨⟨put (put s.task t { s.task t with recvs := pop (s.task t).recvs q }) t' { s.task t' with
              recvs := pop (s.task t').recvs q' },
            put (put s.mem (t / ns) (writeMem (s.mem (t / ns)) a msg)) (t' / ns)
              (writeMem (put s.mem (t / ns) (writeMem (s.mem (t / ns)) a msg) (t' / ns)) b msg'),
            setChan (setChan s.chan q t ms) q' t' ms'⟩,
          .arrive' (a := b) (r := u) (msg := msg') (ms := ms') hq' ht' hne' ?_ ?_ ?_ rfl rfl,
          .arrive' (a := a) (r := r) (msg := msg) (ms := ms) hq ht hne ?_ ?_ ?_ hmem ?_⟩
        · dsimp only; rw [setChan_ne _ _ _ _ _ _ hd]; exact h'
        · dsimp only; rw [put_ne _ _ _ _ (Ne.symm e)]; exact g'
        · dsimp only; rw [put_ne _ _ _ _ (Ne.symm e)]
        · dsimp only; rw [setChan_ne _ _ _ _ _ _ hd']; exact h
        · dsimp only; rw [put_ne _ _ _ _ e]; exact g
        · dsimp only; rw [put_ne _ _ _ _ e]; exact put_comm _ _ _ _ _ e
        · exact setChan_comm _ _ _ _ _ _ _ hd

/-- Different steps of the same state without races commute. -/
theorem tdiamond {N ns : Nat} {l l' : Lab} {s s1 s2 : TState X} (hs : TSep ns s) (hr : NoRace N ns s) (hne : l ≠ l')
    (h1 : TStep N ns W l s s1) (h2 : TStep N ns W l' s s2) : ∃ s', TStep N ns W l' s1 s' ∧ TStep N ns W l s2 s' := by
  cases l with
  | loc t =>
    cases l' with
    | loc t' => exact tdiamond_loc_loc (fun e => hne (by rw [e])) hr h1 h2
    | depart q' t' => exact tdiamond_loc_depart h1 h2
    | arrive q' t' => exact tdiamond_loc_arrive h1 h2
  | depart q t =>
    cases l' with
    | loc t' => obtain ⟨s', h, h'⟩ := tdiamond_loc_depart h2 h1; exact ⟨s', h', h⟩
    | depart q' t' => exact tdiamond_depart_depart (fun e => hne (by rw [e.1, e.2])) h1 h2
    | arrive q' t' => exact tdiamond_depart_arrive hs h1 h2
  | arrive q t =>
    cases l' with
    | loc t' => obtain ⟨s', h, h'⟩ := tdiamond_loc_arrive h2 h1; exact ⟨s', h', h⟩
    | depart q' t' => obtain ⟨s', h, h'⟩ := tdiamond_depart_arrive hs h2 h1; exact ⟨s', h', h⟩
    | arrive q' t' => exact tdiamond_arrive_arrive hs (fun e => hne (by rw [e.1, e.2])) h1 h2

/-! ## No races -/

/-- Once process `q` has left `j` barriers, process `p` has entered `i`. -/
inductive Kn (N ns : Nat) (W : Nat → Nat → Nat → Prop) : Nat → Nat → Nat → Nat → Prop
  | own {p i j} : i ≤ j → Kn N ns W p i p j
  | sync {p q k} : p < N * ns → q / ns = p / ns → W q k p → Kn N ns W p k q k
  | mono {p i q j i' j'} : Kn N ns W p i q j → i' ≤ i → j ≤ j' → Kn N ns W p i' q j'
  | trans {p i r k q j} : Kn N ns W p i r k → Kn N ns W r (k + 1) q j → Kn N ns W p i q j

theorem Kn.lt {N ns p i q j : Nat} (h : Kn N ns W p i q j) (hq : q < N * ns) : p < N * ns := by
  induction h with
  | own _ => exact hq
  | sync hp _ _ => exact hp
  | mono _ _ _ ih => exact ih hq
  | trans _ _ ih1 ih2 => exact ih1 (ih2 hq)

/-- Conflicting instructions of processes of a node are in the order given by the barriers. -/
def Free (N ns : Nat) (W : Nat → Nat → Nat → Prop) (prog : Nat → List Instr) : Prop :=
  ∀ p p', p < N * ns → p' < N * ns → p ≠ p' → p / ns = p' / ns → ∀ i r i' r' x x',
    i :: r <:+ prog p → i' :: r' <:+ prog p' → i ≠ .barrier → i' ≠ .barrier →
    x + r.count .barrier = (prog p).count .barrier → x' + r'.count .barrier = (prog p').count .barrier →
    Conflict i i' → Kn N ns W p (x + 1) p' x' ∨ Kn N ns W p' (x' + 1) p x

/-- Where the processes are. -/
structure Where (N ns : Nat) (W : Nat → Nat → Nat → Prop) (prog : Nat → List Instr) (s : TState X) : Prop where
  suffix : ∀ p, p < N * ns → (s.task p).rest <:+ prog p
  count : ∀ p, p < N * ns →
    (s.task p).entered + (s.task p).rest.count .barrier = (prog p).count .barrier + (s.task p).waiting.toNat
  wait : ∀ p, p < N * ns → (s.task p).waiting = true → ∃ r, (s.task p).rest = .barrier :: r
  reach : ∀ p p' k, p < N * ns → p' < N * ns → p / ns = p' / ns → W p k p' →
    k + (s.task p).waiting.toNat ≤ (s.task p).entered → k ≤ (s.task p').entered

theorem Where.kn {N ns : Nat} {prog : Nat → List Instr} {s : TState X} (hw : Where N ns W prog s) {p i q j : Nat}
    (h : Kn N ns W p i q j) (hq : q < N * ns) (hl : j + (s.task q).waiting.toNat ≤ (s.task q).entered) :
    i ≤ (s.task p).entered := by
  induction h with
  | own _ => omega
  | sync hp hn hW => exact hw.reach _ _ _ hq hp hn hW hl
  | mono _ _ _ ih => have := ih hq (by omega); omega
  | trans _ h2 ih1 ih2 =>
    have h3 := ih2 hq hl
    refine ih1 (h2.lt hq) ?_
    cases (s.task _).waiting <;> simp <;> omega

theorem taskAfter_rest (i : Instr) (r : List Instr) (t : Task) : (taskAfter i r t).rest = r := by cases i <;> rfl

theorem taskAfter_entered (i : Instr) (r : List Instr) (t : Task) : (taskAfter i r t).entered = t.entered := by
  cases i <;> rfl

theorem taskAfter_waiting (i : Instr) (r : List Instr) (t : Task) : (taskAfter i r t).waiting = t.waiting := by
  cases i <;> rfl

theorem Where.same {N ns : Nat} {prog : Nat → List Instr} {s s' : TState X} (h : Where N ns W prog s)
    (e : ∀ p, (s'.task p).rest = (s.task p).rest ∧ (s'.task p).entered = (s.task p).entered ∧
      (s'.task p).waiting = (s.task p).waiting) : Where N ns W prog s' := by
  refine ⟨fun p hp => ?_, fun p hp => ?_, fun p hp hw => ?_, fun p p' k hp hp' hn hW hw => ?_⟩
  · rw [(e p).1]; exact h.suffix p hp
  · rw [(e p).1, (e p).2.1, (e p).2.2]; exact h.count p hp
  · rw [(e p).1]; rw [(e p).2.2] at hw; exact h.wait p hp hw
  · rw [(e p').2.1]; rw [(e p).2.1, (e p).2.2] at hw; exact h.reach p p' k hp hp' hn hW hw

theorem TStep.where {N ns : Nat} {prog : Nat → List Instr} {l : Lab} {s s' : TState X} (h : TStep N ns W l s s')
    (hw : Where N ns W prog s) : Where N ns W prog s' := by
  cases h with
  | @instr _ p i rest hp h1 h2 h3 h4 =>
    have hnw : (s.task p).waiting = false := by
      by_contra hc
      obtain ⟨r, hr⟩ := hw.wait p hp (by simpa using hc)
      rw [h1] at hr
      exact h2 (List.cons.inj hr).1
    refine ⟨fun k hk => ?_, fun k hk => ?_, fun k hk hkw => ?_, fun k k' c hk hk' hn hW hkw => ?_⟩
    · by_cases e : k = p
      · subst e
        dsimp only
        rw [put_same, taskAfter_rest]
        have := hw.suffix k hk
        rw [h1] at this
        exact (List.suffix_cons i rest).trans this
      · dsimp only; rw [put_ne _ _ _ _ e]; exact hw.suffix k hk
    · by_cases e : k = p
      · subst e
        have := hw.count k hk
        rw [h1, List.count_cons_of_ne h2] at this
        dsimp only
        rw [put_same, taskAfter_rest, taskAfter_entered, taskAfter_waiting]
        exact this
      · dsimp only; rw [put_ne _ _ _ _ e]; exact hw.count k hk
    · by_cases e : k = p
      · subst e
        dsimp only at hkw
        rw [put_same, taskAfter_waiting, hnw] at hkw
        exact absurd hkw (by simp)
      · dsimp only at hkw ⊢; rw [put_ne _ _ _ _ e] at hkw ⊢; exact hw.wait k hk hkw
    · have hent : ∀ j, (put s.task p (taskAfter i rest (s.task p)) j).entered = (s.task j).entered := fun j => by
        by_cases e : j = p
        · subst e; rw [put_same, taskAfter_entered]
        · rw [put_ne _ _ _ _ e]
      have hwt : ∀ j, (put s.task p (taskAfter i rest (s.task p)) j).waiting = (s.task j).waiting := fun j => by
        by_cases e : j = p
        · subst e; rw [put_same, taskAfter_waiting]
        · rw [put_ne _ _ _ _ e]
      dsimp only at hkw ⊢
      rw [hent]
      rw [hent, hwt] at hkw
      exact hw.reach k k' c hk hk' hn hW hkw
  | @enter _ p rest hp h1 h2 =>
    refine ⟨fun k hk => ?_, fun k hk => ?_, fun k hk hkw => ?_, fun k k' c hk hk' hn hW hkw => ?_⟩
    · by_cases e : k = p
      · subst e; dsimp only; rw [put_same]; exact hw.suffix k hk
      · dsimp only; rw [put_ne _ _ _ _ e]; exact hw.suffix k hk
    · by_cases e : k = p
      · subst e
        have := hw.count k hk
        rw [h2] at this
        dsimp only
        rw [put_same]
        dsimp only
        simp only [Bool.toNat_true, Bool.toNat_false] at this ⊢
        omega
      · dsimp only; rw [put_ne _ _ _ _ e]; exact hw.count k hk
    · by_cases e : k = p
      · subst e; dsimp only; rw [put_same]; exact ⟨rest, h1⟩
      · dsimp only at hkw ⊢; rw [put_ne _ _ _ _ e] at hkw ⊢; exact hw.wait k hk hkw
    · have hold : c + (s.task k).waiting.toNat ≤ (s.task k).entered := by
        by_cases e : k = p
        · subst e; dsimp only at hkw; rw [put_same] at hkw; rw [h2]
          simp only [Bool.toNat_true, Bool.toNat_false] at hkw ⊢
          omega
        · dsimp only at hkw; rw [put_ne _ _ _ _ e] at hkw; exact hkw
      have := hw.reach k k' c hk hk' hn hW hold
      dsimp only
      by_cases e' : k' = p
      · subst e'; rw [put_same]; dsimp only; omega
      · rw [put_ne _ _ _ _ e']; exact this
  | @leave _ p rest hp h1 h2 h3 =>
    refine ⟨fun k hk => ?_, fun k hk => ?_, fun k hk hkw => ?_, fun k k' c hk hk' hn hW hkw => ?_⟩
    · by_cases e : k = p
      · subst e
        dsimp only
        rw [put_same]
        have := hw.suffix k hk
        rw [h1] at this
        exact (List.suffix_cons _ rest).trans this
      · dsimp only; rw [put_ne _ _ _ _ e]; exact hw.suffix k hk
    · by_cases e : k = p
      · subst e
        have := hw.count k hk
        rw [h1, h2, List.count_cons_self] at this
        dsimp only
        rw [put_same]
        dsimp only
        simp only [Bool.toNat_true, Bool.toNat_false] at this ⊢
        omega
      · dsimp only; rw [put_ne _ _ _ _ e]; exact hw.count k hk
    · by_cases e : k = p
      · subst e; dsimp only at hkw; rw [put_same] at hkw; exact absurd hkw (by simp)
      · dsimp only at hkw ⊢; rw [put_ne _ _ _ _ e] at hkw ⊢; exact hw.wait k hk hkw
    · have hent : ∀ j, (put s.task p { s.task p with rest := rest, waiting := false } j).entered = (s.task j).entered :=
        fun j => by
          by_cases e : j = p
          · subst e; rw [put_same]
          · rw [put_ne _ _ _ _ e]
      dsimp only at hkw ⊢
      rw [hent]
      rw [hent] at hkw
      by_cases e : k = p
      · subst e
        rw [put_same] at hkw
        by_cases e' : c = (s.task k).entered
        · subst e'; exact h3 k' hk' hn.symm hW
        · refine hw.reach k k' c hk hk' hn hW ?_
          rw [h2]
          simp only [Bool.toNat_true, Bool.toNat_false] at hkw ⊢
          omega
      · rw [put_ne _ _ _ _ e] at hkw; exact hw.reach k k' c hk hk' hn hW hkw
  | @depart _ q t a n r _ _ _ _ =>
    refine hw.same fun k => ?_
    by_cases e : k = q
    · subst e; dsimp only; rw [put_same]; exact ⟨rfl, rfl, rfl⟩
    · dsimp only; rw [put_ne _ _ _ _ e]; exact ⟨rfl, rfl, rfl⟩
  | @arrive _ q t a n r msg ms _ _ _ _ _ _ =>
    refine hw.same fun k => ?_
    by_cases e : k = t
    · subst e; dsimp only; rw [put_same]; exact ⟨rfl, rfl, rfl⟩
    · dsimp only; rw [put_ne _ _ _ _ e]; exact ⟨rfl, rfl, rfl⟩

theorem conflict_barrier (i : Instr) : ¬Conflict .barrier i := by
  rintro (⟨x, y, hx, _⟩ | ⟨x, y, hx, _⟩)
  · exact absurd hx List.not_mem_nil
  · exact absurd hx List.not_mem_nil

theorem Where.noRace {N ns : Nat} {prog : Nat → List Instr} {s : TState X} (hw : Where N ns W prog s)
    (hf : Free N ns W prog) : NoRace N ns s := by
  intro p p' hp hp' hne hn i r i' r' e e'
  by_cases c : i = .barrier
  · rw [c]; exact conflict_barrier i'
  by_cases c' : i' = .barrier
  · rw [c']; exact fun h => conflict_barrier i h.symm
  have hnw : ∀ k j u, k < N * ns → (s.task k).rest = j :: u → j ≠ .barrier → (s.task k).waiting = false := by
    intro k j u hk ej hj
    by_contra hc
    obtain ⟨v, hv⟩ := hw.wait k hk (by simpa using hc)
    rw [ej] at hv
    exact hj (List.cons.inj hv).1
  have w := hnw p i r hp e c
  have w' := hnw p' i' r' hp' e' c'
  have n1 := hw.count p hp
  have n2 := hw.count p' hp'
  rw [e, w, List.count_cons_of_ne c] at n1
  rw [e', w', List.count_cons_of_ne c'] at n2
  simp only [Bool.toNat_false] at n1 n2
  intro hcon
  rcases hf p p' hp hp' hne hn i r i' r' _ _ (e ▸ hw.suffix p hp) (e' ▸ hw.suffix p' hp') c c' n1 n2 hcon with h | h
  · have := hw.kn h hp' (by rw [w']; simp)
    omega
  · have := hw.kn h hp (by rw [w]; simp)
    omega

/-! ## Pending messages -/

/-- What is pending was posted after the last wait. -/
structure Pend (N ns : Nat) (prog : Nat → List Instr) (s : TState X) : Prop where
  recv : ∀ p, p < N * ns → ∀ q x, x ∈ (s.task p).recvs q →
    ∃ D1 D2, prog p = D1 ++ .irecv x.1 x.2 q :: (D2 ++ (s.task p).rest) ∧ Instr.waitall ∉ D2
  send : ∀ p, p < N * ns → ∀ q x, x ∈ (s.task p).sends q →
    ∃ D1 D2, prog p = D1 ++ .isend x.1 x.2 q :: (D2 ++ (s.task p).rest) ∧ Instr.waitall ∉ D2

/-- The call starts a message. -/
def Post (j : Instr) : Prop := (∃ a n q, j = .irecv a n q) ∨ ∃ a n q, j = .isend a n q

/-- Instructions that conflict with a message come before it is posted or after it has been waited for, in the order given by the
barriers. -/
structure Awaits (N ns : Nat) (W : Nat → Nat → Nat → Prop) (prog : Nat → List Instr) : Prop where
  own : ∀ p, p < N * ns → ∀ i, i ∈ prog p → ∀ x, x ∈ writes i → ∀ y, y ∈ reads i → ¬overlap x.1 x.2 y.1 y.2
  self : ∀ p, p < N * ns → ∀ D1 j D2 i r, prog p = D1 ++ j :: (D2 ++ i :: r) → Instr.waitall ∉ D2 → Post j →
    ¬Conflict i j
  other : ∀ p p', p < N * ns → p' < N * ns → p ≠ p' → p / ns = p' / ns → ∀ i r D1 j D2 l' x x', i :: r <:+ prog p →
    prog p' = D1 ++ j :: (D2 ++ l') → Instr.waitall ∉ D2 → x + r.count .barrier = (prog p).count .barrier →
    x' + l'.count .barrier = (prog p').count .barrier → Post j → Conflict i j →
    Kn N ns W p (x + 1) p' x' ∨ ∃ C E, l' = C ++ .waitall :: E ∧ Kn N ns W p' (x' + C.count .barrier + 1) p x

theorem Pend.same {N ns : Nat} {prog : Nat → List Instr} {s s' : TState X} (h : Pend N ns prog s)
    (e : ∀ p, (s'.task p).rest = (s.task p).rest ∧ (∀ q x, x ∈ (s'.task p).recvs q → x ∈ (s.task p).recvs q) ∧
      ∀ q x, x ∈ (s'.task p).sends q → x ∈ (s.task p).sends q) : Pend N ns prog s' :=
  ⟨fun p hp q x hx => by rw [(e p).1]; exact h.recv p hp q x ((e p).2.1 q x hx),
    fun p hp q x hx => by rw [(e p).1]; exact h.send p hp q x ((e p).2.2 q x hx)⟩

theorem TStep.pend {N ns : Nat} {prog : Nat → List Instr} {l : Lab} {s s' : TState X} (h : TStep N ns W l s s')
    (hw : Where N ns W prog s) (hp : Pend N ns prog s) : Pend N ns prog s' := by
  have shift : ∀ {p : Nat} {i j : Instr} {rest : List Instr}, i ≠ .waitall → (s.task p).rest = i :: rest →
      (∃ D1 D2, prog p = D1 ++ j :: (D2 ++ (s.task p).rest) ∧ Instr.waitall ∉ D2) →
      ∃ D1 D2, prog p = D1 ++ j :: (D2 ++ rest) ∧ Instr.waitall ∉ D2 := by
    rintro p i j rest hi hr ⟨D1, D2, h1, h2⟩
    refine ⟨D1, D2 ++ [i], ?_, ?_⟩
    · rw [h1, hr, List.append_assoc]; rfl
    · intro hm
      rcases List.mem_append.1 hm with hm | hm
      · exact h2 hm
      · exact hi (List.mem_singleton.1 hm).symm
  have start : ∀ {p : Nat} {i : Instr} {rest : List Instr}, p < N * ns → (s.task p).rest = i :: rest →
      ∃ D1 D2, prog p = D1 ++ i :: (D2 ++ rest) ∧ Instr.waitall ∉ D2 := by
    intro p i rest hpn hr
    obtain ⟨D, hD⟩ := hw.suffix p hpn
    exact ⟨D, [], by rw [← hD, hr]; rfl, List.not_mem_nil⟩
  cases h with
  | @instr _ p i rest hpn h1 h2 h3 h4 =>
    refine ⟨fun k hk q x hx => ?_, fun k hk q x hx => ?_⟩
    · by_cases e : k = p
      · subst e
        dsimp only at hx ⊢
        rw [put_same] at hx ⊢
        rw [taskAfter_rest]
        by_cases hwa : i = .waitall
        · subst hwa
          have hx : x ∈ (s.task k).recvs q := hx
          rw [(h4 rfl q).1] at hx
          exact absurd hx List.not_mem_nil
        · cases i with
          | irecv a n q' =>
            have hx : x ∈ push (s.task k).recvs q' (a, n) q := hx
            rcases RawCode.mem_push hx with hx | ⟨rfl, rfl⟩
            · exact shift hwa h1 (hp.recv k hk q x hx)
            · exact start hk h1
          | _ => exact shift hwa h1 (hp.recv k hk q x hx)
      · dsimp only at hx ⊢; rw [put_ne _ _ _ _ e] at hx ⊢; exact hp.recv k hk q x hx
    · by_cases e : k = p
      · subst e
        dsimp only at hx ⊢
        rw [put_same] at hx ⊢
        rw [taskAfter_rest]
        by_cases hwa : i = .waitall
        · subst hwa
          have hx : x ∈ (s.task k).sends q := hx
          rw [(h4 rfl q).2] at hx
          exact absurd hx List.not_mem_nil
        · cases i with
          | isend a n q' =>
            have hx : x ∈ push (s.task k).sends q' (a, n) q := hx
            rcases RawCode.mem_push hx with hx | ⟨rfl, rfl⟩
            · exact shift hwa h1 (hp.send k hk q x hx)
            · exact start hk h1
          | _ => exact shift hwa h1 (hp.send k hk q x hx)
      · dsimp only at hx ⊢; rw [put_ne _ _ _ _ e] at hx ⊢; exact hp.send k hk q x hx
  | @enter _ p rest hpn h1 h2 =>
    refine hp.same fun k => ?_
    by_cases e : k = p
    · subst e; dsimp only; rw [put_same]; exact ⟨rfl, fun _ _ h => h, fun _ _ h => h⟩
    · dsimp only; rw [put_ne _ _ _ _ e]; exact ⟨rfl, fun _ _ h => h, fun _ _ h => h⟩
  | @leave _ p rest hpn h1 h2 h3 =>
    refine ⟨fun k hk q x hx => ?_, fun k hk q x hx => ?_⟩
    · by_cases e : k = p
      · subst e
        dsimp only at hx ⊢
        rw [put_same] at hx ⊢
        exact shift (by simp) h1 (hp.recv k hk q x hx)
      · dsimp only at hx ⊢; rw [put_ne _ _ _ _ e] at hx ⊢; exact hp.recv k hk q x hx
    · by_cases e : k = p
      · subst e
        dsimp only at hx ⊢
        rw [put_same] at hx ⊢
        exact shift (by simp) h1 (hp.send k hk q x hx)
      · dsimp only at hx ⊢; rw [put_ne _ _ _ _ e] at hx ⊢; exact hp.send k hk q x hx
  | @depart _ q t a n r _ _ _ _ =>
    refine hp.same fun k => ?_
    by_cases e : k = q
    · subst e; dsimp only; rw [put_same]; exact ⟨rfl, fun _ _ h => h, fun _ _ h => RawCode.mem_pop h⟩
    · dsimp only; rw [put_ne _ _ _ _ e]; exact ⟨rfl, fun _ _ h => h, fun _ _ h => h⟩
  | @arrive _ q t a n r msg ms _ _ _ _ _ _ =>
    refine hp.same fun k => ?_
    by_cases e : k = t
    · subst e; dsimp only; rw [put_same]; exact ⟨rfl, fun _ _ h => RawCode.mem_pop h, fun _ _ h => h⟩
    · dsimp only; rw [put_ne _ _ _ _ e]; exact ⟨rfl, fun _ _ h => h, fun _ _ h => h⟩

theorem Where.apart {N ns : Nat} {prog : Nat → List Instr} {s : TState X} (hw : Where N ns W prog s) (ha : Awaits N ns W prog)
    {p p' : Nat} (hp : p < N * ns) (hp' : p' < N * ns) (hn : p / ns = p' / ns) {i j : Instr} {r D1 D2 : List Instr}
    (e : (s.task p).rest = i :: r) (h1 : prog p' = D1 ++ j :: (D2 ++ (s.task p').rest)) (h2 : Instr.waitall ∉ D2)
    (hj : Post j) : ¬Conflict i j := by
  intro hc
  have hi : i ≠ .barrier := by rintro rfl; exact conflict_barrier j hc
  have hnw : (s.task p).waiting = false := by
    by_contra hcw
    obtain ⟨v, hv⟩ := hw.wait p hp (by simpa using hcw)
    rw [e] at hv
    exact hi (List.cons.inj hv).1
  by_cases hpp : p = p'
  · subst hpp
    rw [e] at h1
    exact ha.self p hp D1 j D2 i r h1 h2 hj hc
  have n1 := hw.count p hp
  have n2 := hw.count p' hp'
  rw [e, hnw, List.count_cons_of_ne hi] at n1
  simp only [Bool.toNat_false] at n1
  have hle : (s.task p').waiting.toNat ≤ (s.task p').entered := by
    obtain ⟨D, hD⟩ := hw.suffix p' hp'
    rw [← hD, List.count_append] at n2
    omega
  rcases ha.other p p' hp hp' hpp hn i r D1 j D2 _ (s.task p).entered ((s.task p').entered - (s.task p').waiting.toNat)
    (e ▸ hw.suffix p hp) h1 h2 n1 (by omega) hj hc with h | ⟨C, E, h3, h4⟩
  · have := hw.kn h hp' (by omega)
    omega
  · have h5 := hw.kn h4 hp (by rw [hnw]; simp)
    cases hwt : (s.task p').waiting with
    | false => rw [hwt] at h5; simp only [Bool.toNat_false] at h5; omega
    | true =>
      obtain ⟨v, hv⟩ := hw.wait p' hp' hwt
      rw [hv] at h3
      cases C with
      | nil => cases h3
      | cons c C =>
        obtain ⟨rfl, _⟩ := List.cons.inj h3
        rw [List.count_cons_self, hwt] at h5
        rw [hwt] at hle
        simp only [Bool.toNat_true] at h5 hle
        omega

theorem Where.safe {N ns : Nat} {prog : Nat → List Instr} {s : TState X} (hw : Where N ns W prog s) (hpd : Pend N ns prog s)
    (ha : Awaits N ns W prog) : TSafe N ns s := by
  intro p hp i r e
  have hlt : ∀ p', p' / ns = p / ns → p' < N * ns := by
    intro p' h
    have hns : 0 < ns := Nat.pos_of_ne_zero (by rintro rfl; simp at hp)
    exact (Nat.div_lt_iff_lt_mul hns).1 (h ▸ (Nat.div_lt_iff_lt_mul hns).2 hp)
  refine ⟨fun p' hn q x hx y hy ho => ?_, fun p' hn q x hx y hy ho => ?_, ha.own p hp i ?_⟩
  · obtain ⟨D1, D2, h1, h2⟩ := hpd.recv p' (hlt p' hn) q x hx
    refine hw.apart ha hp (hlt p' hn) hn.symm e h1 h2 (.inl ⟨_, _, _, rfl⟩) ?_
    rcases List.mem_append.1 hy with hy | hy
    · exact .inl ⟨y, (x.1, x.2), hy, List.mem_append_left _ List.mem_cons_self, overlap_symm ho⟩
    · exact .inr ⟨y, (x.1, x.2), hy, List.mem_cons_self, overlap_symm ho⟩
  · obtain ⟨D1, D2, h1, h2⟩ := hpd.send p' (hlt p' hn) q x hx
    refine hw.apart ha hp (hlt p' hn) hn.symm e h1 h2 (.inr ⟨_, _, _, rfl⟩) ?_
    exact .inl ⟨y, (x.1, x.2), hy, List.mem_append_right _ List.mem_cons_self, overlap_symm ho⟩
  · exact (hw.suffix p hp).subset (by rw [e]; exact List.mem_cons_self)

/-! ## One execution determines all -/

/-- Executions that MPI can perform without buffering. -/
inductive TURun (N ns : Nat) (W : Nat → Nat → Nat → Prop) : Nat → TState X → TState X → Prop
  | refl {s} : TURun N ns W 0 s s
  | step {k l s s1 s2} : TUnbuffered l s → TStep N ns W l s s1 → TURun N ns W k s1 s2 → TURun N ns W (k + 1) s s2

theorem TURun.trans {N ns j k : Nat} {s s1 s2 : TState X} (h1 : TURun N ns W j s s1) (h2 : TURun N ns W k s1 s2) :
    TURun N ns W (j + k) s s2 := by
  induction h1 with
  | refl => rw [Nat.zero_add]; exact h2
  | step hu hs _ ih => rw [Nat.add_right_comm]; exact .step hu hs (ih h2)

theorem LocOk.recvs_ne {N ns : Nat} {s : TState X} {p : Nat} {i : Instr} {t' : Task} (h : LocOk N ns W s p i t') {q : Nat}
    (hq : (s.task p).recvs q ≠ []) : t'.recvs q ≠ [] := by
  cases h with
  | instr _ _ _ _ =>
    cases i with
    | irecv a n q' =>
      dsimp only [taskAfter]
      unfold push
      split
      · exact fun h => List.cons_ne_nil _ _ (List.append_eq_nil_iff.1 h).2
      · exact hq
    | _ => exact hq
  | enter _ _ => exact hq
  | leave _ _ _ => exact hq

theorem tunbuffered_other {N ns : Nat} {l l' : Lab} {s s' : TState X} (hne : l ≠ l') (hu : TUnbuffered l s)
    (h : TStep N ns W l' s s') : TUnbuffered l s' := by
  cases l with
  | loc _ => exact trivial
  | arrive _ _ => exact trivial
  | depart q t =>
    obtain ⟨h1, h2⟩ := hu
    cases l' with
    | loc p =>
      obtain ⟨_, i, t1, g1, rfl⟩ := h.toLoc
      refine ⟨h1, ?_⟩
      dsimp only
      by_cases e : t = p
      · subst e; rw [put_same]; exact g1.recvs_ne h2
      · rw [put_ne _ _ _ _ e]; exact h2
    | depart q' t' =>
      cases h with
      | depart _ _ _ _ =>
        refine ⟨?_, ?_⟩
        · dsimp only
          rw [setChan_ne]
          · exact h1
          · rintro ⟨e1, e2⟩; exact hne (by rw [e1, e2])
        · dsimp only
          by_cases e : t = q'
          · subst e; rw [put_same]; exact h2
          · rw [put_ne _ _ _ _ e]; exact h2
    | arrive q' t' =>
      cases h with
      | @arrive _ _ _ a n r msg ms _ _ _ hc _ _ =>
        have hd : ¬(q = q' ∧ t = t') := by
          rintro ⟨e1, e2⟩
          subst e1; subst e2
          rw [h1] at hc
          exact List.cons_ne_nil _ _ hc.symm
        refine ⟨?_, ?_⟩
        · dsimp only
          rw [setChan_ne _ _ _ _ _ _ hd]
          exact h1
        · dsimp only
          by_cases e : t = t'
          · subst e; rw [put_same]; dsimp only
            rw [pop_ne]
            · exact h2
            · exact fun e => hd ⟨e, rfl⟩
          · rw [put_ne _ _ _ _ e]; exact h2

/-- What holds in all states of an execution. -/
structure Ok (N ns : Nat) (W : Nat → Nat → Nat → Prop) (prog : Nat → List Instr) (s : TState X) : Prop where
  sep : TSep ns s
  wh : Where N ns W prog s
  pend : Pend N ns prog s

theorem TStep.ok {N ns : Nat} {prog : Nat → List Instr} {l : Lab} {s s' : TState X} (h : TStep N ns W l s s')
    (ho : Ok N ns W prog s) : Ok N ns W prog s' := ⟨h.sep ho.sep, h.where ho.wh, h.pend ho.wh ho.pend⟩

theorem TURun.after {N ns n : Nat} {prog : Nat → List Instr} (hf : Free N ns W prog)
    {s e : TState X} (h : TURun N ns W n s e) (ho : Ok N ns W prog s) (he : ∀ l s', ¬TStep N ns W l e s') {l : Lab}
    {s' : TState X} (hl : TStep N ns W l s s') : ∃ k, n = k + 1 ∧ TURun N ns W k s' e := by
  induction h generalizing l s' with
  | refl => exact absurd hl (he l s')
  | @step k l0 s s1 s2 hu h0 hr ih =>
    refine ⟨k, rfl, ?_⟩
    by_cases el : l0 = l
    · subst el
      rw [← h0.det hl]; exact hr
    · obtain ⟨s1', g1, g2⟩ := tdiamond ho.sep (ho.wh.noRace hf) el h0 hl
      obtain ⟨j, ej, hj⟩ := ih (h0.ok ho) he g1
      rw [ej]
      exact .step (tunbuffered_other el hu hl) g2 hj

theorem TFinal.stuck {N ns : Nat} {s : TState X} (h : TFinal N ns s) (l : Lab) (s' : TState X) :
    ¬TStep N ns W l s s' := by
  intro hs
  cases l with
  | loc p =>
    obtain ⟨hp, i, t', g, _⟩ := hs.toLoc
    obtain ⟨r, hr⟩ := g.rest
    rw [(h p hp).1] at hr
    exact List.cons_ne_nil _ _ hr.symm
  | depart q t =>
    cases hs with
    | depart hq ht _ g =>
      have := ((h q hq).2 t).2.1
      rw [g] at this
      exact List.cons_ne_nil _ _ this
  | arrive q t =>
    cases hs with
    | arrive _ ht _ _ g _ =>
      have := ((h t ht).2 q).1
      rw [g] at this
      exact List.cons_ne_nil _ _ this

theorem startT_ok (N ns : Nat) (prog : Nat → List Instr) (m : Nat → Mem X) : Ok N ns W prog (startT prog m) where
  sep := ⟨fun _ _ _ _ _ _ _ h => absurd h List.not_mem_nil, fun _ _ _ _ _ _ _ _ h => absurd h List.not_mem_nil⟩
  wh := ⟨fun _ _ => List.suffix_refl _, fun _ _ => by simp [startT], fun _ _ h => absurd h (by simp [startT]),
    fun _ _ _ _ _ _ _ h => by simpa [startT] using h⟩
  pend := ⟨fun _ _ _ _ h => absurd h List.not_mem_nil, fun _ _ _ _ h => absurd h List.not_mem_nil⟩

/-- A single execution without buffering that ends well shows that programs without conflicts are correct. -/
theorem tcorrect_of_run {N ns n : Nat} {prog : Nat → List Instr} {m : Nat → Mem X} {post : (Nat → Mem X) → Prop}
    {e : TState X} (hf : Free N ns W prog) (ha : Awaits N ns W prog)
    (h : TURun N ns W n (startT prog m) e) (he : TFinal N ns e) (hp : post e.mem) : WCorrect N ns W prog m post := by
  have key : ∀ k s s', TSteps N ns W k s s' → ∀ n, TURun N ns W n s e → Ok N ns W prog s →
      ∃ j, n = k + j ∧ TURun N ns W j s' e ∧ Ok N ns W prog s' := by
    intro k s s' hk
    induction hk with
    | refl => intro n hn ho; exact ⟨n, by omega, hn, ho⟩
    | step h0 _ ih =>
      intro n hn ho
      obtain ⟨j, ej, hj⟩ := hn.after hf ho he.stuck h0
      obtain ⟨i, ei, hi⟩ := ih j hj (h0.ok ho)
      exact ⟨i, by omega, hi⟩
  refine ⟨n, fun k s hk => ?_⟩
  obtain ⟨j, ej, hj, ho⟩ := key k _ s hk n h (startT_ok N ns prog m)
  refine ⟨by omega, ho.wh.noRace hf, ho.wh.safe ho.pend ha, ?_⟩
  cases hj with
  | refl => exact .inl ⟨he, hp⟩
  | step hu hs _ => exact .inr ⟨_, _, hu, hs⟩

end ExtMpi.TasksNode
