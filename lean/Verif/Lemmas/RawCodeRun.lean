import Verif.Spec.RawCode
/-! # All executions are equivalent -/
namespace ExtMpi.RawCode

variable {X : Type} [Add X]

/-! ## Determinism -/

theorem LStep.det {p p1 p2 : Proc X} (h1 : LStep p p1) (h2 : LStep p p2) : p1 = p2 := by
  cases h1 <;> cases h2 <;> simp_all

theorem Step.det {N : Nat} {l : Lab} {s s1 s2 : State X} (h1 : Step N l s s1) (h2 : Step N l s s2) : s1 = s2 := by
  cases h1 with
  | loc _ h =>
    cases h2 with
    | loc _ h' => rw [h.det h']
  | depart _ _ _ h =>
    cases h2 with
    | depart _ _ _ h' => rw [h] at h'; simp_all
  | arrive _ _ _ h g _ =>
    cases h2 with
    | arrive _ _ _ h' g' _ => rw [h] at h'; rw [g] at g'; simp_all

/-! ## Buffers of pending messages -/

/-- Pending receive buffers are disjoint from each other and from the pending send buffers. -/
structure Sep (p : Proc X) : Prop where
  rs : ∀ q q' x y, x ∈ p.recvs q → y ∈ p.sends q' → ¬overlap x.1 x.2 y.1 y.2
  rr : ∀ q q' x y, q ≠ q' → x ∈ p.recvs q → y ∈ p.recvs q' → ¬overlap x.1 x.2 y.1 y.2

theorem overlap_symm {a b : Addr} {n m : Nat} (h : overlap a n b m) : overlap b m a n :=
  ⟨h.1.symm, h.2.2, h.2.1⟩

theorem mem_push {f : Nat → List (Addr × Nat)} {q k : Nat} {x y : Addr × Nat} (h : y ∈ push f q x k) :
    y ∈ f k ∨ k = q ∧ y = x := by
  unfold push at h
  split at h
  · rcases List.mem_append.1 h with h | h
    · exact .inl h
    · exact .inr ⟨by assumption, List.mem_singleton.1 h⟩
  · exact .inl h

theorem mem_pop {f : Nat → List (Addr × Nat)} {q k : Nat} {y : Addr × Nat} (h : y ∈ pop f q k) : y ∈ f k := by
  unfold pop at h
  split at h
  · exact List.mem_of_mem_tail h
  · exact h

theorem LStep.sep {p p' : Proc X} (h : LStep p p') (hs : Sep p) : Sep p' := by
  cases h with
  | copy => exact ⟨hs.rs, hs.rr⟩
  | barrier => exact ⟨hs.rs, hs.rr⟩
  | waitall => exact ⟨hs.rs, hs.rr⟩
  | irecv _ h1 h2 =>
    refine ⟨fun q q' x y hx hy => ?_, fun q q' x y hq hx hy => ?_⟩
    · rcases mem_push hx with hx | ⟨_, rfl⟩
      · exact hs.rs q q' x y hx hy
      · exact fun h => h2 q' y hy (overlap_symm h)
    · rcases mem_push hx with hx | ⟨e1, rfl⟩
      · rcases mem_push hy with hy | ⟨_, rfl⟩
        · exact hs.rr q q' x y hq hx hy
        · exact h1 q x hx
      · rcases mem_push hy with hy | ⟨e2, rfl⟩
        · exact fun h => h1 q' y hy (overlap_symm h)
        · exact absurd (e1.trans e2.symm) hq
  | isend _ h1 =>
    refine ⟨fun q q' x y hx hy => ?_, hs.rr⟩
    rcases mem_push hy with hy | ⟨_, rfl⟩
    · exact hs.rs q q' x y hx hy
    · exact h1 q x hx

theorem setProc_same (f : Nat → Proc X) (t : Nat) (p : Proc X) : setProc f t p t = p := by simp [setProc]

theorem setProc_ne (f : Nat → Proc X) (t k : Nat) (p : Proc X) (h : k ≠ t) : setProc f t p k = f k := by
  simp [setProc, h]

theorem Step.sep {N : Nat} {l : Lab} {s s' : State X} (h : Step N l s s') (hs : ∀ t, Sep (s.proc t)) :
    ∀ t, Sep (s'.proc t) := by
  intro k
  cases h with
  | @loc _ t p _ h =>
    by_cases hk : k = t
    · subst hk; dsimp only; rw [setProc_same]; exact h.sep (hs k)
    · dsimp only; rw [setProc_ne _ _ _ _ hk]; exact hs k
  | @depart _ q t a n r _ _ _ h =>
    by_cases hk : k = q
    · subst hk; dsimp only; rw [setProc_same]
      exact ⟨fun q q' x y hx hy => (hs k).rs q q' x y hx (mem_pop hy), (hs k).rr⟩
    · dsimp only; rw [setProc_ne _ _ _ _ hk]; exact hs k
  | @arrive _ q t a n r msg ms _ _ _ h g _ =>
    by_cases hk : k = t
    · subst hk; dsimp only; rw [setProc_same]
      exact ⟨fun q q' x y hx hy => (hs k).rs q q' x y (mem_pop hx) hy,
        fun q q' x y hq hx hy => (hs k).rr q q' x y hq (mem_pop hx) (mem_pop hy)⟩
    · dsimp only; rw [setProc_ne _ _ _ _ hk]; exact hs k

/-! ## Memory operations on disjoint intervals -/

theorem copyMem_out (red : Bool) (dst src : Addr) (n : Nat) (m : Mem X) (r : Reg) (i : Nat)
    (h : ¬(r = dst.reg ∧ dst.off ≤ i ∧ i < dst.off + n)) : copyMem red dst src n m r i = m r i := by
  unfold copyMem; rw [if_neg h]

theorem writeMem_out (m : Mem X) (a : Addr) (msg : List X) (r : Reg) (i : Nat)
    (h : ¬(r = a.reg ∧ a.off ≤ i ∧ i < a.off + msg.length)) : writeMem m a msg r i = m r i := by
  unfold writeMem
  split
  · next h1 =>
    have : msg[i - a.off]? = none := by
      rw [List.getElem?_eq_none_iff]
      rcases h1 with ⟨h1, h2⟩
      by_contra h3
      exact h ⟨h1, h2, by omega⟩
    rw [this]
  · rfl

theorem readMem_copyMem (red : Bool) (dst src a : Addr) (n k : Nat) (m : Mem X) (h : ¬overlap a k dst n) :
    readMem (copyMem red dst src n m) a k = readMem m a k := by
  unfold readMem
  apply List.map_congr_left
  intro i hi
  rw [List.mem_range] at hi
  apply copyMem_out
  rintro ⟨h1, h2, h3⟩
  exact h ⟨h1, by omega, by omega⟩

theorem readMem_writeMem (m : Mem X) (a b : Addr) (msg : List X) (k : Nat) (h : ¬overlap b msg.length a k) :
    readMem (writeMem m b msg) a k = readMem m a k := by
  unfold readMem
  apply List.map_congr_left
  intro i hi
  rw [List.mem_range] at hi
  apply writeMem_out
  rintro ⟨h1, h2, h3⟩
  exact h ⟨h1.symm, by omega, by omega⟩

theorem copyMem_congr (red : Bool) (dst src : Addr) (n : Nat) (m m' : Mem X)
    (r : Reg) (i : Nat) (h : m r i = m' r i)
    (hs : ∀ j, j < n → m src.reg (src.off + j) = m' src.reg (src.off + j)) :
    copyMem red dst src n m r i = copyMem red dst src n m' r i := by
  unfold copyMem
  split
  · next h1 =>
    dsimp only
    rw [hs (i - dst.off) (by omega), h]
  · exact h

theorem writeMem_copyMem (red : Bool) (dst src a : Addr) (n : Nat) (msg : List X) (m : Mem X)
    (h1 : ¬overlap a msg.length dst n) (h2 : ¬overlap a msg.length src n) :
    writeMem (copyMem red dst src n m) a msg = copyMem red dst src n (writeMem m a msg) := by
  funext r i
  by_cases h : r = a.reg ∧ a.off ≤ i ∧ i < a.off + msg.length
  · rw [copyMem_out]
    · unfold writeMem
      rw [if_pos ⟨h.1, h.2.1⟩, if_pos ⟨h.1, h.2.1⟩]
      have : i - a.off < msg.length := by omega
      rw [List.getElem?_eq_getElem this]
    · rintro ⟨g1, g2, g3⟩
      exact h1 ⟨h.1.symm.trans g1, by omega, by omega⟩
  · rw [writeMem_out _ _ _ _ _ h]
    apply copyMem_congr
    · rw [writeMem_out _ _ _ _ _ h]
    · intro j hj
      rw [writeMem_out]
      rintro ⟨g1, g2, g3⟩
      exact h2 ⟨g1.symm, by omega, by omega⟩

theorem writeMem_in (m : Mem X) (a : Addr) (msg : List X) (r : Reg) (i : Nat)
    (h : r = a.reg ∧ a.off ≤ i ∧ i < a.off + msg.length) :
    writeMem m a msg r i = msg[i - a.off]'(by omega) := by
  unfold writeMem
  rw [if_pos ⟨h.1, h.2.1⟩]
  have : i - a.off < msg.length := by omega
  rw [List.getElem?_eq_getElem this]

theorem writeMem_comm (a b : Addr) (x y : List X) (m : Mem X) (h : ¬overlap a x.length b y.length) :
    writeMem (writeMem m a x) b y = writeMem (writeMem m b y) a x := by
  funext r i
  by_cases h1 : r = a.reg ∧ a.off ≤ i ∧ i < a.off + x.length
  · have h2 : ¬(r = b.reg ∧ b.off ≤ i ∧ i < b.off + y.length) := by
      rintro ⟨g1, g2, g3⟩
      exact h ⟨h1.1.symm.trans g1, by omega, by omega⟩
    rw [writeMem_out _ _ _ _ _ h2, writeMem_in _ _ _ _ _ h1, writeMem_in _ _ _ _ _ h1]
  · rw [writeMem_out _ _ _ _ _ h1]
    by_cases h2 : r = b.reg ∧ b.off ≤ i ∧ i < b.off + y.length
    · rw [writeMem_in _ _ _ _ _ h2, writeMem_in _ _ _ _ _ h2]
    · rw [writeMem_out _ _ _ _ _ h2, writeMem_out _ _ _ _ _ h2, writeMem_out _ _ _ _ _ h1]

/-! ## Queues -/

theorem pop_push (f : Nat → List (Addr × Nat)) (q q' : Nat) (x : Addr × Nat) (h : f q ≠ []) :
    pop (push f q' x) q = push (pop f q) q' x := by
  funext k
  unfold pop push
  by_cases h1 : k = q
  · by_cases h2 : k = q'
    · subst h1; subst h2
      simp only [if_true]
      exact List.tail_append_of_ne_nil h
    · rw [if_pos h1, if_neg h2, if_neg h2]; dsimp only; rw [if_pos h1]
  · rw [if_neg h1]; dsimp only; rw [if_neg h1]

theorem pop_comm (f : Nat → List (Addr × Nat)) (q q' : Nat) (h : q ≠ q') : pop (pop f q) q' = pop (pop f q') q := by
  funext k
  unfold pop
  by_cases h1 : k = q
  · subst h1; simp [h]
  · simp [h1]

theorem pop_ne (f : Nat → List (Addr × Nat)) (q q' : Nat) (h : q' ≠ q) : pop f q q' = f q' := by
  simp [pop, h]

theorem push_head (f : Nat → List (Addr × Nat)) (q q' : Nat) (x y : Addr × Nat) (r : List (Addr × Nat))
    (h : f q = y :: r) : ∃ r', push f q' x q = y :: r' := by
  unfold push
  split
  · exact ⟨r ++ [x], by rw [h]; rfl⟩
  · exact ⟨r, h⟩

theorem setProc_comm (f : Nat → Proc X) (t t' : Nat) (p p' : Proc X) (h : t ≠ t') :
    setProc (setProc f t p) t' p' = setProc (setProc f t' p') t p := by
  funext k
  unfold setProc
  by_cases h1 : k = t
  · subst h1; simp [h]
  · simp [h1]

theorem setProc_setProc (f : Nat → Proc X) (t : Nat) (p p' : Proc X) :
    setProc (setProc f t p) t p' = setProc f t p' := by
  funext k
  unfold setProc
  by_cases h1 : k = t <;> simp [h1]

/-! ## Local steps and messages -/

/-- A message leaves the send buffer. -/
theorem LStep.depart {p p' : Proc X} (h : LStep p p') (t : Nat) (a : Addr) (n : Nat) (r : List (Addr × Nat))
    (hs : p.sends t = (a, n) :: r) :
    LStep { p with sends := pop p.sends t } { p' with sends := pop p'.sends t } ∧
    (∃ r', p'.sends t = (a, n) :: r') ∧ readMem p'.mem a n = readMem p.mem a n := by
  cases h with
  | copy h1 h2 h3 h4 h5 =>
    refine ⟨.copy (p := { p with sends := pop p.sends t }) h1 h2 h3 (fun q x hx => h4 q x (mem_pop hx)) h5,
      ⟨r, hs⟩, ?_⟩
    apply readMem_copyMem
    exact h4 t (a, n) (by rw [hs]; exact List.mem_cons_self)
  | irecv h1 h2 h3 =>
    exact ⟨.irecv (p := { p with sends := pop p.sends t }) h1 h2 (fun q x hx => h3 q x (mem_pop hx)),
      ⟨r, hs⟩, rfl⟩
  | isend h1 h2 =>
    refine ⟨?_, push_head _ _ _ _ _ _ hs, rfl⟩
    dsimp only
    rw [pop_push _ _ _ _ (by rw [hs]; exact List.cons_ne_nil _ _)]
    exact .isend (p := { p with sends := pop p.sends t }) h1 h2
  | waitall h1 h2 =>
    have := (h2 t).2
    rw [hs] at this
    exact absurd this (List.cons_ne_nil _ _)
  | barrier h1 => exact ⟨.barrier (p := { p with sends := pop p.sends t }) h1, ⟨r, hs⟩, rfl⟩

/-- A message arrives in the receive buffer. -/
theorem LStep.arrive {p p' : Proc X} (h : LStep p p') (q : Nat) (a : Addr) (msg : List X) (r : List (Addr × Nat))
    (hs : p.recvs q = (a, msg.length) :: r) :
    LStep { p with mem := writeMem p.mem a msg, recvs := pop p.recvs q }
      { p' with mem := writeMem p'.mem a msg, recvs := pop p'.recvs q } ∧
    (∃ r', p'.recvs q = (a, msg.length) :: r') := by
  have hm : (a, msg.length) ∈ p.recvs q := by rw [hs]; exact List.mem_cons_self
  cases h with
  | copy h1 h2 h3 h4 h5 =>
    refine ⟨?_, ⟨r, hs⟩⟩
    dsimp only
    rw [writeMem_copyMem _ _ _ _ _ _ _ (h3 q _ hm) (h5 q _ hm)]
    exact .copy (p := { p with mem := writeMem p.mem a msg, recvs := pop p.recvs q }) h1 h2
      (fun q x hx => h3 q x (mem_pop hx)) h4 (fun q x hx => h5 q x (mem_pop hx))
  | irecv h1 h2 h3 =>
    refine ⟨?_, push_head _ _ _ _ _ _ hs⟩
    dsimp only
    rw [pop_push _ _ _ _ (by rw [hs]; exact List.cons_ne_nil _ _)]
    exact .irecv (p := { p with mem := writeMem p.mem a msg, recvs := pop p.recvs q }) h1
      (fun q x hx => h2 q x (mem_pop hx)) h3
  | isend h1 h2 =>
    exact ⟨.isend (p := { p with mem := writeMem p.mem a msg, recvs := pop p.recvs q }) h1
      (fun q x hx => h2 q x (mem_pop hx)), ⟨r, hs⟩⟩
  | waitall h1 h2 =>
    have := (h2 q).1
    rw [hs] at this
    exact absurd this (List.cons_ne_nil _ _)
  | barrier h1 =>
    exact ⟨.barrier (p := { p with mem := writeMem p.mem a msg, recvs := pop p.recvs q }) h1, ⟨r, hs⟩⟩

/-! ## Diamond -/

theorem setChan_same (f : Nat → Nat → List (List X)) (q t : Nat) (c : List (List X)) : setChan f q t c q t = c := by
  simp [setChan]

theorem setChan_ne (f : Nat → Nat → List (List X)) (q t q' t' : Nat) (c : List (List X)) (h : ¬(q' = q ∧ t' = t)) :
    setChan f q t c q' t' = f q' t' := by
  unfold setChan; rw [if_neg h]

theorem setChan_comm (f : Nat → Nat → List (List X)) (q t q' t' : Nat) (c c' : List (List X))
    (h : ¬(q' = q ∧ t' = t)) : setChan (setChan f q t c) q' t' c' = setChan (setChan f q' t' c') q t c := by
  funext k l
  unfold setChan
  by_cases h1 : k = q ∧ l = t
  · rw [if_neg, if_pos h1, if_pos h1]
    rintro ⟨g1, g2⟩
    exact h ⟨g1.symm.trans h1.1, g2.symm.trans h1.2⟩
  · rw [if_neg h1, if_neg h1]

theorem setChan_setChan (f : Nat → Nat → List (List X)) (q t : Nat) (c c' : List (List X)) :
    setChan (setChan f q t c) q t c' = setChan f q t c' := by
  funext k l
  unfold setChan
  by_cases h1 : k = q ∧ l = t
  · rw [if_pos h1, if_pos h1]
  · rw [if_neg h1, if_neg h1, if_neg h1]

theorem Step.loc' {N t : Nat} {s s' : State X} {p : Proc X} (ht : t < N) (h : LStep (s.proc t) p)
    (e1 : s'.proc = setProc s.proc t p) (e2 : s'.chan = s.chan) : Step N (.loc t) s s' := by
  have : s' = ⟨setProc s.proc t p, s.chan⟩ := by cases s'; simp_all
  rw [this]
  exact .loc ht h

theorem Step.depart' {N q t : Nat} {s s' : State X} {a : Addr} {n : Nat} {r : List (Addr × Nat)}
    (hq : q < N) (ht : t < N) (hne : q ≠ t)
    (h : (s.proc q).sends t = (a, n) :: r)
    (e1 : s'.proc = setProc s.proc q { s.proc q with sends := pop (s.proc q).sends t })
    (e2 : s'.chan = setChan s.chan q t (s.chan q t ++ [readMem (s.proc q).mem a n])) : Step N (.depart q t) s s' := by
  have := Step.depart hq ht hne h
  rw [← e1, ← e2] at this
  exact this

theorem Step.arrive' {N q t : Nat} {s s' : State X} {a : Addr} {r : List (Addr × Nat)} {msg : List X}
    {ms : List (List X)} (hq : q < N) (ht : t < N) (hne : q ≠ t)
    (h : s.chan q t = msg :: ms) (g : (s.proc t).recvs q = (a, msg.length) :: r)
    (e1 : s'.proc = setProc s.proc t
      { s.proc t with mem := writeMem (s.proc t).mem a msg, recvs := pop (s.proc t).recvs q })
    (e2 : s'.chan = setChan s.chan q t ms) : Step N (.arrive q t) s s' := by
  have := Step.arrive hq ht hne h g rfl
  rw [← e1, ← e2] at this
  exact this

theorem diamond_loc_loc {N t t' : Nat} {s s1 s2 : State X} (hne : t ≠ t')
    (h1 : Step N (.loc t) s s1) (h2 : Step N (.loc t') s s2) :
    ∃ s', Step N (.loc t') s1 s' ∧ Step N (.loc t) s2 s' := by
  cases h1 with
  | @loc _ _ p ht hp =>
    cases h2 with
    | @loc _ _ p' ht' hp' =>
      refine ⟨⟨setProc (setProc s.proc t p) t' p', s.chan⟩, .loc' ht' ?_ rfl rfl,
        .loc' (p := p) ht ?_ (setProc_comm _ _ _ _ _ hne) rfl⟩
      · dsimp only; rw [setProc_ne _ _ _ _ hne.symm]; exact hp'
      · dsimp only; rw [setProc_ne _ _ _ _ hne]; exact hp

theorem diamond_loc_depart {N k q t : Nat} {s s1 s2 : State X}
    (h1 : Step N (.loc k) s s1) (h2 : Step N (.depart q t) s s2) :
    ∃ s', Step N (.depart q t) s1 s' ∧ Step N (.loc k) s2 s' := by
  cases h1 with
  | @loc _ _ p hk hp =>
    cases h2 with
    | @depart _ _ _ a n r hq ht hne h =>
      by_cases e : k = q
      · subst e
        obtain ⟨g1, ⟨r', g2⟩, g3⟩ := hp.depart t a n r h
        refine ⟨⟨setProc s.proc k { p with sends := pop p.sends t },
            setChan s.chan k t (s.chan k t ++ [readMem (s.proc k).mem a n])⟩,
          .depart' (a := a) (n := n) (r := r') hq ht hne ?_ ?_ ?_,
          .loc' (p := { p with sends := pop p.sends t }) hk ?_ ?_ rfl⟩
        · dsimp only; rw [setProc_same]; exact g2
        · dsimp only; rw [setProc_same, setProc_setProc]
        · dsimp only; rw [setProc_same, g3]
        · dsimp only; rw [setProc_same]; exact g1
        · dsimp only; rw [setProc_setProc]
      · refine ⟨⟨setProc (setProc s.proc q { s.proc q with sends := pop (s.proc q).sends t }) k p,
            setChan s.chan q t (s.chan q t ++ [readMem (s.proc q).mem a n])⟩,
          .depart' (a := a) (n := n) (r := r) hq ht hne ?_ ?_ ?_, .loc' (p := p) hk ?_ rfl rfl⟩
        · dsimp only; rw [setProc_ne _ _ _ _ (Ne.symm e)]; exact h
        · dsimp only; rw [setProc_ne _ _ _ _ (Ne.symm e)]; exact setProc_comm _ _ _ _ _ (Ne.symm e)
        · dsimp only; rw [setProc_ne _ _ _ _ (Ne.symm e)]
        · dsimp only; rw [setProc_ne _ _ _ _ e]; exact hp

theorem diamond_loc_arrive {N k q t : Nat} {s s1 s2 : State X}
    (h1 : Step N (.loc k) s s1) (h2 : Step N (.arrive q t) s s2) :
    ∃ s', Step N (.arrive q t) s1 s' ∧ Step N (.loc k) s2 s' := by
  cases h1 with
  | @loc _ _ p hk hp =>
    cases h2 with
    | @arrive _ _ _ a n r msg ms hq ht hne h g hn =>
      subst hn
      by_cases e : k = t
      · subst e
        obtain ⟨g1, ⟨r', g2⟩⟩ := hp.arrive q a msg r g
        refine ⟨⟨setProc s.proc k { p with mem := writeMem p.mem a msg, recvs := pop p.recvs q },
            setChan s.chan q k ms⟩,
          .arrive' (a := a) (r := r') hq ht hne h ?_ ?_ rfl,
          .loc' (p := { p with mem := writeMem p.mem a msg, recvs := pop p.recvs q }) hk ?_ ?_ rfl⟩
        · dsimp only; rw [setProc_same]; exact g2
        · dsimp only; rw [setProc_same, setProc_setProc]
        · dsimp only; rw [setProc_same]; exact g1
        · dsimp only; rw [setProc_setProc]
      · refine ⟨⟨setProc (setProc s.proc t { s.proc t with
              mem := writeMem (s.proc t).mem a msg, recvs := pop (s.proc t).recvs q }) k p,
            setChan s.chan q t ms⟩,
          .arrive' (a := a) (r := r) hq ht hne h ?_ ?_ rfl, .loc' (p := p) hk ?_ rfl rfl⟩
        · dsimp only; rw [setProc_ne _ _ _ _ (Ne.symm e)]; exact g
        · dsimp only; rw [setProc_ne _ _ _ _ (Ne.symm e)]; exact setProc_comm _ _ _ _ _ (Ne.symm e)
        · dsimp only; rw [setProc_ne _ _ _ _ e]; exact hp

theorem diamond_depart_depart {N q t q' t' : Nat} {s s1 s2 : State X} (hd : ¬(q' = q ∧ t' = t))
    (h1 : Step N (.depart q t) s s1) (h2 : Step N (.depart q' t') s s2) :
    ∃ s', Step N (.depart q' t') s1 s' ∧ Step N (.depart q t) s2 s' := by
  cases h1 with
  | @depart _ _ _ a n r hq ht hne h =>
    cases h2 with
    | @depart _ _ _ a' n' r' hq' ht' hne' h' =>
      have hd' : ¬(q = q' ∧ t = t') := fun e => hd ⟨e.1.symm, e.2.symm⟩
      by_cases e : q = q'
      · subst e
        have e' : t ≠ t' := fun e => hd ⟨rfl, e.symm⟩
        refine ⟨⟨setProc s.proc q { s.proc q with sends := pop (pop (s.proc q).sends t) t' },
            setChan (setChan s.chan q t (s.chan q t ++ [readMem (s.proc q).mem a n])) q t'
              (s.chan q t' ++ [readMem (s.proc q).mem a' n'])⟩,
          .depart' (a := a') (n := n') (r := r') hq ht' hne' ?_ ?_ ?_,
          .depart' (a := a) (n := n) (r := r) hq ht hne ?_ ?_ ?_⟩
        · dsimp only; rw [setProc_same]; dsimp only; rw [pop_ne _ _ _ e'.symm]; exact h'
        · dsimp only; rw [setProc_same, setProc_setProc]
        · dsimp only; rw [setProc_same, setChan_ne _ _ _ _ _ _ hd]
        · dsimp only; rw [setProc_same]; dsimp only; rw [pop_ne _ _ _ e']; exact h
        · dsimp only; rw [setProc_same, setProc_setProc]; dsimp only; rw [pop_comm _ _ _ e']
        · dsimp only; rw [setProc_same, setChan_ne _ _ _ _ _ _ hd', setChan_comm _ _ _ _ _ _ _ hd]
      · refine ⟨⟨setProc (setProc s.proc q { s.proc q with sends := pop (s.proc q).sends t }) q'
              { s.proc q' with sends := pop (s.proc q').sends t' },
            setChan (setChan s.chan q t (s.chan q t ++ [readMem (s.proc q).mem a n])) q' t'
              (s.chan q' t' ++ [readMem (s.proc q').mem a' n'])⟩,
          .depart' (a := a') (n := n') (r := r') hq' ht' hne' ?_ ?_ ?_,
          .depart' (a := a) (n := n) (r := r) hq ht hne ?_ ?_ ?_⟩
        · dsimp only; rw [setProc_ne _ _ _ _ (Ne.symm e)]; exact h'
        · dsimp only; rw [setProc_ne _ _ _ _ (Ne.symm e)]
        · dsimp only; rw [setProc_ne _ _ _ _ (Ne.symm e), setChan_ne _ _ _ _ _ _ hd]
        · dsimp only; rw [setProc_ne _ _ _ _ e]; exact h
        · dsimp only; rw [setProc_ne _ _ _ _ e]; exact setProc_comm _ _ _ _ _ e
        · dsimp only
          rw [setProc_ne _ _ _ _ e, setChan_ne _ _ _ _ _ _ hd', setChan_comm _ _ _ _ _ _ _ hd]

theorem diamond_depart_arrive {N q t q' t' : Nat} {s s1 s2 : State X} (hs : ∀ t, Sep (s.proc t))
    (h1 : Step N (.depart q t) s s1) (h2 : Step N (.arrive q' t') s s2) :
    ∃ s', Step N (.arrive q' t') s1 s' ∧ Step N (.depart q t) s2 s' := by
  cases h1 with
  | @depart _ _ _ a n r hq ht hne h =>
    cases h2 with
    | @arrive _ _ _ b k u msg ms hq' ht' hne' h' g' hn =>
      subst hn
      -- the channels
      obtain ⟨c, hc1, hc2⟩ : ∃ c, setChan s.chan q t (s.chan q t ++ [readMem (s.proc q).mem a n]) q' t' = msg :: c ∧
          setChan (setChan s.chan q t (s.chan q t ++ [readMem (s.proc q).mem a n])) q' t' c =
            setChan (setChan s.chan q' t' ms) q t
              (setChan s.chan q' t' ms q t ++ [readMem (s.proc q).mem a n]) := by
        by_cases e : q' = q ∧ t' = t
        · obtain ⟨e1, e2⟩ := e
          subst e1; subst e2
          refine ⟨ms ++ [readMem (s.proc q').mem a n], ?_, ?_⟩
          · rw [setChan_same, h']; rfl
          · rw [setChan_same, setChan_setChan, setChan_setChan]
        · refine ⟨ms, ?_, ?_⟩
          · rw [setChan_ne _ _ _ _ _ _ e, h']
          · rw [setChan_ne _ _ _ _ _ _ (fun g => e ⟨g.1.symm, g.2.symm⟩)]
            exact setChan_comm _ _ _ _ _ _ _ e
      by_cases e : q = t'
      · subst e
        have hd : readMem (writeMem (s.proc q).mem b msg) a n = readMem (s.proc q).mem a n := by
          apply readMem_writeMem
          exact (hs q).rs q' t (b, msg.length) (a, n) (by rw [g']; exact List.mem_cons_self)
            (by rw [h]; exact List.mem_cons_self)
        refine ⟨⟨setProc s.proc q { s.proc q with
              mem := writeMem (s.proc q).mem b msg, recvs := pop (s.proc q).recvs q'
              sends := pop (s.proc q).sends t },
            setChan (setChan s.chan q' q ms) q t (setChan s.chan q' q ms q t ++ [readMem (s.proc q).mem a n])⟩,
          .arrive' (a := b) (r := u) (msg := msg) (ms := c) hq' ht' hne' hc1 ?_ ?_ hc2.symm,
          .depart' (a := a) (n := n) (r := r) hq ht hne ?_ ?_ ?_⟩
        · dsimp only; rw [setProc_same]; exact g'
        · dsimp only; rw [setProc_same, setProc_setProc]
        · dsimp only; rw [setProc_same]; exact h
        · dsimp only; rw [setProc_same, setProc_setProc]
        · dsimp only; rw [setProc_same]; dsimp only; rw [hd]
      · refine ⟨⟨setProc (setProc s.proc q { s.proc q with sends := pop (s.proc q).sends t }) t'
              { s.proc t' with mem := writeMem (s.proc t').mem b msg, recvs := pop (s.proc t').recvs q' },
            setChan (setChan s.chan q' t' ms) q t (setChan s.chan q' t' ms q t ++ [readMem (s.proc q).mem a n])⟩,
          .arrive' (a := b) (r := u) (msg := msg) (ms := c) hq' ht' hne' hc1 ?_ ?_ hc2.symm,
          .depart' (a := a) (n := n) (r := r) hq ht hne ?_ ?_ ?_⟩
        · dsimp only; rw [setProc_ne _ _ _ _ (Ne.symm e)]; exact g'
        · dsimp only; rw [setProc_ne _ _ _ _ (Ne.symm e)]
        · dsimp only; rw [setProc_ne _ _ _ _ e]; exact h
        · dsimp only; rw [setProc_ne _ _ _ _ e]; exact setProc_comm _ _ _ _ _ e
        · dsimp only; rw [setProc_ne _ _ _ _ e]

theorem diamond_arrive_arrive {N q t q' t' : Nat} {s s1 s2 : State X} (hs : ∀ t, Sep (s.proc t))
    (hd : ¬(q' = q ∧ t' = t))
    (h1 : Step N (.arrive q t) s s1) (h2 : Step N (.arrive q' t') s s2) :
    ∃ s', Step N (.arrive q' t') s1 s' ∧ Step N (.arrive q t) s2 s' := by
  cases h1 with
  | @arrive _ _ _ a n r msg ms hq ht hne h g hn =>
    subst hn
    cases h2 with
    | @arrive _ _ _ b k u msg' ms' hq' ht' hne' h' g' hn =>
      subst hn
      have hd' : ¬(q = q' ∧ t = t') := fun e => hd ⟨e.1.symm, e.2.symm⟩
      by_cases e : t = t'
      · subst e
        have e' : q ≠ q' := fun e => hd ⟨e.symm, rfl⟩
        have hw : writeMem (writeMem (s.proc t).mem a msg) b msg' = writeMem (writeMem (s.proc t).mem b msg') a msg := by
          apply writeMem_comm
          exact (hs t).rr q q' (a, msg.length) (b, msg'.length) e' (by rw [g]; exact List.mem_cons_self)
            (by rw [g']; exact List.mem_cons_self)
        refine ⟨⟨setProc s.proc t { s.proc t with
              mem := writeMem (writeMem (s.proc t).mem a msg) b msg', recvs := pop (pop (s.proc t).recvs q) q' },
            setChan (setChan s.chan q t ms) q' t ms'⟩,
          .arrive' (a := b) (r := u) (msg := msg') (ms := ms') hq' ht hne' ?_ ?_ ?_ rfl,
          .arrive' (a := a) (r := r) (msg := msg) (ms := ms) hq ht hne ?_ ?_ ?_ ?_⟩
        · dsimp only; rw [setChan_ne _ _ _ _ _ _ hd]; exact h'
        · dsimp only; rw [setProc_same]; dsimp only; rw [pop_ne _ _ _ e'.symm]; exact g'
        · dsimp only; rw [setProc_same, setProc_setProc]
        · dsimp only; rw [setChan_ne _ _ _ _ _ _ hd']; exact h
        · dsimp only; rw [setProc_same]; dsimp only; rw [pop_ne _ _ _ e']; exact g
        · dsimp only; rw [setProc_same, setProc_setProc, hw, pop_comm _ _ _ e']
        · exact setChan_comm _ _ _ _ _ _ _ hd
      · refine ⟨⟨setProc (setProc s.proc t { s.proc t with
              mem := writeMem (s.proc t).mem a msg, recvs := pop (s.proc t).recvs q }) t' { s.proc t' with
              mem := writeMem (s.proc t').mem b msg', recvs := pop (s.proc t').recvs q' },
            setChan (setChan s.chan q t ms) q' t' ms'⟩,
          .arrive' (a := b) (r := u) (msg := msg') (ms := ms') hq' ht' hne' ?_ ?_ ?_ rfl,
          .arrive' (a := a) (r := r) (msg := msg) (ms := ms) hq ht hne ?_ ?_ ?_ ?_⟩
        · dsimp only; rw [setChan_ne _ _ _ _ _ _ hd]; exact h'
        · dsimp only; rw [setProc_ne _ _ _ _ (Ne.symm e)]; exact g'
        · dsimp only; rw [setProc_ne _ _ _ _ (Ne.symm e)]
        · dsimp only; rw [setChan_ne _ _ _ _ _ _ hd']; exact h
        · dsimp only; rw [setProc_ne _ _ _ _ e]; exact g
        · dsimp only; rw [setProc_ne _ _ _ _ e]; exact setProc_comm _ _ _ _ _ e
        · exact setChan_comm _ _ _ _ _ _ _ hd

/-- Different steps of the same state commute. -/
theorem diamond {N : Nat} {l l' : Lab} {s s1 s2 : State X} (hs : ∀ t, Sep (s.proc t)) (hne : l ≠ l')
    (h1 : Step N l s s1) (h2 : Step N l' s s2) : ∃ s', Step N l' s1 s' ∧ Step N l s2 s' := by
  cases l with
  | loc t =>
    cases l' with
    | loc t' => exact diamond_loc_loc (fun e => hne (by rw [e])) h1 h2
    | depart q' t' => exact diamond_loc_depart h1 h2
    | arrive q' t' => exact diamond_loc_arrive h1 h2
  | depart q t =>
    cases l' with
    | loc t' => obtain ⟨s', h, h'⟩ := diamond_loc_depart h2 h1; exact ⟨s', h', h⟩
    | depart q' t' => exact diamond_depart_depart (fun e => hne (by rw [e.1, e.2])) h1 h2
    | arrive q' t' => exact diamond_depart_arrive hs h1 h2
  | arrive q t =>
    cases l' with
    | loc t' => obtain ⟨s', h, h'⟩ := diamond_loc_arrive h2 h1; exact ⟨s', h', h⟩
    | depart q' t' => obtain ⟨s', h, h'⟩ := diamond_depart_arrive hs h2 h1; exact ⟨s', h', h⟩
    | arrive q' t' => exact diamond_arrive_arrive hs (fun e => hne (by rw [e.1, e.2])) h1 h2

/-! ## One execution determines all -/

/-- Messages move only while the process that owns the buffer waits for them. -/
def Delayed : Lab → State X → Prop
  | .depart q _, s => ∃ r, (s.proc q).rest = .waitall :: r
  | .arrive _ t, s => ∃ r, (s.proc t).rest = .waitall :: r
  | .loc _, _ => True

/-- Executions that MPI can perform without buffering, with the messages moved as late as possible. -/
inductive URun (N : Nat) : Nat → State X → State X → Prop
  | refl {s} : URun N 0 s s
  | step {k l s s1 s2} : Unbuffered l s → Delayed l s → Step N l s s1 → URun N k s1 s2 → URun N (k + 1) s s2

theorem URun.trans {N j k : Nat} {s s1 s2 : State X} (h1 : URun N j s s1) (h2 : URun N k s1 s2) :
    URun N (j + k) s s2 := by
  induction h1 with
  | refl => rw [Nat.zero_add]; exact h2
  | step hu hl hs _ ih => rw [Nat.add_right_comm]; exact .step hu hl hs (ih h2)

omit [Add X] in
/-- A process that waits with a send or receive pending stays there. -/
theorem wait_other {p : Proc X} [Add X] {p' : Proc X} (h : LStep p p') {r : List Instr} (hr : p.rest = .waitall :: r)
    (hp : ∃ q, p.recvs q ≠ [] ∨ p.sends q ≠ []) : False := by
  obtain ⟨q, hq⟩ := hp
  cases h with
  | waitall _ hw => rcases hq with hq | hq <;> simp_all
  | copy e => rw [hr] at e; cases e
  | irecv e => rw [hr] at e; cases e
  | isend e => rw [hr] at e; cases e
  | barrier e => rw [hr] at e; cases e

theorem delayed_other {N : Nat} {l l' : Lab} {s s1 s' : State X} (hl : Delayed l s) (h0 : Step N l s s1)
    (hne : l ≠ l') (h : Step N l' s s') : Delayed l s' := by
  have keep : ∀ k r, (s.proc k).rest = .waitall :: r → (∃ q, (s.proc k).recvs q ≠ [] ∨ (s.proc k).sends q ≠ []) →
      ∃ r, (s'.proc k).rest = .waitall :: r := by
    intro k r hr hp
    cases h with
    | @loc _ t p _ hp' =>
      dsimp only
      by_cases e : k = t
      · subst e; exact (wait_other hp' hr hp).elim
      · rw [setProc_ne _ _ _ _ e]; exact ⟨r, hr⟩
    | @depart _ q' t' a n r' _ _ _ _ =>
      dsimp only
      by_cases e : k = q'
      · subst e; rw [setProc_same]; exact ⟨r, hr⟩
      · rw [setProc_ne _ _ _ _ e]; exact ⟨r, hr⟩
    | @arrive _ q' t' a n r' msg ms _ _ _ _ _ _ =>
      dsimp only
      by_cases e : k = t'
      · subst e; rw [setProc_same]; exact ⟨r, hr⟩
      · rw [setProc_ne _ _ _ _ e]; exact ⟨r, hr⟩
  cases h0 with
  | loc _ _ => exact trivial
  | @depart _ q t a n r hq ht _ hs =>
    obtain ⟨r, hr⟩ := hl
    exact keep _ r hr ⟨t, .inr (by rw [hs]; exact List.cons_ne_nil _ _)⟩
  | @arrive _ q t a n r msg ms _ _ _ _ hs _ =>
    obtain ⟨r, hr⟩ := hl
    exact keep _ r hr ⟨q, .inl (by rw [hs]; exact List.cons_ne_nil _ _)⟩

theorem unbuffered_other {N : Nat} {l l' : Lab} {s s' : State X} (hne : l ≠ l') (hu : Unbuffered l s)
    (h : Step N l' s s') : Unbuffered l s' := by
  cases l with
  | loc _ => exact trivial
  | arrive _ _ => exact trivial
  | depart q t =>
    obtain ⟨h1, h2⟩ := hu
    cases h with
    | @loc _ k p _ hp =>
      refine ⟨h1, ?_⟩
      dsimp only
      by_cases e : t = k
      · subst e
        rw [setProc_same]
        cases hp with
        | irecv _ _ _ =>
          dsimp only
          unfold push
          split
          · exact fun h => List.cons_ne_nil _ _ (List.append_eq_nil_iff.1 h).2
          · exact h2
        | _ => exact h2
      · rw [setProc_ne _ _ _ _ e]; exact h2
    | @depart _ q' t' a n r _ _ _ _ =>
      refine ⟨?_, ?_⟩
      · dsimp only
        rw [setChan_ne]
        · exact h1
        · rintro ⟨e1, e2⟩; exact hne (by rw [e1, e2])
      · dsimp only
        by_cases e : t = q'
        · subst e; rw [setProc_same]; exact h2
        · rw [setProc_ne _ _ _ _ e]; exact h2
    | @arrive _ q' t' a n r msg ms _ _ _ hc _ _ =>
      have hd : ¬(q = q' ∧ t = t') := by
        rintro ⟨e1, e2⟩
        subst e1; subst e2
        rw [h1] at hc
        exact List.cons_ne_nil _ _ hc.symm
      refine ⟨?_, ?_⟩
      · dsimp only
        rw [setChan_ne _ _ _ _ _ _ hd]
        exact h1
      · dsimp only
        by_cases e : t = t'
        · subst e; rw [setProc_same]; dsimp only
          rw [pop_ne]
          · exact h2
          · exact fun e => hd ⟨e, rfl⟩
        · rw [setProc_ne _ _ _ _ e]; exact h2

/-- After any step the rest of the execution is still possible. -/
theorem URun.after {N n : Nat} {s e : State X} (h : URun N n s e) (hs : ∀ t, Sep (s.proc t))
    (he : ∀ l s', ¬Step N l e s') {l : Lab} {s' : State X} (hl : Step N l s s') :
    ∃ k, n = k + 1 ∧ URun N k s' e := by
  induction h generalizing l s' with
  | refl => exact absurd hl (he l s')
  | @step k l0 s s1 s2 hu hla h0 hr ih =>
    refine ⟨k, rfl, ?_⟩
    by_cases el : l0 = l
    · subst el
      rw [← h0.det hl]; exact hr
    · obtain ⟨s1', g1, g2⟩ := diamond hs el h0 hl
      obtain ⟨j, ej, hj⟩ := ih (h0.sep hs) he g1
      rw [ej]
      exact .step (unbuffered_other el hu hl) (delayed_other hla h0 el hl) g2 hj

theorem Final.stuck {N : Nat} {s : State X} (h : Final N s) (l : Lab) (s' : State X) : ¬Step N l s s' := by
  intro hs
  cases hs with
  | @loc _ t p ht hp =>
    have := (h t ht).1
    cases hp <;> simp_all
  | @depart _ q t a n r hq ht _ g =>
    have := ((h q hq).2 t).2.1
    rw [g] at this
    exact List.cons_ne_nil _ _ this
  | @arrive _ q t a n r msg ms _ ht _ _ g _ =>
    have := ((h t ht).2 q).1
    rw [g] at this
    exact List.cons_ne_nil _ _ this

theorem initial_sep (prog : Nat → List Instr) (m : Nat → Mem X) (t : Nat) : Sep ((initial prog m).proc t) :=
  ⟨fun _ _ _ _ h => absurd h List.not_mem_nil, fun _ _ _ _ _ h => absurd h List.not_mem_nil⟩

/-! ## Pending messages -/

/-- Nothing overlaps with a pending message. -/
def clearOf (f : Nat → List (Addr × Nat)) (a : Addr) (n : Nat) : Prop := ∀ q x, x ∈ f q → ¬overlap x.1 x.2 a n

/-- The program never touches the buffer of a message between the call that starts it and the next wait. -/
def tidy (rs ss : Nat → List (Addr × Nat)) : List Instr → Prop
  | [] => True
  | .copy _ dst src n :: l => (¬overlap dst n src n ∧ clearOf rs dst n ∧ clearOf ss dst n ∧ clearOf rs src n) ∧ tidy rs ss l
  | .irecv a n q :: l => (clearOf rs a n ∧ clearOf ss a n) ∧ tidy (push rs q (a, n)) ss l
  | .isend a n q :: l => clearOf rs a n ∧ tidy rs (push ss q (a, n)) l
  | .waitall :: l => tidy (fun _ => []) (fun _ => []) l
  | .barrier :: l => tidy rs ss l

/-- Process with a program that never touches the buffer of a message that is not complete. -/
def Tidy (p : Proc X) : Prop := tidy p.recvs p.sends p.rest

theorem clearOf_mono {f g : Nat → List (Addr × Nat)} (h : ∀ q x, x ∈ g q → x ∈ f q) {a : Addr} {n : Nat} (hc : clearOf f a n) :
    clearOf g a n := fun q x hx => hc q x (h q x hx)

theorem push_mono {f g : Nat → List (Addr × Nat)} (h : ∀ q x, x ∈ g q → x ∈ f q) (k : Nat) (y : Addr × Nat) :
    ∀ q x, x ∈ push g k y q → x ∈ push f k y q := by
  intro q x hx
  unfold push at hx ⊢
  split at hx
  · rename_i e
    rw [if_pos e]
    rcases List.mem_append.1 hx with hx | hx
    · exact List.mem_append_left _ (h q x hx)
    · exact List.mem_append_right _ hx
  · rename_i e
    rw [if_neg e]; exact h q x hx

theorem tidy_mono (l : List Instr) : ∀ {rs ss rs' ss' : Nat → List (Addr × Nat)}, (∀ q x, x ∈ rs' q → x ∈ rs q) →
    (∀ q x, x ∈ ss' q → x ∈ ss q) → tidy rs ss l → tidy rs' ss' l := by
  induction l with
  | nil => intro _ _ _ _ _ _ _; exact trivial
  | cons i l ih =>
    intro rs ss rs' ss' hr hs h
    cases i with
    | copy red dst src n =>
      exact ⟨⟨h.1.1, clearOf_mono hr h.1.2.1, clearOf_mono hs h.1.2.2.1, clearOf_mono hr h.1.2.2.2⟩, ih hr hs h.2⟩
    | irecv a n q => exact ⟨⟨clearOf_mono hr h.1.1, clearOf_mono hs h.1.2⟩, ih (push_mono hr q (a, n)) hs h.2⟩
    | isend a n q => exact ⟨clearOf_mono hr h.1, ih hr (push_mono hs q (a, n)) h.2⟩
    | waitall => exact h
    | barrier => exact ih hr hs h

theorem LStep.tidy {p p' : Proc X} (h : LStep p p') : Tidy p' ↔ Tidy p := by
  unfold Tidy
  cases h with
  | copy e h1 h2 h3 h4 => rw [e]; exact ⟨fun h => ⟨⟨h1, h2, h3, h4⟩, h⟩, fun h => h.2⟩
  | irecv e h1 h2 => rw [e]; exact ⟨fun h => ⟨⟨h1, h2⟩, h⟩, fun h => h.2⟩
  | isend e h1 => rw [e]; exact ⟨fun h => ⟨h1, h⟩, fun h => h.2⟩
  | @waitall rest e hw =>
    rw [e]
    have e1 : p.recvs = fun _ => [] := funext fun q => (hw q).1
    have e2 : p.sends = fun _ => [] := funext fun q => (hw q).2
    show RawCode.tidy p.recvs p.sends rest ↔ RawCode.tidy (fun _ => []) (fun _ => []) rest
    rw [e1, e2]
  | barrier e => rw [e]; exact Iff.rfl

theorem Step.tidy {N : Nat} {l : Lab} {s s' : State X} (h : Step N l s s') {k : Nat} (hk : Tidy (s.proc k)) :
    Tidy (s'.proc k) := by
  cases h with
  | @loc _ t p _ hp =>
    dsimp only
    by_cases e : k = t
    · subst e; rw [setProc_same]; exact hp.tidy.2 hk
    · rw [setProc_ne _ _ _ _ e]; exact hk
  | @depart _ q t a n r _ _ _ _ =>
    dsimp only
    by_cases e : k = q
    · subst e; rw [setProc_same]; exact tidy_mono _ (fun _ _ h => h) (fun _ _ h => mem_pop h) hk
    · rw [setProc_ne _ _ _ _ e]; exact hk
  | @arrive _ q t a n r msg ms _ _ _ _ _ _ =>
    dsimp only
    by_cases e : k = t
    · subst e; rw [setProc_same]; exact tidy_mono _ (fun _ _ h => mem_pop h) (fun _ _ h => h) hk
    · rw [setProc_ne _ _ _ _ e]; exact hk

/-- Before a step in which messages move late the programs are as tidy as after it. -/
theorem Step.tidy_back {N : Nat} {l : Lab} {s s' : State X} (h : Step N l s s') (hl : Delayed l s) {k : Nat} (hk : Tidy (s'.proc k)) :
    Tidy (s.proc k) := by
  cases h with
  | @loc _ t p _ hp =>
    dsimp only at hk
    by_cases e : k = t
    · subst e; rw [setProc_same] at hk; exact hp.tidy.1 hk
    · rwa [setProc_ne _ _ _ _ e] at hk
  | @depart _ q t a n r _ _ _ _ =>
    dsimp only at hk
    by_cases e : k = q
    · subst e
      rw [setProc_same] at hk
      obtain ⟨r, hr⟩ := hl
      unfold Tidy at hk ⊢
      dsimp only at hk
      rw [hr] at hk ⊢
      exact hk
    · rwa [setProc_ne _ _ _ _ e] at hk
  | @arrive _ q t a n r msg ms _ _ _ _ _ _ =>
    dsimp only at hk
    by_cases e : k = t
    · subst e
      rw [setProc_same] at hk
      obtain ⟨r, hr⟩ := hl
      unfold Tidy at hk ⊢
      dsimp only at hk
      rw [hr] at hk ⊢
      exact hk
    · rwa [setProc_ne _ _ _ _ e] at hk

/-- The programs of a complete execution are tidy. -/
theorem URun.tidy {N n : Nat} {s e : State X} (h : URun N n s e) (he : Final N e) {t : Nat} (ht : t < N) : Tidy (s.proc t) := by
  induction h with
  | refl =>
    unfold Tidy
    rw [(he t ht).1]
    exact trivial
  | step _ hl hs _ ih => exact hs.tidy_back hl (ih he)

theorem Tidy.allowed {p : Proc X} (h : Tidy p) {i : Instr} {r : List Instr} (e : p.rest = i :: r) : Allowed p i := by
  unfold Tidy at h
  rw [e] at h
  cases i with
  | copy _ _ _ _ => exact h.1
  | irecv _ _ _ => exact h.1
  | isend _ _ _ => exact h.1
  | waitall => exact trivial
  | barrier => exact trivial

/-- A single execution without buffering that ends well shows that the programs are correct. -/
theorem correct_of_run {N n : Nat} {prog : Nat → List Instr} {m : Nat → Mem X} {post : (Nat → Mem X) → Prop}
    {e : State X} (h : URun N n (initial prog m) e) (hf : Final N e) (hp : post fun t => (e.proc t).mem) :
    Correct N prog m post := by
  have key : ∀ k s s', Steps N k s s' → ∀ n, URun N n s e → (∀ t, Sep (s.proc t)) →
      ∃ j, n = k + j ∧ URun N j s' e := by
    intro k s s' hk
    induction hk with
    | refl => intro n hn _; exact ⟨n, by omega, hn⟩
    | step h0 _ ih =>
      intro n hn hs
      obtain ⟨j, ej, hj⟩ := hn.after hs hf.stuck h0
      obtain ⟨i, ei, hi⟩ := ih j hj (h0.sep hs)
      exact ⟨i, by omega, hi⟩
  refine ⟨n, fun k s hk => ?_⟩
  obtain ⟨j, ej, hj⟩ := key k _ s hk n h (initial_sep prog m)
  refine ⟨by omega, fun t ht i r e => (hj.tidy hf ht).allowed e, ?_⟩
  cases hj with
  | refl => exact .inl ⟨hf, hp⟩
  | step hu _ hs _ => exact .inr ⟨_, _, hu, hs⟩

end ExtMpi.RawCode
