import Verif.Model.OnePerNode
import Verif.Spec.RawCode
/-! Programs whose send buffer is the receive buffer. -/
namespace ExtMpi.OnePerNode
open RawCode Optimise
variable {X : Type} [Add X]

/-- Not an operand in the receive buffer; the send buffer is read by copies only. -/
def Early : Instr → Prop
  | .copy _ d s _ => isShm d.reg = true ∧ s.reg ≠ .recv
  | .irecv a _ _ => isShm a.reg = true
  | .isend a _ _ => isShm a.reg = true
  | _ => True

/-- Not an operand in the send buffer; messages use scratch memory only. -/
def Late : Instr → Prop
  | .copy _ d s _ => d.reg ≠ .send ∧ s.reg ≠ .send
  | .irecv a _ _ => isShm a.reg = true
  | .isend a _ _ => isShm a.reg = true
  | _ => True

def al (i : Instr) : Instr := mapAddr (fun a _ => inRecv a) i

theorem inRecv_shm {a : Addr} (h : isShm a.reg = true) : inRecv a = a := by
  unfold inRecv
  rw [if_neg]
  intro e; rw [e] at h; cases h

theorem inRecv_ne {a : Addr} (h : a.reg ≠ .send) : inRecv a = a := by unfold inRecv; rw [if_neg h]

theorem inRecv_off (a : Addr) : (inRecv a).off = a.off := by unfold inRecv; split <;> rfl

theorem inRecv_reg (a : Addr) : (inRecv a).reg = if a.reg = .send then .recv else a.reg := by unfold inRecv; split <;> rfl

/-- What is the same in both executions of a process. -/
structure Sim (pa p : Proc X) : Prop where
  rest : ∃ A B, p.rest = A ++ B ∧ pa.rest = (A ++ B).map al ∧ (∀ i, i ∈ A → Early i) ∧ (∀ i, i ∈ B → Late i) ∧
    (A ≠ [] → p.mem .send = pa.mem .recv)
  recv : pa.mem .recv = p.mem .recv
  shm : ∀ k, pa.mem (.shm k) = p.mem (.shm k)
  recvs : pa.recvs = p.recvs
  sends : pa.sends = p.sends
  rq : ∀ q x, x ∈ p.recvs q → isShm x.1.reg = true
  sq : ∀ q x, x ∈ p.sends q → isShm x.1.reg = true

theorem isShm_ne {r : Reg} (h : isShm r = true) : r ≠ .send ∧ r ≠ .recv := by
  cases r with
  | send => cases h
  | recv => cases h
  | shm k => exact ⟨by simp, by simp⟩

/-- Pending messages do not overlap with the operand iff they do not overlap with the operand of the other execution. -/
theorem overlap_inRecv {a b : Addr} {n m : Nat} (h : isShm a.reg = true) : overlap a n (inRecv b) m ↔ overlap a n b m := by
  unfold overlap
  rw [inRecv_reg, inRecv_off]
  have hne := isShm_ne h
  split
  · rename_i e
    constructor
    · intro ⟨h1, _⟩; exact absurd h1 hne.2
    · intro ⟨h1, _⟩; rw [e] at h1; exact absurd h1 hne.1
  · rfl

theorem Sim.clearRecv {pa p : Proc X} (h : Sim pa p) (a : Addr) (n : Nat) : pa.clearRecv (inRecv a) n ↔ p.clearRecv a n := by
  unfold Proc.clearRecv
  rw [h.recvs]
  constructor
  · intro h1 q x hx ho; exact h1 q x hx ((overlap_inRecv (h.rq q x hx)).2 ho)
  · intro h1 q x hx ho; exact h1 q x hx ((overlap_inRecv (h.rq q x hx)).1 ho)

theorem Sim.clearSend {pa p : Proc X} (h : Sim pa p) (a : Addr) (n : Nat) : pa.clearSend (inRecv a) n ↔ p.clearSend a n := by
  unfold Proc.clearSend
  rw [h.sends]
  constructor
  · intro h1 q x hx ho; exact h1 q x hx ((overlap_inRecv (h.sq q x hx)).2 ho)
  · intro h1 q x hx ho; exact h1 q x hx ((overlap_inRecv (h.sq q x hx)).1 ho)

theorem Sim.own {pa p : Proc X} (h : Sim pa p) {d s : Addr} {n : Nat} {r : Bool} {rest : List Instr} (e : p.rest = .copy r d s n :: rest) :
    overlap (inRecv d) n (inRecv s) n ↔ overlap d n s n := by
  obtain ⟨A, B, h1, h2, hA, hB, h3⟩ := h.rest
  rw [h1] at e
  cases A with
  | nil =>
    have hl : Late (.copy r d s n) := hB _ (by rw [List.nil_append] at e; rw [e]; exact List.mem_cons_self)
    rw [inRecv_ne hl.1, inRecv_ne hl.2]
  | cons i A =>
    rw [List.cons_append, List.cons.injEq] at e
    have hE : Early (.copy r d s n) := by rw [← e.1]; exact hA _ List.mem_cons_self
    rw [inRecv_shm hE.1]
    exact overlap_inRecv hE.1

/-- Effect of a copy in both executions. -/
theorem Sim.copy {pa p : Proc X} (h : Sim pa p) {d s : Addr} {n : Nat} {r : Bool} {rest : List Instr}
    (e : p.rest = .copy r d s n :: rest) :
    Sim { pa with rest := rest.map al, mem := copyMem r (inRecv d) (inRecv s) n pa.mem }
      { p with rest := rest, mem := copyMem r d s n p.mem } := by
  obtain ⟨A, B, h1, h2, hA, hB, h3⟩ := h.rest
  rw [h1] at e
  cases A with
  | nil =>
    rw [List.nil_append] at e
    have hl : Late (.copy r d s n) := hB _ (by rw [e]; exact List.mem_cons_self)
    rw [inRecv_ne hl.1, inRecv_ne hl.2]
    have hm : ∀ x : Reg, x ≠ .send → pa.mem x = p.mem x := by
      intro x hx
      cases x with
      | send => exact absurd rfl hx
      | recv => exact h.recv
      | shm k => exact h.shm k
    have hc : ∀ x : Reg, x ≠ .send → copyMem r d s n pa.mem x = copyMem r d s n p.mem x := by
      intro x hx
      funext i
      unfold copyMem
      rw [hm x hx, hm _ hl.2]
    refine ⟨⟨[], rest, rfl, rfl, by simp, ?_, by simp⟩, hc .recv (by simp), fun k => hc _ (by simp), h.recvs, h.sends, h.rq, h.sq⟩
    intro i hi
    exact hB i (by rw [e]; exact List.mem_cons_of_mem _ hi)
  | cons i A =>
    rw [List.cons_append, List.cons.injEq] at e
    have hE : Early (.copy r d s n) := by rw [← e.1]; exact hA _ List.mem_cons_self
    have hs := h3 (by simp)
    rw [inRecv_shm hE.1]
    have hd := isShm_ne hE.1
    have hsrc : pa.mem (inRecv s).reg = p.mem s.reg := by
      rw [inRecv_reg]
      split
      · rename_i e1; rw [e1, hs]
      · rename_i e1
        have e2 : s.reg ≠ .recv := hE.2
        cases hr : s.reg with
        | send => exact absurd hr e1
        | recv => exact absurd hr e2
        | shm k => exact h.shm k
    have hkeep : ∀ (m : Mem X) (a : Addr) (x : Reg), x ≠ d.reg → copyMem r d a n m x = m x := by
      intro m a x hx
      funext i
      unfold copyMem
      rw [if_neg fun h => hx h.1]
    have hc : ∀ k, copyMem r d (inRecv s) n pa.mem (.shm k) = copyMem r d s n p.mem (.shm k) := by
      intro k
      funext i
      unfold copyMem
      rw [h.shm k, hsrc, inRecv_off]
    refine ⟨⟨A, B, e.2.symm, by rw [e.2], fun i hi => hA i (List.mem_cons_of_mem _ hi), hB, ?_⟩, ?_, hc, h.recvs, h.sends, h.rq, h.sq⟩
    · intro _
      show copyMem r d s n p.mem .send = copyMem r d (inRecv s) n pa.mem .recv
      rw [hkeep _ _ _ hd.1.symm, hkeep _ _ _ hd.2.symm, hs]
    · show copyMem r d (inRecv s) n pa.mem .recv = copyMem r d s n p.mem .recv
      rw [hkeep _ _ _ hd.2.symm, hkeep _ _ _ hd.2.symm, h.recv]

/-- The next instruction is done with the same queues and memory. -/
theorem Sim.tail {pa p : Proc X} (h : Sim pa p) {i : Instr} {rest : List Instr} (e : p.rest = i :: rest) :
    ∃ A B, rest = A ++ B ∧ rest.map al = (A ++ B).map al ∧ (∀ i, i ∈ A → Early i) ∧ (∀ i, i ∈ B → Late i) ∧
      (A ≠ [] → p.mem .send = pa.mem .recv) := by
  obtain ⟨A, B, h1, h2, hA, hB, h3⟩ := h.rest
  rw [h1] at e
  cases A with
  | nil =>
    rw [List.nil_append] at e
    exact ⟨[], rest, rfl, rfl, by simp, fun j hj => hB j (by rw [e]; exact List.mem_cons_of_mem _ hj), by simp⟩
  | cons j A =>
    rw [List.cons_append, List.cons.injEq] at e
    exact ⟨A, B, e.2.symm, by rw [e.2], fun j hj => hA j (List.mem_cons_of_mem _ hj), hB, fun _ => h3 (by simp)⟩

theorem Sim.msg {pa p : Proc X} (h : Sim pa p) {a : Addr} {n q : Nat} {rest : List Instr}
    (e : p.rest = .irecv a n q :: rest ∨ p.rest = .isend a n q :: rest) : isShm a.reg = true := by
  obtain ⟨A, B, h1, h2, hA, hB, h3⟩ := h.rest
  rw [h1] at e
  cases A with
  | nil =>
    rw [List.nil_append] at e
    rcases e with e | e
    · exact hB (.irecv a n q) (by rw [e]; exact List.mem_cons_self)
    · exact hB (.isend a n q) (by rw [e]; exact List.mem_cons_self)
  | cons j A =>
    rcases e with e | e
    · rw [List.cons_append, List.cons.injEq] at e
      have := hA j List.mem_cons_self
      rw [e.1] at this; exact this
    · rw [List.cons_append, List.cons.injEq] at e
      have := hA j List.mem_cons_self
      rw [e.1] at this; exact this

theorem Sim.arest {pa p : Proc X} (h : Sim pa p) : pa.rest = p.rest.map al := by
  obtain ⟨A, B, h1, h2, _⟩ := h.rest
  rw [h1, h2]

theorem mem_push {f : Nat → List (Addr × Nat)} {q : Nat} {y : Addr × Nat} {k : Nat} {x : Addr × Nat} (h : x ∈ push f q y k) :
    x ∈ f k ∨ x = y := by
  unfold push at h
  split at h
  · rw [List.mem_append, List.mem_singleton] at h; exact h
  · exact .inl h

theorem mem_pop {f : Nat → List (Addr × Nat)} {q k : Nat} {x : Addr × Nat} (h : x ∈ pop f q k) : x ∈ f k := by
  unfold pop at h
  split at h
  · exact List.mem_of_mem_tail h
  · exact h

/-- A step of the aliased process is one of the other. -/
theorem Sim.step {pa p pa' : Proc X} (h : Sim pa p) (hs : LStep pa pa') : ∃ p', LStep p p' ∧ Sim pa' p' := by
  have hr := h.arest
  cases hp : p.rest with
  | nil =>
    rw [hp] at hr
    cases hs with
    | copy e => rw [hr] at e; cases e
    | irecv e => rw [hr] at e; cases e
    | isend e => rw [hr] at e; cases e
    | waitall e => rw [hr] at e; cases e
    | barrier e => rw [hr] at e; cases e
  | cons i rest =>
    rw [hp] at hr
    cases i with
    | copy r d s n =>
      cases hs with
      | copy e h1 h2 h3 h4 =>
        rw [hr] at e; cases e
        exact ⟨_, .copy hp (fun ho => h1 ((h.own hp).2 ho)) ((h.clearRecv _ _).1 h2) ((h.clearSend _ _).1 h3)
          ((h.clearRecv _ _).1 h4), h.copy hp⟩
      | irecv e => rw [hr] at e; cases e
      | isend e => rw [hr] at e; cases e
      | waitall e => rw [hr] at e; cases e
      | barrier e => rw [hr] at e; cases e
    | irecv a n q =>
      have ha := h.msg (.inl hp)
      cases hs with
      | copy e => rw [hr] at e; cases e
      | irecv e h1 h2 =>
        rw [hr] at e; cases e
        refine ⟨_, .irecv hp ((h.clearRecv _ _).1 h1) ((h.clearSend _ _).1 h2), h.tail hp, h.recv, h.shm, ?_, h.sends, ?_, h.sq⟩
        · show push pa.recvs q (inRecv a, n) = push p.recvs q (a, n)
          rw [inRecv_shm ha, h.recvs]
        · intro k x hx
          rcases mem_push hx with hx | hx
          · exact h.rq k x hx
          · rw [hx]; exact ha
      | isend e => rw [hr] at e; cases e
      | waitall e => rw [hr] at e; cases e
      | barrier e => rw [hr] at e; cases e
    | isend a n q =>
      have ha := h.msg (.inr hp)
      cases hs with
      | copy e => rw [hr] at e; cases e
      | irecv e => rw [hr] at e; cases e
      | isend e h1 =>
        rw [hr] at e; cases e
        refine ⟨_, .isend hp ((h.clearRecv _ _).1 h1), h.tail hp, h.recv, h.shm, h.recvs, ?_, h.rq, ?_⟩
        · show push pa.sends q (inRecv a, n) = push p.sends q (a, n)
          rw [inRecv_shm ha, h.sends]
        · intro k x hx
          rcases mem_push hx with hx | hx
          · exact h.sq k x hx
          · rw [hx]; exact ha
      | waitall e => rw [hr] at e; cases e
      | barrier e => rw [hr] at e; cases e
    | waitall =>
      cases hs with
      | copy e => rw [hr] at e; cases e
      | irecv e => rw [hr] at e; cases e
      | isend e => rw [hr] at e; cases e
      | waitall e h1 =>
        rw [hr] at e; cases e
        exact ⟨_, .waitall hp (by rw [← h.recvs, ← h.sends]; exact h1), h.tail hp, h.recv, h.shm, h.recvs, h.sends, h.rq, h.sq⟩
      | barrier e => rw [hr] at e; cases e
    | barrier =>
      cases hs with
      | copy e => rw [hr] at e; cases e
      | irecv e => rw [hr] at e; cases e
      | isend e => rw [hr] at e; cases e
      | waitall e => rw [hr] at e; cases e
      | barrier e =>
        rw [hr] at e; cases e
        exact ⟨_, .barrier hp, h.tail hp, h.recv, h.shm, h.recvs, h.sends, h.rq, h.sq⟩

/-- The aliased process is not blocked if the other is not. -/
theorem Sim.back {pa p p' : Proc X} (h : Sim pa p) (hs : LStep p p') : ∃ pa', LStep pa pa' := by
  have hr := h.arest
  cases hs with
  | copy e h1 h2 h3 h4 =>
    rw [e] at hr
    exact ⟨_, .copy hr (fun ho => h1 ((h.own e).1 ho)) ((h.clearRecv _ _).2 h2) ((h.clearSend _ _).2 h3) ((h.clearRecv _ _).2 h4)⟩
  | irecv e h1 h2 => rw [e] at hr; exact ⟨_, .irecv hr ((h.clearRecv _ _).2 h1) ((h.clearSend _ _).2 h2)⟩
  | isend e h1 => rw [e] at hr; exact ⟨_, .isend hr ((h.clearRecv _ _).2 h1)⟩
  | waitall e h1 => rw [e] at hr; exact ⟨_, .waitall hr (by rw [h.recvs, h.sends]; exact h1)⟩
  | barrier e => rw [e] at hr; exact ⟨_, .barrier hr⟩

structure SimS (N : Nat) (sa s : State X) : Prop where
  proc : ∀ t, t < N → Sim (sa.proc t) (s.proc t)
  chan : sa.chan = s.chan

theorem readMem_eq {pa p : Proc X} (h : Sim pa p) {a : Addr} (ha : isShm a.reg = true) (n : Nat) :
    readMem pa.mem a n = readMem p.mem a n := by
  unfold readMem
  cases hr : a.reg with
  | send => rw [hr] at ha; cases ha
  | recv => rw [hr] at ha; cases ha
  | shm k => simp only [h.shm k]

theorem Sim.allowed {pa p : Proc X} (h : Sim pa p) (hp : ∀ i r, p.rest = i :: r → Allowed p i) {i : Instr} {r : List Instr}
    (e : pa.rest = i :: r) : Allowed pa i := by
  have hr := h.arest
  rw [e] at hr
  cases hc : p.rest with
  | nil => rw [hc] at hr; cases hr
  | cons j l =>
    rw [hc] at hr
    have hj := hp j l hc
    obtain ⟨rfl, _⟩ := List.cons.inj hr
    cases j with
    | copy red d s n =>
      exact ⟨fun ho => hj.1 ((h.own hc).1 ho), (h.clearRecv _ _).2 hj.2.1, (h.clearSend _ _).2 hj.2.2.1, (h.clearRecv _ _).2 hj.2.2.2⟩
    | irecv a n q => exact ⟨(h.clearRecv _ _).2 hj.1, (h.clearSend _ _).2 hj.2⟩
    | isend a n q => exact (h.clearRecv _ _).2 hj
    | waitall => trivial
    | barrier => trivial

theorem SimS.step {N : Nat} {sa s sa' : State X} {l : Lab} (h : SimS N sa s) (hs : Step N l sa sa') :
    ∃ s', Step N l s s' ∧ SimS N sa' s' := by
  cases hs with
  | @loc _ t pa' ht hl =>
    obtain ⟨p', h1, h2⟩ := (h.proc t ht).step hl
    refine ⟨_, .loc ht h1, ⟨fun k hk => ?_, h.chan⟩⟩
    show Sim (setProc sa.proc t pa' k) (setProc s.proc t p' k)
    unfold setProc
    split
    · exact h2
    · exact h.proc k hk
  | @depart _ q t a n r h1 h2 h3 e =>
    have hq := h.proc q h1
    rw [hq.sends] at e
    have ha := hq.sq t (a, n) (by rw [e]; exact List.mem_cons_self)
    refine ⟨_, .depart h1 h2 h3 e, ⟨fun k hk => ?_, ?_⟩⟩
    · show Sim (setProc sa.proc q _ k) (setProc s.proc q _ k)
      unfold setProc
      split
      · exact ⟨hq.rest, hq.recv, hq.shm, hq.recvs, by show pop (sa.proc q).sends t = _; rw [hq.sends], hq.rq,
          fun k x hx => hq.sq k x (mem_pop hx)⟩
      · exact h.proc k hk
    · show setChan sa.chan q t _ = setChan s.chan q t _
      rw [h.chan, readMem_eq hq ha]
  | @arrive _ q t a n r msg ms h1 h2 h3 e1 e2 e3 =>
    have hp := h.proc t h2
    rw [hp.recvs] at e2
    rw [h.chan] at e1
    have ha := hp.rq q (a, n) (by rw [e2]; exact List.mem_cons_self)
    have hne := isShm_ne ha
    refine ⟨_, .arrive h1 h2 h3 e1 e2 e3, ⟨fun k hk => ?_, ?_⟩⟩
    · show Sim (setProc sa.proc t _ k) (setProc s.proc t _ k)
      unfold setProc
      split
      · have hw : ∀ (m : Mem X) (x : Reg), x ≠ a.reg → writeMem m a msg x = m x := by
          intro m x hx
          funext i
          unfold writeMem
          rw [if_neg fun h => hx h.1]
        obtain ⟨A, B, b1, b2, b3, b4, b5⟩ := hp.rest
        refine ⟨⟨A, B, b1, b2, b3, b4, ?_⟩, ?_, ?_, by show pop (sa.proc t).recvs q = _; rw [hp.recvs], hp.sends,
          fun k x hx => hp.rq k x (mem_pop hx), hp.sq⟩
        · intro hA
          show writeMem (s.proc t).mem a msg .send = writeMem (sa.proc t).mem a msg .recv
          rw [hw _ _ hne.1.symm, hw _ _ hne.2.symm, b5 hA]
        · show writeMem (sa.proc t).mem a msg .recv = writeMem (s.proc t).mem a msg .recv
          rw [hw _ _ hne.2.symm, hw _ _ hne.2.symm, hp.recv]
        · intro k
          show writeMem (sa.proc t).mem a msg (.shm k) = writeMem (s.proc t).mem a msg (.shm k)
          funext i
          unfold writeMem
          rw [hp.shm k]
      · exact h.proc k hk
    · show setChan sa.chan q t ms = setChan s.chan q t ms
      rw [h.chan]

theorem SimS.back {N : Nat} {sa s s' : State X} {l : Lab} (h : SimS N sa s) (hs : Step N l s s') : ∃ sa', Step N l sa sa' := by
  cases hs with
  | @loc _ t p' ht hl =>
    obtain ⟨pa', h1⟩ := (h.proc t ht).back hl
    exact ⟨_, .loc ht h1⟩
  | @depart _ q t a n r h1 h2 h3 e => exact ⟨_, .depart h1 h2 h3 (by rw [(h.proc q h1).sends]; exact e)⟩
  | @arrive _ q t a n r msg ms h1 h2 h3 e1 e2 e3 =>
    exact ⟨_, .arrive h1 h2 h3 (by rw [h.chan]; exact e1) (by rw [(h.proc t h2).recvs]; exact e2) e3⟩

theorem SimS.steps {N k : Nat} {sa s sa' : State X} (h : SimS N sa s) (hs : Steps N k sa sa') :
    ∃ s', Steps N k s s' ∧ SimS N sa' s' := by
  induction hs generalizing s with
  | refl => exact ⟨s, .refl, h⟩
  | step h1 _ ih =>
    obtain ⟨s1, a1, a2⟩ := h.step h1
    obtain ⟨s2, b1, b2⟩ := ih a2
    exact ⟨s2, .step a1 b1, b2⟩

/-- Memory with the contents of the receive buffer in the send buffer as well. -/
def doubled (m : Mem X) : Mem X := fun r => match r with
  | .send => m .recv
  | r => m r

/-- If the send buffer is not read after the receive buffer was first used, a program does the same on one buffer as on two with the
same contents. -/
theorem correct_inPlace (N : Nat) (prog : Nat → List Instr) (m : Nat → Mem X) (post post' : (Nat → Mem X) → Prop)
    (hp : ∀ t, t < N → ∃ A B, prog t = A ++ B ∧ (∀ i, i ∈ A → Early i) ∧ ∀ i, i ∈ B → Late i)
    (hc : Correct N prog (fun t => doubled (m t)) post)
    (himp : ∀ mem mem', post mem → (∀ t, t < N → mem' t .recv = mem t .recv) → post' mem') :
    Correct N (fun t => inPlace (prog t)) m post' := by
  obtain ⟨bound, hb⟩ := hc
  refine ⟨bound, fun k sa hs => ?_⟩
  have h0 : SimS N (initial (fun t => inPlace (prog t)) m) (initial prog fun t => doubled (m t)) := by
    refine ⟨fun t ht => ?_, rfl⟩
    obtain ⟨A, B, h1, h2, h3⟩ := hp t ht
    refine ⟨⟨A, B, h1, ?_, h2, h3, fun _ => rfl⟩, rfl, fun _ => rfl, rfl, rfl, ?_, ?_⟩
    · show inPlace (prog t) = _
      rw [h1]; rfl
    · intro q x hx; cases hx
    · intro q x hx; cases hx
  obtain ⟨s, h1, h2⟩ := h0.steps hs
  refine ⟨(hb k s h1).1, fun t ht i r e => (h2.proc t ht).allowed (fun j u => (hb k s h1).2.1 t ht j u) e, ?_⟩
  rcases (hb k s h1).2.2 with ⟨hf, hpost⟩ | ⟨l, s', hu, hst⟩
  · refine .inl ⟨fun t ht => ?_, himp _ _ hpost fun t ht => (h2.proc t ht).recv⟩
    have hp := h2.proc t ht
    refine ⟨by rw [hp.arest, (hf t ht).1]; rfl, fun q => ?_⟩
    rw [hp.recvs, hp.sends, h2.chan]
    exact (hf t ht).2 q
  · obtain ⟨sa', ha⟩ := h2.back hst
    refine .inr ⟨l, sa', ?_, ha⟩
    cases l with
    | loc t => trivial
    | arrive q t => trivial
    | depart q t =>
      cases ha with
      | depart h3 h4 h5 e =>
        show sa.chan q t = [] ∧ (sa.proc t).recvs q ≠ []
        rw [h2.chan, (h2.proc t h4).recvs]
        exact hu

end ExtMpi.OnePerNode
