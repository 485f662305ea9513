import Verif.Lemmas.TasksLift
/-! Every step with one process per node is possible with several. -/
namespace ExtMpi.TasksNode
open RawCode

variable {X : Type} [Add X] {W : Nat → Nat → Nat → Prop}

theorem share_own (ns r : Nat) (i : Instr) (M : Master) : share ns r ((some r, i) :: M) = toProc ns r i :: share ns r M := by
  simp [share]

theorem share_other (ns r o : Nat) (i : Instr) (M : Master) (h : o ≠ r) : share ns r ((some o, i) :: M) = share ns r M := by
  simp [share, h]

theorem share_all (ns r : Nat) (i : Instr) (M : Master) : share ns r ((none, i) :: M) = toProc ns r i :: share ns r M := by
  simp [share]

theorem sendTags_cons (q : Nat) (x : Option Nat × Instr) (M : Master) :
    sendTags q (x :: M) = sendTags q [x] ++ sendTags q M := by
  unfold sendTags
  rw [← List.filterMap_append]; rfl

theorem recvTags_cons (q : Nat) (x : Option Nat × Instr) (M : Master) :
    recvTags q (x :: M) = recvTags q [x] ++ recvTags q M := by
  unfold recvTags
  rw [← List.filterMap_append]; rfl

section
variable {N ns : Nat} {R : Nat → Master} {tr ts : Nat → Nat → List (Nat × (Addr × Nat))}
  {tc : Nat → Nat → List (Nat × List X)} {S : State X} {T : TState X}

theorem wf_put (h : Lock N ns R tr ts tc S T) {a : Nat} {x : Option Nat × Instr} {R' : Master} (hR : R a = x :: R') :
    ∀ b, b < N → ∀ y, y ∈ put R a R' b → WF N ns b y := by
  intro b hb y hy
  by_cases e : b = a
  · subst e
    rw [put_same] at hy
    exact h.wf b hb y (by rw [hR]; exact List.mem_cons_of_mem _ hy)
  · rw [put_ne _ _ _ _ e] at hy
    exact h.wf b hb y hy

theorem restS_put (h : Lock N ns R tr ts tc S T) {a : Nat} {R' : Master} {p : Proc X} (hp : p.rest = R'.map Prod.snd) :
    ∀ b, b < N → (setProc S.proc a p b).rest = (put R a R' b).map Prod.snd := by
  intro b hb
  by_cases e : b = a
  · subst e; rw [setProc_same, put_same]; exact hp
  · rw [setProc_ne _ _ _ _ e, put_ne _ _ _ _ e]; exact h.restS b hb

theorem restT_put (h : Lock N ns R tr ts tc S T) {a o : Nat} {i : Instr} {R' : Master} (hR : R a = (some o, i) :: R')
    (ho : o < ns) {t' : Task} (ht : t'.rest = share ns o R') :
    ∀ p, p < N * ns → (put T.task (a * ns + o) t' p).rest = share ns (p % ns) (put R a R' (p / ns)) := by
  intro p hp
  by_cases e : p = a * ns + o
  · rw [e, put_same, proc_div ho, proc_mod ho, put_same, ht]
  · rw [put_ne _ _ _ _ e, h.restT p hp]
    by_cases c : p / ns = a
    · rw [c, put_same, hR, share_other]
      intro co
      exact e ((eq_iff ho p a).2 ⟨c, co.symm⟩)
    · rw [put_ne _ _ _ _ c]

theorem mem_put (h : Lock N ns R tr ts tc S T) {a : Nat} {p : Proc X} {m : Mem X} (hm : p.mem = m) :
    ∀ b, b < N → put T.mem a m b = (setProc S.proc a p b).mem := by
  intro b hb
  by_cases e : b = a
  · subst e; rw [put_same, setProc_same, hm]
  · rw [put_ne _ _ _ _ e, setProc_ne _ _ _ _ e]; exact h.mem b hb

theorem still_put (h : Lock N ns R tr ts tc S T) {P : Nat} {t' : Task} (ht : t'.waiting = (T.task P).waiting)
    (p : Nat) (hp : p < N * ns) : (put T.task P t' p).waiting = false := by
  by_cases e : p = P
  · subst e; rw [put_same, ht]; exact h.still p hp
  · rw [put_ne _ _ _ _ e]; exact h.still p hp

theorem entered_put {P : Nat} {t' : Task} (ht : t'.entered = (T.task P).entered) (p : Nat) :
    (put T.task P t' p).entered = (T.task p).entered := by
  by_cases e : p = P
  · subst e; rw [put_same, ht]
  · rw [put_ne _ _ _ _ e]

theorem even_put (h : Lock N ns R tr ts tc S T) {P : Nat} {t' : Task} (ht : t'.entered = (T.task P).entered)
    (p p' : Nat) (hp : p < N * ns) (hp' : p' < N * ns) (hn : p / ns = p' / ns) :
    (put T.task P t' p).entered = (put T.task P t' p').entered := by
  rw [entered_put ht, entered_put ht]
  exact h.even p p' hp hp' hn

theorem lock_copy (h : Lock N ns R tr ts tc S T) {a o : Nat} {red : Bool} {dst src : Addr} {n : Nat} {R' : Master}
    (ha : a < N) (hR : R a = (some o, .copy red dst src n) :: R') (h1 : ¬overlap dst n src n)
    (h2 : (S.proc a).clearRecv dst n) (h3 : (S.proc a).clearSend dst n) (h4 : (S.proc a).clearRecv src n) :
    ∃ T', TReach N ns W T T' ∧ Lock N ns (put R a R') tr ts tc
      ⟨setProc S.proc a { S.proc a with rest := R'.map Prod.snd, mem := copyMem red dst src n (S.proc a).mem }, S.chan⟩ T' := by
  have ho : o < ns := h.wf a ha (some o, .copy red dst src n) (by rw [hR]; exact List.mem_cons_self)
  have hP := proc_lt ho ha
  have hrest : (T.task (a * ns + o)).rest = .copy red dst src n :: share ns o R' := by
    rw [h.restT _ hP, proc_div ho, proc_mod ho, hR, share_own]; rfl
  have hst := TStep.instr (W := W) (N := N) (s := T) hP hrest (by simp) (by
      rw [proc_div ho]
      refine h.clear (fun y hy => ?_) (fun y hy => ?_) (fun x hx y hy => ?_)
      · rcases List.mem_append.1 hy with hy | hy
        · rw [List.mem_singleton.1 hy]; exact h2
        · rw [List.mem_singleton.1 hy]; exact h4
      · rw [List.mem_singleton.1 hy]; exact h3
      · rw [List.mem_singleton.1 hx, List.mem_singleton.1 hy]; exact h1) (fun e => absurd e (by simp))
  refine ⟨_, .single (l := .loc (a * ns + o)) trivial hst, ?_⟩
  rw [proc_div ho]
  refine ⟨wf_put h hR, restS_put h rfl, restT_put h hR ho rfl, mem_put h ?_, still_put h rfl,
    even_put h rfl, fun b q => ?_, fun b q => ?_, h.chanS, fun p k => ?_, fun p k => ?_, h.chanT, h.small, h.smallC,
    fun b q hb hq hne => ?_⟩
  · dsimp only [memAfter]; rw [h.mem a ha]
  · by_cases e : b = a
    · subst e; dsimp only; rw [setProc_same]; exact h.recvS b q
    · dsimp only; rw [setProc_ne _ _ _ _ e]; exact h.recvS b q
  · by_cases e : b = a
    · subst e; dsimp only; rw [setProc_same]; exact h.sendS b q
    · dsimp only; rw [setProc_ne _ _ _ _ e]; exact h.sendS b q
  · by_cases e : p = a * ns + o
    · dsimp only; rw [e, put_same]; exact h.recvT _ k
    · dsimp only; rw [put_ne _ _ _ _ e]; exact h.recvT p k
  · by_cases e : p = a * ns + o
    · dsimp only; rw [e, put_same]; exact h.sendT _ k
    · dsimp only; rw [put_ne _ _ _ _ e]; exact h.sendT p k
  · have key : ∀ c q, sendTags q (put R a R' c) = sendTags q (R c) ∧ recvTags q (put R a R' c) = recvTags q (R c) := by
      intro c q
      by_cases e : c = a
      · subst e; rw [put_same, hR, sendTags_cons, recvTags_cons]; exact ⟨rfl, rfl⟩
      · rw [put_ne _ _ _ _ e]; exact ⟨rfl, rfl⟩
    rw [(key b q).1, (key q b).2]
    exact h.agree b q hb hq hne

theorem lock_irecv (h : Lock N ns R tr ts tc S T) {a o : Nat} {buf : Addr} {n q : Nat} {R' : Master}
    (ha : a < N) (hR : R a = (some o, .irecv buf n q) :: R')
    (h2 : (S.proc a).clearRecv buf n) (h3 : (S.proc a).clearSend buf n) :
    ∃ T', TReach N ns W T T' ∧ Lock N ns (put R a R') (put2 tr a q (tr a q ++ [(o, (buf, n))])) ts tc
      ⟨setProc S.proc a { S.proc a with rest := R'.map Prod.snd, recvs := push (S.proc a).recvs q (buf, n) }, S.chan⟩ T' := by
  obtain ⟨ho, hqN, hqa⟩ := h.wf a ha (some o, .irecv buf n q) (by rw [hR]; exact List.mem_cons_self)
  have hP := proc_lt ho ha
  have hrest : (T.task (a * ns + o)).rest = .irecv buf n (q * ns + o) :: share ns o R' := by
    rw [h.restT _ hP, proc_div ho, proc_mod ho, hR, share_own]; rfl
  have hst := TStep.instr (W := W) (N := N) (s := T) hP hrest (by simp) (by
      rw [proc_div ho]
      refine h.clear (fun y hy => ?_) (fun y hy => ?_) (fun x hx y hy => ?_)
      · rcases List.mem_append.1 hy with hy | hy
        · rw [List.mem_singleton.1 hy]; exact h2
        · exact absurd hy List.not_mem_nil
      · rw [List.mem_singleton.1 hy]; exact h3
      · exact absurd hy List.not_mem_nil) (fun e => absurd e (by simp))
  refine ⟨_, .single (l := .loc (a * ns + o)) trivial hst, ?_⟩
  rw [proc_div ho]
  refine ⟨wf_put h hR, restS_put h rfl, restT_put h hR ho rfl, mem_put h ?_, still_put h rfl,
    even_put h rfl, fun b k => ?_, fun b k => ?_, h.chanS, fun p k => ?_, fun p k => ?_, h.chanT, h.small, h.smallC,
    fun b c hb hc hne => ?_⟩
  · dsimp only [memAfter]; rw [h.mem a ha]
  · by_cases e : b = a
    · subst e
      dsimp only
      rw [setProc_same]
      dsimp only
      unfold push
      by_cases c : k = q
      · subst c; rw [if_pos rfl, put2_same, List.map_append, h.recvS]; rfl
      · rw [if_neg c, put2_ne _ _ _ _ _ _ (fun g => c g.2)]; exact h.recvS b k
    · dsimp only; rw [setProc_ne _ _ _ _ e, put2_ne _ _ _ _ _ _ (fun g => e g.1)]; exact h.recvS b k
  · by_cases e : b = a
    · subst e; dsimp only; rw [setProc_same]; exact h.sendS b k
    · dsimp only; rw [setProc_ne _ _ _ _ e]; exact h.sendS b k
  · by_cases e : p = a * ns + o
    · dsimp only
      rw [e, put_same]
      dsimp only [taskAfter]
      rw [proc_div ho, proc_mod ho]
      unfold push
      by_cases c : k = q * ns + o
      · rw [if_pos c, c, proc_div ho, proc_mod ho, put2_same, h.recvT, proc_div ho, proc_mod ho, proc_div ho, proc_mod ho,
          if_pos rfl, if_pos rfl]
        unfold sel
        rw [List.filter_append, List.map_append]
        congr 1
        simp
      · rw [if_neg c, h.recvT, proc_div ho, proc_mod ho]
        by_cases c2 : k % ns = o
        · rw [if_pos c2, if_pos c2, put2_ne]
          rintro ⟨_, g⟩
          exact c ((eq_iff ho k q).2 ⟨g, c2⟩)
        · rw [if_neg c2, if_neg c2]
    · dsimp only
      rw [put_ne _ _ _ _ e, h.recvT p k]
      by_cases c2 : k % ns = p % ns
      · rw [if_pos c2, if_pos c2]
        by_cases c3 : p / ns = a ∧ k / ns = q
        · obtain ⟨c3, c4⟩ := c3
          subst c3; subst c4
          rw [put2_same]
          unfold sel
          rw [List.filter_append, List.map_append]
          have : o ≠ p % ns := fun g => e ((eq_iff ho p (p / ns)).2 ⟨rfl, g.symm⟩)
          simp [this]
        · rw [put2_ne _ _ _ _ _ _ c3]
      · rw [if_neg c2, if_neg c2]
  · by_cases e : p = a * ns + o
    · dsimp only; rw [e, put_same]; exact h.sendT _ k
    · dsimp only; rw [put_ne _ _ _ _ e]; exact h.sendT p k
  · have := h.agree b c hb hc hne
    have k1 : sendTags c (put R a R' b) = sendTags c (R b) := by
      by_cases e : b = a
      · subst e; rw [put_same, hR, sendTags_cons]; rfl
      · rw [put_ne _ _ _ _ e]
    rw [k1, this]
    by_cases e : c = a
    · subst e
      rw [put_same, hR, recvTags_cons]
      by_cases e2 : b = q
      · subst e2
        rw [put2_same, List.map_append, List.append_assoc]
        congr 1
        simp [recvTags]
      · rw [put2_ne _ _ _ _ _ _ (fun g => e2 g.2)]
        congr 1
        have : recvTags b [(some o, .irecv buf n q)] = [] := by simp [recvTags, Ne.symm e2]
        rw [this]; rfl
    · rw [put_ne _ _ _ _ e, put2_ne _ _ _ _ _ _ (fun g => e g.1)]

theorem lock_isend (h : Lock N ns R tr ts tc S T) {a o : Nat} {buf : Addr} {n q : Nat} {R' : Master}
    (ha : a < N) (hR : R a = (some o, .isend buf n q) :: R') (h2 : (S.proc a).clearRecv buf n) :
    ∃ T', TReach N ns W T T' ∧ Lock N ns (put R a R') tr (put2 ts a q (ts a q ++ [(o, (buf, n))])) tc
      ⟨setProc S.proc a { S.proc a with rest := R'.map Prod.snd, sends := push (S.proc a).sends q (buf, n) }, S.chan⟩ T' := by
  obtain ⟨ho, hqN, hqa⟩ := h.wf a ha (some o, .isend buf n q) (by rw [hR]; exact List.mem_cons_self)
  have hP := proc_lt ho ha
  have hrest : (T.task (a * ns + o)).rest = .isend buf n (q * ns + o) :: share ns o R' := by
    rw [h.restT _ hP, proc_div ho, proc_mod ho, hR, share_own]; rfl
  have hst := TStep.instr (W := W) (N := N) (s := T) hP hrest (by simp) (by
      rw [proc_div ho]
      refine h.clear (fun y hy => ?_) (fun y hy => ?_) (fun x hx y hy => ?_)
      · rcases List.mem_append.1 hy with hy | hy
        · exact absurd hy List.not_mem_nil
        · rw [List.mem_singleton.1 hy]; exact h2
      · exact absurd hy List.not_mem_nil
      · exact absurd hx List.not_mem_nil) (fun e => absurd e (by simp))
  refine ⟨_, .single (l := .loc (a * ns + o)) trivial hst, ?_⟩
  rw [proc_div ho]
  refine ⟨wf_put h hR, restS_put h rfl, restT_put h hR ho rfl, mem_put h ?_, still_put h rfl,
    even_put h rfl, fun b k => ?_, fun b k => ?_, h.chanS, fun p k => ?_, fun p k => ?_, h.chanT,
    fun b k x hx => ?_, h.smallC, fun b c hb hc hne => ?_⟩
  · dsimp only [memAfter]; rw [h.mem a ha]
  · by_cases e : b = a
    · subst e; dsimp only; rw [setProc_same]; exact h.recvS b k
    · dsimp only; rw [setProc_ne _ _ _ _ e]; exact h.recvS b k
  · by_cases e : b = a
    · subst e
      dsimp only
      rw [setProc_same]
      dsimp only
      unfold push
      by_cases c : k = q
      · subst c; rw [if_pos rfl, put2_same, List.map_append, h.sendS]; rfl
      · rw [if_neg c, put2_ne _ _ _ _ _ _ (fun g => c g.2)]; exact h.sendS b k
    · dsimp only; rw [setProc_ne _ _ _ _ e, put2_ne _ _ _ _ _ _ (fun g => e g.1)]; exact h.sendS b k
  · by_cases e : p = a * ns + o
    · dsimp only; rw [e, put_same]; exact h.recvT _ k
    · dsimp only; rw [put_ne _ _ _ _ e]; exact h.recvT p k
  · by_cases e : p = a * ns + o
    · dsimp only
      rw [e, put_same]
      dsimp only [taskAfter]
      rw [proc_div ho, proc_mod ho]
      unfold push
      by_cases c : k = q * ns + o
      · rw [if_pos c, c, proc_div ho, proc_mod ho, put2_same, h.sendT, proc_div ho, proc_mod ho, proc_div ho, proc_mod ho,
          if_pos rfl, if_pos rfl]
        unfold sel
        rw [List.filter_append, List.map_append]
        congr 1
        simp
      · rw [if_neg c, h.sendT, proc_div ho, proc_mod ho]
        by_cases c2 : k % ns = o
        · rw [if_pos c2, if_pos c2, put2_ne]
          rintro ⟨_, g⟩
          exact c ((eq_iff ho k q).2 ⟨g, c2⟩)
        · rw [if_neg c2, if_neg c2]
    · dsimp only
      rw [put_ne _ _ _ _ e, h.sendT p k]
      by_cases c2 : k % ns = p % ns
      · rw [if_pos c2, if_pos c2]
        by_cases c3 : p / ns = a ∧ k / ns = q
        · obtain ⟨c3, c4⟩ := c3
          subst c3; subst c4
          rw [put2_same]
          unfold sel
          rw [List.filter_append, List.map_append]
          have : o ≠ p % ns := fun g => e ((eq_iff ho p (p / ns)).2 ⟨rfl, g.symm⟩)
          simp [this]
        · rw [put2_ne _ _ _ _ _ _ c3]
      · rw [if_neg c2, if_neg c2]
  · by_cases c : b = a ∧ k = q
    · obtain ⟨rfl, rfl⟩ := c
      rw [put2_same] at hx
      rcases List.mem_append.1 hx with hx | hx
      · exact h.small _ _ x hx
      · rw [List.mem_singleton.1 hx]; exact ho
    · rw [put2_ne _ _ _ _ _ _ c] at hx; exact h.small _ _ x hx
  · have := h.agree b c hb hc hne
    have k1 : recvTags b (put R a R' c) = recvTags b (R c) := by
      by_cases e : c = a
      · subst e; rw [put_same, hR, recvTags_cons]; rfl
      · rw [put_ne _ _ _ _ e]
    rw [k1, ← this]
    by_cases e : b = a
    · subst e
      rw [put_same, hR, sendTags_cons]
      by_cases e2 : c = q
      · subst e2
        rw [put2_same, List.map_append]
        simp [sendTags]
      · rw [put2_ne _ _ _ _ _ _ (fun g => e2 g.2)]
        congr 1
        have : sendTags c [(some o, .isend buf n q)] = [] := by simp [sendTags, Ne.symm e2]
        rw [this]; rfl
    · rw [put_ne _ _ _ _ e, put2_ne _ _ _ _ _ _ (fun g => e g.1)]

/-- All processes of a node have done the same with their instruction. -/
theorem lock_swept (h : Lock N ns R tr ts tc S T) {a : Nat} {i : Instr} {R' : Master} (hi : i = .waitall ∨ i = .barrier)
    (hR : R a = (none, i) :: R') {T' : TState X} (f : Task → Task) (f1 : ∀ p, p < N * ns → p / ns = a → (f (T.task p)).rest = share ns (p % ns) R')
    (f2 : ∀ t, (f t).recvs = t.recvs ∧ (f t).sends = t.sends) (f3 : ∀ t, (f t).waiting = false)
    (f4 : ∀ t u, t.entered = u.entered → (f t).entered = (f u).entered)
    (e1 : ∀ p, p < N * ns → T'.task p = if p / ns = a then f (T.task p) else T.task p)
    (e1' : ∀ p, (T'.task p).recvs = (T.task p).recvs ∧ (T'.task p).sends = (T.task p).sends)
    (e2 : T'.mem = T.mem) (e3 : T'.chan = T.chan) :
    Lock N ns (put R a R') tr ts tc ⟨setProc S.proc a { S.proc a with rest := R'.map Prod.snd }, S.chan⟩ T' := by
  refine ⟨wf_put h hR, restS_put h rfl, fun p hp => ?_, fun b hb => ?_, fun p hp => ?_, fun p p' hp hp' hn => ?_,
    fun b q => ?_, fun b q => ?_, h.chanS, fun p k => ?_, fun p k => ?_, fun p k => ?_, h.small, h.smallC, fun b c hb hc hne => ?_⟩
  · rw [e1 p hp]
    by_cases c : p / ns = a
    · rw [if_pos c, f1 p hp c, c, put_same]
    · rw [if_neg c, put_ne _ _ _ _ c]; exact h.restT p hp
  · rw [e2]
    by_cases e : b = a
    · subst e; dsimp only; rw [setProc_same]; exact h.mem b hb
    · dsimp only; rw [setProc_ne _ _ _ _ e]; exact h.mem b hb
  · rw [e1 p hp]
    split
    · exact f3 _
    · exact h.still p hp
  · rw [e1 p hp, e1 p' hp', hn]
    split
    · exact f4 _ _ (h.even p p' hp hp' hn)
    · exact h.even p p' hp hp' hn
  · by_cases e : b = a
    · subst e; dsimp only; rw [setProc_same]; exact h.recvS b q
    · dsimp only; rw [setProc_ne _ _ _ _ e]; exact h.recvS b q
  · by_cases e : b = a
    · subst e; dsimp only; rw [setProc_same]; exact h.sendS b q
    · dsimp only; rw [setProc_ne _ _ _ _ e]; exact h.sendS b q
  · rw [(e1' p).1]; exact h.recvT p k
  · rw [(e1' p).2]; exact h.sendT p k
  · rw [e3]; exact h.chanT p k
  · have key : ∀ c q, sendTags q (put R a R' c) = sendTags q (R c) ∧ recvTags q (put R a R' c) = recvTags q (R c) := by
      intro c q
      by_cases e : c = a
      · subst e
        rw [put_same, hR, sendTags_cons, recvTags_cons]
        rcases hi with rfl | rfl <;> exact ⟨rfl, rfl⟩
      · rw [put_ne _ _ _ _ e]; exact ⟨rfl, rfl⟩
    rw [(key b c).1, (key c b).2]
    exact h.agree b c hb hc hne

theorem lock_waitall (h : Lock N ns R tr ts tc S T) {a : Nat} {R' : Master} (ha : a < N)
    (hR : R a = (none, .waitall) :: R') (hq : ∀ q, (S.proc a).recvs q = [] ∧ (S.proc a).sends q = []) :
    ∃ T', TReach N ns W T T' ∧ Lock N ns (put R a R') tr ts tc
      ⟨setProc S.proc a { S.proc a with rest := R'.map Prod.snd }, S.chan⟩ T' := by
  have hrest : ∀ p, p < N * ns → p / ns = a → (T.task p).rest = .waitall :: share ns (p % ns) R' := by
    intro p hp hn
    rw [h.restT p hp, hn, hR, share_all]; rfl
  refine ⟨swept ns a (fun t => { t with rest := t.rest.tail }) T ns,
    sweep ha _ T .waitall (fun _ => rfl) (fun j hj => ?_),
    lock_swept h (.inl rfl) hR (fun t => { t with rest := t.rest.tail, waiting := false }) (fun p hp hn => ?_)
      (fun _ => ⟨rfl, rfl⟩) (fun _ => rfl)
      (fun t u e => e) (fun p hp => ?_) (fun p => ?_) rfl rfl⟩
  · have hP := proc_lt hj ha
    have hr := hrest _ hP (proc_div hj a)
    have hs : (swept ns a (fun t : Task => { t with rest := t.rest.tail }) T j).task (a * ns + j) = T.task (a * ns + j) :=
      swept_at _ T j hj
    have key : LocOk N ns W (swept ns a (fun t => { t with rest := t.rest.tail }) T j) (a * ns + j) .waitall
        (taskAfter .waitall (share ns ((a * ns + j) % ns) R')
          ((swept ns a (fun t => { t with rest := t.rest.tail }) T j).task (a * ns + j))) := by
      refine .instr ?_ (by simp) ⟨fun _ _ _ _ _ _ h => absurd h List.not_mem_nil,
        fun _ _ _ _ _ _ h => absurd h List.not_mem_nil, fun _ h => absurd h List.not_mem_nil⟩ (fun _ k => ?_)
      · rw [hs]; exact hr
      · rw [hs]
        refine ⟨?_, ?_⟩
        · rw [List.eq_nil_iff_forall_not_mem]
          intro x hx
          have := h.recv_sub hx
          rw [proc_div hj, (hq _).1] at this
          exact absurd this List.not_mem_nil
        · rw [List.eq_nil_iff_forall_not_mem]
          intro x hx
          have := h.send_sub hx
          rw [proc_div hj, (hq _).2] at this
          exact absurd this List.not_mem_nil
    rw [hs] at key
    dsimp only [taskAfter] at key
    rw [hr]
    exact key
  · dsimp only; rw [hrest p hp hn]; rfl
  · rw [swept_all _ _ p hp]
    split
    · have := h.still p hp
      generalize T.task p = t at this ⊢
      cases t
      dsimp only at this ⊢
      rw [this]
    · rfl
  · unfold swept
    dsimp only
    split <;> exact ⟨rfl, rfl⟩

theorem lock_barrier (h : Lock N ns R tr ts tc S T) {a : Nat} {R' : Master} (ha : a < N)
    (hR : R a = (none, .barrier) :: R') :
    ∃ T', TReach N ns W T T' ∧ Lock N ns (put R a R') tr ts tc
      ⟨setProc S.proc a { S.proc a with rest := R'.map Prod.snd }, S.chan⟩ T' := by
  have hrest : ∀ p, p < N * ns → p / ns = a → (T.task p).rest = .barrier :: share ns (p % ns) R' := by
    intro p hp hn
    rw [h.restT p hp, hn, hR, share_all]; rfl
  have r1 : TReach N ns W T (swept ns a (fun t => { t with entered := t.entered + 1, waiting := true }) T ns) := by
    refine sweep ha _ T .barrier (fun _ => rfl) (fun j hj => ?_)
    have hP := proc_lt hj ha
    have hr := hrest _ hP (proc_div hj a)
    have hs : (swept ns a (fun t : Task => { t with entered := t.entered + 1, waiting := true }) T j).task (a * ns + j) =
      T.task (a * ns + j) := swept_at _ T j hj
    have key := LocOk.enter (W := W) (N := N) (ns := ns)
      (s := swept ns a (fun t : Task => { t with entered := t.entered + 1, waiting := true }) T j) (p := a * ns + j)
      (rest := share ns ((a * ns + j) % ns) R') (by rw [hs]; exact hr) (by rw [hs]; exact h.still _ hP)
    rw [hs] at key
    exact key
  generalize hT1 : swept ns a (fun t : Task => { t with entered := t.entered + 1, waiting := true }) T ns = T1 at r1
  have t1 : ∀ p, p < N * ns → p / ns = a → T1.task p =
      { T.task p with entered := (T.task p).entered + 1, waiting := true } := by
    intro p hp hn
    rw [← hT1, swept_all _ _ p hp, if_pos hn]
  have r2 : TReach N ns W T1 (swept ns a (fun t => { t with rest := t.rest.tail, waiting := false }) T1 ns) := by
    refine sweep ha _ T1 .barrier (fun _ => rfl) (fun j hj => ?_)
    have hP := proc_lt hj ha
    have hr := hrest _ hP (proc_div hj a)
    have hs : (swept ns a (fun t : Task => { t with rest := t.rest.tail, waiting := false }) T1 j).task (a * ns + j) =
      T1.task (a * ns + j) := swept_at _ T1 j hj
    have ht := t1 _ hP (proc_div hj a)
    have hent : ∀ p, (((swept ns a (fun t : Task => { t with rest := t.rest.tail, waiting := false }) T1 j).task p)).entered =
        (T1.task p).entered := by
      intro p
      unfold swept
      dsimp only
      split <;> rfl
    have key := LocOk.leave (W := W) (N := N) (ns := ns)
      (s := swept ns a (fun t : Task => { t with rest := t.rest.tail, waiting := false }) T1 j) (p := a * ns + j)
      (rest := share ns ((a * ns + j) % ns) R') (by rw [hs, ht]; exact hr) (by rw [hs, ht]) (by
        intro p' hp' hn
        rw [hent, hent, ht, t1 p' hp' (by rw [hn, proc_div hj])]
        dsimp only
        rw [h.even (a * ns + j) p' hP hp' hn.symm]
        exact fun _ => Nat.le_refl _)
    rw [hs] at key
    have e : (T1.task (a * ns + j)).rest.tail = share ns ((a * ns + j) % ns) R' := by rw [ht]; dsimp only; rw [hr]; rfl
    rw [e]
    exact key
  refine ⟨_, r1.trans r2, lock_swept h (.inr rfl) hR
    (fun t => { t with rest := t.rest.tail, entered := t.entered + 1, waiting := false }) (fun p hp hn => ?_)
      (fun _ => ⟨rfl, rfl⟩) (fun _ => rfl)
      (fun t u e => by dsimp only; rw [e]) (fun p hp => ?_) (fun p => ?_) (by rw [← hT1]; rfl) (by rw [← hT1]; rfl)⟩
  · dsimp only; rw [hrest p hp hn]; rfl
  · rw [swept_all _ _ p hp]
    by_cases c : p / ns = a
    · rw [if_pos c, if_pos c, t1 p hp c]
    · rw [if_neg c, if_neg c, ← hT1, swept_all _ _ p hp, if_neg c]
  · rw [← hT1]
    unfold swept
    dsimp only
    split <;> exact ⟨rfl, rfl⟩

theorem lock_depart (h : Lock N ns R tr ts tc S T) {q t : Nat} {a : Addr} {n : Nat} {r : List (Addr × Nat)}
    (hq : q < N) (ht : t < N) (hne : q ≠ t) (hs : (S.proc q).sends t = (a, n) :: r)
    (hu : S.chan q t = [] ∧ (S.proc t).recvs q ≠ []) :
    ∃ ts' tc' T', TReach N ns W T T' ∧ Lock N ns R tr ts' tc'
      ⟨setProc S.proc q { S.proc q with sends := pop (S.proc q).sends t },
        setChan S.chan q t (S.chan q t ++ [readMem (S.proc q).mem a n])⟩ T' := by
  have hts := h.sendS q t
  rw [hs] at hts
  have htc : tc q t = [] := by
    have := h.chanS q t
    rw [hu.1] at this
    exact List.map_eq_nil_iff.1 this.symm
  obtain ⟨⟨o, x⟩, r', hr', hx, hr⟩ := List.map_eq_cons_iff.1 hts.symm
  dsimp only at hx
  subst hx
  have ho : o < ns := h.small q t (o, (a, n)) (by rw [hr']; exact List.mem_cons_self)
  obtain ⟨⟨o', y⟩, w, hw⟩ : ∃ z w, tr t q = z :: w := by
    cases e : tr t q with
    | nil => exact absurd (by rw [h.recvS, e]; rfl) hu.2
    | cons z w => exact ⟨z, w, rfl⟩
  have hag := h.agree q t hq ht hne
  rw [htc, hr', hw] at hag
  have hoo : o = o' := (List.cons.inj hag).1
  subst hoo
  have hPne : q * ns + o ≠ t * ns + o := fun e => hne (by rw [← proc_div ho q, e, proc_div ho])
  have hsend : (T.task (q * ns + o)).sends (t * ns + o) = (a, n) :: sel o r' := by
    rw [h.sendT, proc_mod ho, proc_mod ho, if_pos rfl, proc_div ho, proc_div ho, hr']
    simp [sel]
  have hst := TStep.depart (W := W) (N := N) (s := T) (proc_lt ho hq) (proc_lt ho ht) hPne hsend
  refine ⟨put2 ts q t r', put2 tc q t (tc q t ++ [(o, readMem (S.proc q).mem a n)]), _,
    .single (l := .depart (q * ns + o) (t * ns + o)) ⟨?_, ?_⟩ hst, ?_⟩
  · rw [h.chanT, proc_mod ho, proc_mod ho, if_pos rfl, proc_div ho, proc_div ho, htc]; rfl
  · rw [h.recvT, proc_mod ho, proc_mod ho, if_pos rfl, proc_div ho, proc_div ho, hw]
    simp [sel]
  · rw [proc_div ho]
    refine ⟨h.wf, fun b hb => ?_, fun p hp => ?_, fun b hb => ?_, still_put h rfl, even_put h rfl,
      fun b k => ?_, fun b k => ?_, fun b k => ?_, fun p k => ?_, fun p k => ?_, fun p k => ?_, fun b k x hx => ?_,
      fun b k x hx => ?_, fun b c hb hc hbc => ?_⟩
    · by_cases e : b = q
      · subst e; dsimp only; rw [setProc_same]; exact h.restS b hb
      · dsimp only; rw [setProc_ne _ _ _ _ e]; exact h.restS b hb
    · by_cases e : p = q * ns + o
      · rw [e] at hp ⊢; dsimp only; rw [put_same]; exact h.restT _ hp
      · dsimp only; rw [put_ne _ _ _ _ e]; exact h.restT p hp
    · by_cases e : b = q
      · subst e; dsimp only; rw [setProc_same]; exact h.mem b hb
      · dsimp only; rw [setProc_ne _ _ _ _ e]; exact h.mem b hb
    · by_cases e : b = q
      · subst e; dsimp only; rw [setProc_same]; exact h.recvS b k
      · dsimp only; rw [setProc_ne _ _ _ _ e]; exact h.recvS b k
    · by_cases e : b = q
      · subst e
        dsimp only
        rw [setProc_same]
        dsimp only
        unfold pop
        by_cases c : k = t
        · subst c; rw [if_pos rfl, put2_same, hs]; exact hr.symm
        · rw [if_neg c, put2_ne _ _ _ _ _ _ (fun g => c g.2)]; exact h.sendS b k
      · dsimp only; rw [setProc_ne _ _ _ _ e, put2_ne _ _ _ _ _ _ (fun g => e g.1)]; exact h.sendS b k
    · dsimp only [setChan]
      by_cases c : b = q ∧ k = t
      · obtain ⟨rfl, rfl⟩ := c
        rw [if_pos ⟨rfl, rfl⟩, put2_same, h.chanS, List.map_append]; rfl
      · rw [if_neg c, put2_ne _ _ _ _ _ _ c]; exact h.chanS b k
    · by_cases e : p = q * ns + o
      · dsimp only; rw [e, put_same]; exact h.recvT _ k
      · dsimp only; rw [put_ne _ _ _ _ e]; exact h.recvT p k
    · by_cases e : p = q * ns + o
      · dsimp only
        rw [e, put_same, proc_div ho, proc_mod ho]
        dsimp only
        unfold pop
        by_cases c : k = t * ns + o
        · rw [if_pos c, c, hsend, proc_div ho, proc_mod ho, if_pos rfl, put2_same]; rfl
        · rw [if_neg c, h.sendT, proc_div ho, proc_mod ho]
          by_cases c2 : k % ns = o
          · rw [if_pos c2, if_pos c2, put2_ne]
            rintro ⟨_, g⟩
            exact c ((eq_iff ho k t).2 ⟨g, c2⟩)
          · rw [if_neg c2, if_neg c2]
      · dsimp only
        rw [put_ne _ _ _ _ e, h.sendT p k]
        by_cases c2 : k % ns = p % ns
        · rw [if_pos c2, if_pos c2]
          by_cases c3 : p / ns = q ∧ k / ns = t
          · have c4 : o ≠ p % ns := fun g => e ((eq_iff ho p q).2 ⟨c3.1, g.symm⟩)
            rw [c3.1, c3.2, put2_same, hr']
            simp [sel, c4]
          · rw [put2_ne _ _ _ _ _ _ c3]
        · rw [if_neg c2, if_neg c2]
    · dsimp only [setChan]
      by_cases c : p = q * ns + o ∧ k = t * ns + o
      · obtain ⟨rfl, rfl⟩ := c
        rw [if_pos ⟨rfl, rfl⟩, proc_div ho, proc_mod ho, proc_div ho, proc_mod ho, if_pos rfl, put2_same, h.chanT, proc_div ho,
          proc_mod ho, proc_div ho, proc_mod ho, if_pos rfl, h.mem q hq]
        simp [sel]
      · rw [if_neg c, h.chanT]
        by_cases c2 : k % ns = p % ns
        · rw [if_pos c2, if_pos c2]
          by_cases c3 : p / ns = q ∧ k / ns = t
          · have c4 : o ≠ p % ns := fun g => c ⟨(eq_iff ho p q).2 ⟨c3.1, g.symm⟩, (eq_iff ho k t).2 ⟨c3.2, by rw [c2, g]⟩⟩
            rw [c3.1, c3.2, put2_same]
            simp [sel, c4]
          · rw [put2_ne _ _ _ _ _ _ c3]
        · rw [if_neg c2, if_neg c2]
    · by_cases c : b = q ∧ k = t
      · obtain ⟨rfl, rfl⟩ := c
        rw [put2_same] at hx
        exact h.small _ _ x (by rw [hr']; exact List.mem_cons_of_mem _ hx)
      · rw [put2_ne _ _ _ _ _ _ c] at hx; exact h.small _ _ x hx
    · by_cases c : b = q ∧ k = t
      · obtain ⟨rfl, rfl⟩ := c
        rw [put2_same] at hx
        rcases List.mem_append.1 hx with hx | hx
        · exact h.smallC _ _ x hx
        · rw [List.mem_singleton.1 hx]; exact ho
      · rw [put2_ne _ _ _ _ _ _ c] at hx; exact h.smallC _ _ x hx
    · rw [← h.agree b c hb hc hbc]
      by_cases e : b = q ∧ c = t
      · obtain ⟨rfl, rfl⟩ := e
        rw [put2_same, put2_same, hr', List.map_append]
        simp
      · rw [put2_ne _ _ _ _ _ _ e, put2_ne _ _ _ _ _ _ e]

theorem lock_arrive (h : Lock N ns R tr ts tc S T) {q t : Nat} {a : Addr} {n : Nat} {r : List (Addr × Nat)} {msg : List X}
    {ms : List (List X)} (hq : q < N) (ht : t < N) (hne : q ≠ t) (hc : S.chan q t = msg :: ms)
    (hs : (S.proc t).recvs q = (a, n) :: r) (hn : msg.length = n) :
    ∃ tr' tc' T', TReach N ns W T T' ∧ Lock N ns R tr' ts tc'
      ⟨setProc S.proc t { S.proc t with mem := writeMem (S.proc t).mem a msg, recvs := pop (S.proc t).recvs q },
        setChan S.chan q t ms⟩ T' := by
  have htr := h.recvS t q
  rw [hs] at htr
  obtain ⟨⟨o', y⟩, r', hr', hx, hr⟩ := List.map_eq_cons_iff.1 htr.symm
  dsimp only at hx
  subst hx
  have htc := h.chanS q t
  rw [hc] at htc
  obtain ⟨⟨o, y⟩, m', hm', hx, hm⟩ := List.map_eq_cons_iff.1 htc.symm
  dsimp only at hx
  subst hx
  have ho : o < ns := h.smallC q t (o, y) (by rw [hm']; exact List.mem_cons_self)
  have hag := h.agree q t hq ht hne
  rw [hm', hr'] at hag
  have hoo : o = o' := (List.cons.inj hag).1
  have hag2 := (List.cons.inj hag).2
  subst hoo
  have hPne : q * ns + o ≠ t * ns + o := fun e => hne (by rw [← proc_div ho q, e, proc_div ho])
  have hchan : T.chan (q * ns + o) (t * ns + o) = y :: sel o m' := by
    rw [h.chanT, proc_mod ho, proc_mod ho, if_pos rfl, proc_div ho, proc_div ho, hm']
    simp [sel]
  have hrecv : (T.task (t * ns + o)).recvs (q * ns + o) = (a, n) :: sel o r' := by
    rw [h.recvT, proc_mod ho, proc_mod ho, if_pos rfl, proc_div ho, proc_div ho, hr']
    simp [sel]
  have hst := TStep.arrive (W := W) (N := N) (s := T) (proc_lt ho hq) (proc_lt ho ht) hPne hchan hrecv hn
  refine ⟨put2 tr t q r', put2 tc q t m', _, .single (l := .arrive (q * ns + o) (t * ns + o)) trivial hst, ?_⟩
  rw [proc_div ho]
  refine ⟨h.wf, fun b hb => ?_, fun p hp => ?_, mem_put h ?_, still_put h rfl, even_put h rfl,
    fun b k => ?_, fun b k => ?_, fun b k => ?_, fun p k => ?_, fun p k => ?_, fun p k => ?_, h.small,
    fun b k x hx => ?_, fun b c hb hc hbc => ?_⟩
  · by_cases e : b = t
    · subst e; dsimp only; rw [setProc_same]; exact h.restS b hb
    · dsimp only; rw [setProc_ne _ _ _ _ e]; exact h.restS b hb
  · by_cases e : p = t * ns + o
    · rw [e] at hp ⊢; dsimp only; rw [put_same]; exact h.restT _ hp
    · dsimp only; rw [put_ne _ _ _ _ e]; exact h.restT p hp
  · dsimp only; rw [h.mem t ht]
  · by_cases e : b = t
    · subst e
      dsimp only
      rw [setProc_same]
      dsimp only
      unfold pop
      by_cases c : k = q
      · subst c; rw [if_pos rfl, put2_same, hs]; exact hr.symm
      · rw [if_neg c, put2_ne _ _ _ _ _ _ (fun g => c g.2)]; exact h.recvS b k
    · dsimp only; rw [setProc_ne _ _ _ _ e, put2_ne _ _ _ _ _ _ (fun g => e g.1)]; exact h.recvS b k
  · by_cases e : b = t
    · subst e; dsimp only; rw [setProc_same]; exact h.sendS b k
    · dsimp only; rw [setProc_ne _ _ _ _ e]; exact h.sendS b k
  · dsimp only [setChan]
    by_cases c : b = q ∧ k = t
    · obtain ⟨rfl, rfl⟩ := c
      rw [if_pos ⟨rfl, rfl⟩, put2_same]; exact hm.symm
    · rw [if_neg c, put2_ne _ _ _ _ _ _ c]; exact h.chanS b k
  · by_cases e : p = t * ns + o
    · dsimp only
      rw [e, put_same, proc_div ho, proc_mod ho]
      dsimp only
      unfold pop
      by_cases c : k = q * ns + o
      · rw [if_pos c, c, hrecv, proc_div ho, proc_mod ho, if_pos rfl, put2_same]; rfl
      · rw [if_neg c, h.recvT, proc_div ho, proc_mod ho]
        by_cases c2 : k % ns = o
        · rw [if_pos c2, if_pos c2, put2_ne]
          rintro ⟨_, g⟩
          exact c ((eq_iff ho k q).2 ⟨g, c2⟩)
        · rw [if_neg c2, if_neg c2]
    · dsimp only
      rw [put_ne _ _ _ _ e, h.recvT p k]
      by_cases c2 : k % ns = p % ns
      · rw [if_pos c2, if_pos c2]
        by_cases c3 : p / ns = t ∧ k / ns = q
        · have c4 : o ≠ p % ns := fun g => e ((eq_iff ho p t).2 ⟨c3.1, g.symm⟩)
          rw [c3.1, c3.2, put2_same, hr']
          simp [sel, c4]
        · rw [put2_ne _ _ _ _ _ _ c3]
      · rw [if_neg c2, if_neg c2]
  · by_cases e : p = t * ns + o
    · dsimp only; rw [e, put_same]; exact h.sendT _ k
    · dsimp only; rw [put_ne _ _ _ _ e]; exact h.sendT p k
  · dsimp only [setChan]
    by_cases c : p = q * ns + o ∧ k = t * ns + o
    · obtain ⟨rfl, rfl⟩ := c
      rw [if_pos ⟨rfl, rfl⟩, proc_div ho, proc_mod ho, proc_div ho, proc_mod ho, if_pos rfl, put2_same]
    · rw [if_neg c, h.chanT]
      by_cases c2 : k % ns = p % ns
      · rw [if_pos c2, if_pos c2]
        by_cases c3 : p / ns = q ∧ k / ns = t
        · have c4 : o ≠ p % ns := fun g => c ⟨(eq_iff ho p q).2 ⟨c3.1, g.symm⟩, (eq_iff ho k t).2 ⟨c3.2, by rw [c2, g]⟩⟩
          rw [c3.1, c3.2, put2_same, hm']
          simp [sel, c4]
        · rw [put2_ne _ _ _ _ _ _ c3]
      · rw [if_neg c2, if_neg c2]
  · by_cases c : b = q ∧ k = t
    · obtain ⟨rfl, rfl⟩ := c
      rw [put2_same] at hx
      exact h.smallC _ _ x (by rw [hm']; exact List.mem_cons_of_mem _ hx)
    · rw [put2_ne _ _ _ _ _ _ c] at hx; exact h.smallC _ _ x hx
  · by_cases e : b = q ∧ c = t
    · obtain ⟨rfl, rfl⟩ := e
      rw [put2_same, put2_same]
      exact hag2
    · rw [put2_ne _ _ _ _ _ _ e, put2_ne _ _ _ _ _ _ (fun g => e ⟨g.2, g.1⟩)]
      exact h.agree b c hb hc hbc

/-- One step with one process per node is a number of steps with several. -/
theorem lock_step (h : Lock N ns R tr ts tc S T) {l : Lab} {S' : State X} (hu : Unbuffered l S) (hs : Step N l S S') :
    ∃ R' tr' ts' tc' T', TReach N ns W T T' ∧ Lock N ns R' tr' ts' tc' S' T' := by
  have own : ∀ a, a < N → ∀ i rest, (S.proc a).rest = i :: rest → ∃ o R', R a = (o, i) :: R' ∧ rest = R'.map Prod.snd := by
    intro a ha i rest hr
    rw [h.restS a ha] at hr
    obtain ⟨⟨o, j⟩, R', hR, hj, hr2⟩ := List.map_eq_cons_iff.1 hr
    dsimp only at hj
    subst hj
    exact ⟨o, R', hR, hr2.symm⟩
  cases hs with
  | @loc _ a _ ha hl =>
    cases hl with
    | copy hr h1 h2 h3 h4 =>
      obtain ⟨o, R', hR, rfl⟩ := own _ ha _ _ hr
      have hw := h.wf _ ha _ (by rw [hR]; exact List.mem_cons_self)
      cases o with
      | none => exact hw.elim
      | some o =>
        obtain ⟨T', r, k⟩ := lock_copy h ha hR h1 h2 h3 h4
        exact ⟨_, _, _, _, T', r, k⟩
    | irecv hr h2 h3 =>
      obtain ⟨o, R', hR, rfl⟩ := own _ ha _ _ hr
      have hw := h.wf _ ha _ (by rw [hR]; exact List.mem_cons_self)
      cases o with
      | none => exact hw.elim
      | some o =>
        obtain ⟨T', r, k⟩ := lock_irecv h ha hR h2 h3
        exact ⟨_, _, _, _, T', r, k⟩
    | isend hr h2 =>
      obtain ⟨o, R', hR, rfl⟩ := own _ ha _ _ hr
      have hw := h.wf _ ha _ (by rw [hR]; exact List.mem_cons_self)
      cases o with
      | none => exact hw.elim
      | some o =>
        obtain ⟨T', r, k⟩ := lock_isend h ha hR h2
        exact ⟨_, _, _, _, T', r, k⟩
    | waitall hr hq =>
      obtain ⟨o, R', hR, rfl⟩ := own _ ha _ _ hr
      have hw := h.wf _ ha _ (by rw [hR]; exact List.mem_cons_self)
      cases o with
      | some o => exact hw.elim
      | none =>
        obtain ⟨T', r, k⟩ := lock_waitall h ha hR hq
        exact ⟨_, _, _, _, T', r, k⟩
    | barrier hr =>
      obtain ⟨o, R', hR, rfl⟩ := own _ ha _ _ hr
      have hw := h.wf _ ha _ (by rw [hR]; exact List.mem_cons_self)
      cases o with
      | some o => exact hw.elim
      | none =>
        obtain ⟨T', r, k⟩ := lock_barrier h ha hR
        exact ⟨_, _, _, _, T', r, k⟩
  | depart hq ht hne hs =>
    obtain ⟨ts', tc', T', r, k⟩ := lock_depart h hq ht hne hs hu
    exact ⟨_, _, ts', tc', T', r, k⟩
  | arrive hq ht hne hc hs hn =>
    obtain ⟨tr', tc', T', r, k⟩ := lock_arrive h hq ht hne hc hs hn
    exact ⟨_, tr', _, tc', T', r, k⟩

end

theorem lock_run {N ns k : Nat} {S S' : State X} (hr : URun N k S S') : ∀ {R : Nat → Master}
    {tr ts : Nat → Nat → List (Nat × (Addr × Nat))} {tc : Nat → Nat → List (Nat × List X)} {T : TState X},
    Lock N ns R tr ts tc S T →
    ∃ R' tr' ts' tc' T', TReach N ns W T T' ∧ Lock N ns R' tr' ts' tc' S' T' := by
  induction hr with
  | refl => intro R tr ts tc T h; exact ⟨R, tr, ts, tc, T, .refl _ _ _, h⟩
  | step hu _ hs _ ih =>
    intro R tr ts tc T h
    obtain ⟨R1, tr1, ts1, tc1, T1, r1, h1⟩ := lock_step h hu hs
    obtain ⟨R2, tr2, ts2, tc2, T2, r2, h2⟩ := ih h1
    exact ⟨R2, tr2, ts2, tc2, T2, r1.trans r2, h2⟩

/-- Programs of nodes whose instructions are distributed among the processes of the nodes: a complete execution with one
process per node gives one with several. -/
theorem lift {N ns k : Nat} {M : Nat → Master} {m : Nat → Mem X} {e : State X}
    (hw : ∀ a, a < N → ∀ x, x ∈ M a → WF N ns a x)
    (ht : ∀ a q, a < N → q < N → a ≠ q → sendTags q (M a) = recvTags a (M q))
    (hr : URun N k (initial (fun a => (M a).map Prod.snd) m) e) (he : Final N e) :
    ∃ n T, TURun N ns W n (startT (fun p => share ns (p % ns) (M (p / ns))) m) T ∧ TFinal N ns T ∧
      ∀ a, a < N → T.mem a = (e.proc a).mem := by
  have h0 : Lock N ns M (fun _ _ => []) (fun _ _ => []) (fun _ _ => []) (initial (fun a => (M a).map Prod.snd) m)
      (startT (fun p => share ns (p % ns) (M (p / ns))) m) := by
    refine ⟨hw, fun _ _ => rfl, fun _ _ => rfl, fun _ _ => rfl, fun _ _ => rfl, fun _ _ _ _ _ => rfl, fun _ _ => rfl,
      fun _ _ => rfl, fun _ _ => rfl, fun p k => ?_, fun p k => ?_, fun p k => ?_, fun _ _ _ h => absurd h List.not_mem_nil,
      fun _ _ _ h => absurd h List.not_mem_nil, fun a q ha hq hne => ?_⟩
    · split <;> rfl
    · split <;> rfl
    · split <;> rfl
    · exact ht a q ha hq hne
  obtain ⟨R, tr, ts, tc, T, ⟨n, r⟩, h⟩ := lock_run hr h0
  refine ⟨n, T, r, fun p hp => ?_, h.mem⟩
  have hf := he (p / ns) (div_lt hp)
  refine ⟨?_, fun q => ⟨?_, ?_, ?_, ?_⟩⟩
  · have := h.restS _ (div_lt hp)
    rw [hf.1] at this
    rw [h.restT p hp, List.map_eq_nil_iff.1 this.symm]; rfl
  · have := h.recvS (p / ns) (q / ns)
    rw [(hf.2 _).1] at this
    rw [h.recvT, List.map_eq_nil_iff.1 this.symm]; split <;> rfl
  · have := h.sendS (p / ns) (q / ns)
    rw [(hf.2 _).2.1] at this
    rw [h.sendT, List.map_eq_nil_iff.1 this.symm]; split <;> rfl
  · have := h.chanS (q / ns) (p / ns)
    rw [(hf.2 _).2.2.1] at this
    rw [h.chanT, List.map_eq_nil_iff.1 this.symm]; split <;> rfl
  · have := h.chanS (p / ns) (q / ns)
    rw [(hf.2 _).2.2.2] at this
    rw [h.chanT, List.map_eq_nil_iff.1 this.symm]; split <;> rfl

end ExtMpi.TasksNode
