import Verif.Spec.Requests
import Verif.Lemmas.RawCodeRun
/-! # All executions of an application with several requests are equivalent -/
namespace ExtMpi.Requests
open RawCode

variable {X : Type} [Add X]

section
variable {A : Type}

theorem put_same (f : Nat → A) (i : Nat) (x : A) : put f i x i = x := by simp [put]

theorem put_ne (f : Nat → A) (i k : Nat) (x : A) (h : k ≠ i) : put f i x k = f k := by simp [put, h]

theorem put_comm (f : Nat → A) (i j : Nat) (x y : A) (h : i ≠ j) : put (put f i x) j y = put (put f j y) i x := by
  funext k
  unfold put
  by_cases h1 : k = i
  · subst h1; simp [h]
  · simp [h1]

theorem put_put (f : Nat → A) (i : Nat) (x y : A) : put (put f i x) i y = put f i y := by
  funext k
  unfold put
  by_cases h1 : k = i <;> simp [h1]

theorem put_self (f : Nat → A) (i : Nat) : put f i (f i) = f := by
  funext k
  unfold put
  split
  · next h => rw [h]
  · rfl

end

omit [Add X] in
theorem setProc_self (f : Nat → Proc X) (t : Nat) : setProc f t (f t) = f := by
  funext k
  unfold setProc
  split
  · next h => rw [h]
  · rfl

theorem idle_lstep {p p' : Proc X} (hi : Idle p) (h : LStep p p') : False := by
  have := hi.1
  cases h <;> simp_all

/-- Steps of a request do not involve processes that are idle in it. -/
theorem step_frame {N t : Nat} {l : Lab} {c c1 : State X} (h : Step N l c c1) (hi : Idle (c.proc t)) :
    c1.proc t = c.proc t ∧ ∀ p, (Unbuffered l c → Unbuffered l ⟨setProc c.proc t p, c.chan⟩) ∧
      Step N l ⟨setProc c.proc t p, c.chan⟩ ⟨setProc c1.proc t p, c1.chan⟩ := by
  cases h with
  | @loc _ t' p' ht hp =>
    have hne : t ≠ t' := by rintro rfl; exact idle_lstep hi hp
    refine ⟨setProc_ne _ _ _ _ hne, fun p => ⟨id, ?_⟩⟩
    refine Step.loc' (p := p') ht ?_ ?_ rfl
    · show LStep (setProc c.proc t p t') p'
      rw [setProc_ne _ _ _ _ hne.symm]; exact hp
    · exact setProc_comm _ _ _ _ _ hne.symm
  | @depart _ q t' a n r hq ht hne h =>
    have hqt : t ≠ q := by rintro rfl; rw [(hi.2 t').2] at h; cases h
    refine ⟨setProc_ne _ _ _ _ hqt, fun p => ⟨?_, ?_⟩⟩
    · rintro ⟨h1, h2⟩
      have : t' ≠ t := by rintro rfl; exact h2 (hi.2 q).1
      refine ⟨h1, ?_⟩
      show (setProc c.proc t p t').recvs q ≠ []
      rw [setProc_ne _ _ _ _ this]; exact h2
    · refine Step.depart' (a := a) (n := n) (r := r) hq ht hne ?_ ?_ ?_
      · show (setProc c.proc t p q).sends t' = _
        rw [setProc_ne _ _ _ _ hqt.symm]; exact h
      · show setProc (setProc c.proc q _) t p = setProc (setProc c.proc t p) q _
        rw [show (⟨setProc c.proc t p, c.chan⟩ : State X).proc q = c.proc q from setProc_ne _ _ _ _ hqt.symm]
        exact setProc_comm _ _ _ _ _ hqt.symm
      · rw [show (⟨setProc c.proc t p, c.chan⟩ : State X).proc q = c.proc q from setProc_ne _ _ _ _ hqt.symm]
  | @arrive _ q t' a n r msg ms hq ht hne h g hn =>
    have hqt : t ≠ t' := by rintro rfl; rw [(hi.2 q).1] at g; cases g
    refine ⟨setProc_ne _ _ _ _ hqt, fun p => ⟨id, ?_⟩⟩
    subst hn
    refine Step.arrive' (a := a) (r := r) (msg := msg) (ms := ms) hq ht hne h ?_ ?_ rfl
    · show (setProc c.proc t p t').recvs q = _
      rw [setProc_ne _ _ _ _ hqt.symm]; exact g
    · rw [show (⟨setProc c.proc t p, c.chan⟩ : State X).proc t' = c.proc t' from setProc_ne _ _ _ _ hqt.symm]
      exact setProc_comm _ _ _ _ _ hqt.symm

/-! ## Determinism -/

theorem UStep.det {prog : Nat → Nat → List Instr} {t : Nat} {ps ps1 ps2 : Nat → Proc X} {c c1 c2 : List (Call X)}
    {H H1 H2 : Hist X} (h1 : UStep prog t ps c H ps1 c1 H1) (h2 : UStep prog t ps c H ps2 c2 H2) :
    ps1 = ps2 ∧ c1 = c2 ∧ H1 = H2 := by
  cases h1 <;> cases h2 <;> exact ⟨rfl, rfl, rfl⟩

theorem MStep.det {N : Nat} {prog : Nat → Nat → List Instr} {b b' : Bool} {l : MLab} {s s1 s2 : MState X}
    (h1 : MStep N prog b l s s1) (h2 : MStep N prog b' l s s2) : s1 = s2 := by
  cases h1 with
  | user _ h =>
    cases h2 with
    | user _ h' =>
      obtain ⟨e1, e2, e3⟩ := h.det h'
      rw [e1, e2, e3]
  | core h _ =>
    cases h2 with
    | core h' _ => rw [h.det h']

/-! ## Buffers of pending messages -/

/-- `Sep` for all requests and processes. -/
def Sep' (s : MState X) : Prop := ∀ h t, Sep ((s.core h).proc t)

omit [Add X] in
theorem sep_empty (r : List Instr) (m : Mem X) : Sep (⟨r, m, fun _ => [], fun _ => []⟩ : Proc X) :=
  ⟨fun _ _ _ _ h => absurd h List.not_mem_nil, fun _ _ _ _ _ h => absurd h List.not_mem_nil⟩

theorem MStep.sep {N : Nat} {prog : Nat → Nat → List Instr} {b : Bool} {l : MLab} {s s1 : MState X}
    (hs : Sep' s) (h : MStep N prog b l s s1) : Sep' s1 := by
  intro h' k
  cases h with
  | @user _ t ps r H ht hu =>
    show Sep (setProc (s.core h').proc t (ps h') k)
    by_cases hk : k = t
    · rw [hk, setProc_same]
      generalize hc : s.calls t = c at hu
      cases hu with
      | @start h0 fill _ _ hi =>
        by_cases e : h' = h0
        · rw [e, put_same]; exact sep_empty _ _
        · rw [put_ne _ _ _ _ e]; exact hs h' t
      | done _ => exact hs h' t
    · rw [setProc_ne _ _ _ _ hk]; exact hs h' k
  | @core _ h0 l c hst _ =>
    show Sep ((put s.core h0 c h').proc k)
    by_cases e : h' = h0
    · rw [e, put_same]; exact hst.sep (hs h0) k
    · rw [put_ne _ _ _ _ e]; exact hs h' k

/-! ## Steps commute -/

theorem ustep_core {N : Nat} {prog : Nat → Nat → List Instr} {t h : Nat} {l : Lab} {c c1 : State X}
    {ps ps' : Nat → Proc X} {cl r : List (Call X)} {H H' : Hist X} (hu : UStep prog t ps cl H ps' r H')
    (hst : Step N l c c1) (hp : ps h = c.proc t) :
    (∃ ps1, UStep prog t (put ps h (c1.proc t)) cl H ps1 r H' ∧ (∀ k, k ≠ h → ps1 k = ps' k) ∧
      Step N l ⟨setProc c.proc t (ps' h), c.chan⟩ ⟨setProc c1.proc t (ps1 h), c1.chan⟩) ∧
    (Unbuffered l c → Unbuffered l ⟨setProc c.proc t (ps' h), c.chan⟩) ∧
    ∀ r, l = .loc t → cl ≠ .wait h :: r := by
  cases hu with
  | @start h0 fill _ _ hi =>
    by_cases e : h = h0
    · subst h0
      rw [hp] at hi
      obtain ⟨e1, e2⟩ := step_frame hst hi
      rw [e1, ← hp, put_self]
      refine ⟨⟨_, .start (by rw [hp]; exact hi), fun _ _ => rfl, (e2 _).2⟩, (e2 _).1, fun _ _ e => by cases e⟩
    · have e0 : put ps h (c1.proc t) h0 = ps h0 := put_ne _ _ _ _ (fun g => e g.symm)
      refine ⟨⟨put (put ps h (c1.proc t)) h0 ⟨prog h0 t, fill H (ps h0).mem, fun _ => [], fun _ => []⟩, ?_, ?_, ?_⟩, ?_,
        fun _ _ e => by cases e⟩
      · have := UStep.start (prog := prog) (t := t) (ps := put ps h (c1.proc t)) (h := h0) (fill := fill) (r := r)
          (H := H) (by rw [e0]; exact hi)
        rw [e0] at this
        exact this
      · intro k hk
        by_cases e1 : k = h0
        · rw [e1, put_same, put_same]
        · rw [put_ne _ _ _ _ e1, put_ne _ _ _ _ hk, put_ne _ _ _ _ e1]
      · rw [put_ne _ _ _ _ e, put_ne _ _ _ _ e, put_same, hp, setProc_self, setProc_self]; exact hst
      · rw [put_ne _ _ _ _ e, hp, setProc_self]; exact id
  | @done h0 _ _ hi =>
    have e0 : put ps h (c1.proc t) h0 = ps h0 := by
      by_cases e : h0 = h
      · subst e; rw [put_same, hp]; exact (step_frame hst (by rw [← hp]; exact hi)).1
      · exact put_ne _ _ _ _ e
    refine ⟨⟨put ps h (c1.proc t), ?_, fun k hk => put_ne _ _ _ _ hk, ?_⟩, ?_, ?_⟩
    · have := UStep.done (prog := prog) (t := t) (ps := put ps h (c1.proc t)) (h := h0) (r := r) (H := H)
        (by rw [e0]; exact hi)
      rw [e0] at this
      exact this
    · rw [put_same, hp, setProc_self, setProc_self]; exact hst
    · rw [hp, setProc_self]; exact id
    · intro r' e e'
      cases e'
      subst e
      cases hst with
      | loc _ hl => exact idle_lstep (by rw [hp] at hi; exact hi) hl

theorem mdiamond_user_core {N : Nat} {prog : Nat → Nat → List Instr} {b b' : Bool} {t h : Nat} {l : Lab}
    {s s1 s2 : MState X} (h1 : MStep N prog b (.user t) s s1) (h2 : MStep N prog b' (.core h l) s s2) :
    (∃ s', MStep N prog b' (.core h l) s1 s' ∧ MStep N prog b (.user t) s2 s') ∧
    (Unbuffered l (s.core h) → Unbuffered l (s1.core h)) := by
  cases h1 with
  | @user _ _ ps r H ht hu =>
    cases h2 with
    | @core _ _ _ c hst hm =>
      obtain ⟨⟨ps1, hu1, hk, hst1⟩, hub, hw⟩ := ustep_core (h := h) hu hst rfl
      refine ⟨⟨⟨put (fun h => ⟨setProc (s.core h).proc t (ps h), (s.core h).chan⟩) h
        ⟨setProc c.proc t (ps1 h), c.chan⟩, put s.calls t r, put s.hist t H⟩, .core hst1 ?_, ?_⟩, hub⟩
      · intro t' e
        rcases hm t' e with e1 | ⟨r', e1⟩
        · exact .inl e1
        · by_cases et : t' = t
          · subst et; exact absurd e1 (hw r' e)
          · exact .inr ⟨r', by show put s.calls t r t' = _; rw [put_ne _ _ _ _ et]; exact e1⟩
      · have e1 : (fun k => ((put s.core h c) k).proc t) = put (fun k => (s.core k).proc t) h (c.proc t) := by
          funext k
          by_cases e : k = h
          · rw [e, put_same, put_same]
          · rw [put_ne _ _ _ _ e, put_ne _ _ _ _ e]
        have e2 : put (fun h => (⟨setProc (s.core h).proc t (ps h), (s.core h).chan⟩ : State X)) h
            ⟨setProc c.proc t (ps1 h), c.chan⟩ =
            fun k => ⟨setProc (put s.core h c k).proc t (ps1 k), (put s.core h c k).chan⟩ := by
          funext k
          by_cases e : k = h
          · rw [e, put_same, put_same]
          · rw [put_ne _ _ _ _ e, put_ne _ _ _ _ e, hk k e]
        rw [e2]
        exact MStep.user (s := ⟨put s.core h c, s.calls, s.hist⟩) ht (by dsimp only; rw [e1]; exact hu1)

theorem mdiamond_user_user {N : Nat} {prog : Nat → Nat → List Instr} {b b' : Bool} {t t' : Nat}
    {s s1 s2 : MState X} (hne : t ≠ t') (h1 : MStep N prog b (.user t) s s1) (h2 : MStep N prog b' (.user t') s s2) :
    ∃ s', MStep N prog b' (.user t') s1 s' ∧ MStep N prog b (.user t) s2 s' := by
  cases h1 with
  | @user _ _ ps r H ht hu =>
    cases h2 with
    | @user _ _ ps' r' H' ht' hu' =>
      refine ⟨⟨fun h => ⟨setProc (setProc (s.core h).proc t (ps h)) t' (ps' h), (s.core h).chan⟩,
        put (put s.calls t r) t' r', put (put s.hist t H) t' H'⟩, ?_, ?_⟩
      · refine MStep.user (s := ⟨fun h => ⟨setProc (s.core h).proc t (ps h), (s.core h).chan⟩, put s.calls t r,
          put s.hist t H⟩) ht' ?_
        dsimp only
        rw [put_ne _ _ _ _ hne.symm, put_ne _ _ _ _ hne.symm,
          show (fun h => setProc (s.core h).proc t (ps h) t') = fun h => (s.core h).proc t' from
            funext fun h => setProc_ne _ _ _ _ hne.symm]
        exact hu'
      · rw [put_comm _ _ _ _ _ hne, put_comm _ _ _ _ _ hne,
          show (fun h => (⟨setProc (setProc (s.core h).proc t (ps h)) t' (ps' h), (s.core h).chan⟩ : State X)) =
            fun h => ⟨setProc (setProc (s.core h).proc t' (ps' h)) t (ps h), (s.core h).chan⟩ from
            funext fun h => by rw [setProc_comm _ _ _ _ _ hne]]
        refine MStep.user (s := ⟨fun h => ⟨setProc (s.core h).proc t' (ps' h), (s.core h).chan⟩, put s.calls t' r',
          put s.hist t' H'⟩) ht ?_
        dsimp only
        rw [put_ne _ _ _ _ hne, put_ne _ _ _ _ hne,
          show (fun h => setProc (s.core h).proc t' (ps' h) t) = fun h => (s.core h).proc t from
            funext fun h => setProc_ne _ _ _ _ hne]
        exact hu

theorem mdiamond_core_core {N : Nat} {prog : Nat → Nat → List Instr} {b b' : Bool} {h h' : Nat} {l l' : Lab}
    {s s1 s2 : MState X} (hs : Sep' s) (hne : MLab.core h l ≠ MLab.core h' l')
    (h1 : MStep N prog b (.core h l) s s1) (h2 : MStep N prog b' (.core h' l') s s2) :
    ∃ s', MStep N prog b' (.core h' l') s1 s' ∧ MStep N prog b (.core h l) s2 s' := by
  cases h1 with
  | @core _ _ _ c hst hm =>
    cases h2 with
    | @core _ _ _ c' hst' hm' =>
      by_cases e : h = h'
      · subst e
        obtain ⟨d, hd1, hd2⟩ := diamond (hs h) (fun e => hne (by rw [e])) hst hst'
        refine ⟨⟨put s.core h d, s.calls, s.hist⟩, ?_, ?_⟩
        · have := MStep.core (prog := prog) (test := b') (s := ⟨put s.core h c, s.calls, s.hist⟩) (h := h) (l := l')
            (c := d) (by dsimp only; rw [put_same]; exact hd1) hm'
          dsimp only at this
          rw [put_put] at this
          exact this
        · have := MStep.core (prog := prog) (test := b) (s := ⟨put s.core h c', s.calls, s.hist⟩) (h := h) (l := l)
            (c := d) (by dsimp only; rw [put_same]; exact hd2) hm
          dsimp only at this
          rw [put_put] at this
          exact this
      · refine ⟨⟨put (put s.core h c) h' c', s.calls, s.hist⟩, ?_, ?_⟩
        · exact MStep.core (s := ⟨put s.core h c, s.calls, s.hist⟩)
            (by dsimp only; rw [put_ne _ _ _ _ (fun g => e g.symm)]; exact hst') hm'
        · rw [put_comm _ _ _ _ _ e]
          exact MStep.core (s := ⟨put s.core h' c', s.calls, s.hist⟩)
            (by dsimp only; rw [put_ne _ _ _ _ e]; exact hst) hm

theorem mdiamond {N : Nat} {prog : Nat → Nat → List Instr} {b b' : Bool} {l l' : MLab}
    {s s1 s2 : MState X} (hs : Sep' s) (hne : l ≠ l')
    (h1 : MStep N prog b l s s1) (h2 : MStep N prog b' l' s s2) :
    ∃ s', MStep N prog b' l' s1 s' ∧ MStep N prog b l s2 s' := by
  cases l with
  | user t =>
    cases l' with
    | user t' => exact mdiamond_user_user (fun e => hne (by rw [e])) h1 h2
    | core h' l' => exact (mdiamond_user_core h1 h2).1
  | core h l =>
    cases l' with
    | user t' =>
      obtain ⟨s', g1, g2⟩ := (mdiamond_user_core h2 h1).1
      exact ⟨s', g2, g1⟩
    | core h' l' => exact mdiamond_core_core hs hne h1 h2

theorem munbuffered_other {N : Nat} {prog : Nat → Nat → List Instr} {b b' : Bool} {l l' : MLab} {s s1 s2 : MState X}
    (hne : l ≠ l') (hu : MUnbuffered l s) (h0 : MStep N prog b l s s1) (h : MStep N prog b' l' s s2) :
    MUnbuffered l s2 := by
  cases l with
  | user _ => exact trivial
  | core k l =>
    cases l' with
    | user t' => exact (mdiamond_user_core h h0).2 hu
    | core k' l' =>
      cases h with
      | @core _ _ _ c hst hm =>
        show Unbuffered l (put s.core k' c k)
        by_cases e : k = k'
        · subst e; rw [put_same]; exact unbuffered_other (fun e => hne (by rw [e])) hu hst
        · rw [put_ne _ _ _ _ e]; exact hu

/-! ## Runs -/

/-- Executions without buffering, and without calls of `MPI_Test` if `test` is not set. -/
inductive MRun (N : Nat) (prog : Nat → Nat → List Instr) (test : Bool) : Nat → MState X → MState X → Prop
  | refl {s} : MRun N prog test 0 s s
  | step {k l s s1 s2} : MUnbuffered l s → MStep N prog test l s s1 → MRun N prog test k s1 s2 →
      MRun N prog test (k + 1) s s2

theorem MRun.trans {N j k : Nat} {prog : Nat → Nat → List Instr} {b : Bool} {s s1 s2 : MState X} (h1 : MRun N prog b j s s1)
    (h2 : MRun N prog b k s1 s2) : MRun N prog b (j + k) s s2 := by
  induction h1 with
  | refl => rw [Nat.zero_add]; exact h2
  | step hu hs _ ih => rw [Nat.add_right_comm]; exact .step hu hs (ih h2)

theorem MRun.after {N n : Nat} {prog : Nat → Nat → List Instr} {b : Bool} {s e : MState X} (h : MRun N prog b n s e) (hs : Sep' s)
    (he : ∀ l s', ¬MStep N prog true l e s') {l : MLab} {s' : MState X} (hl : MStep N prog true l s s') :
    ∃ k, n = k + 1 ∧ MRun N prog b k s' e := by
  induction h generalizing l s' with
  | refl => exact absurd hl (he l s')
  | @step k l0 s s1 s2 hu h0 hr ih =>
    by_cases hl0 : l0 = l
    · subst hl0
      exact ⟨k, rfl, by rw [← h0.det hl]; exact hr⟩
    · obtain ⟨s3, h3, h4⟩ := mdiamond hs hl0 h0 hl
      obtain ⟨j, hj, hr'⟩ := ih (h0.sep hs) he h3
      exact ⟨j + 1, by omega, .step (munbuffered_other hl0 hu h0 hl) h4 hr'⟩

theorem UStep.prefix {prog : Nat → Nat → List Instr} {t : Nat} {ps ps' : Nat → Proc X} {c c' : List (Call X)}
    {H H' : Hist X} (h : UStep prog t ps c H ps' c' H') : H <+: H' := by
  cases h
  · exact List.prefix_rfl
  · exact List.prefix_append _ _

theorem MStep.prefix {N : Nat} {prog : Nat → Nat → List Instr} {b : Bool} {l : MLab} {s s1 : MState X}
    (h : MStep N prog b l s s1) (t : Nat) : s.hist t <+: s1.hist t := by
  cases h with
  | @user _ t' _ _ H ht hu =>
    show s.hist t <+: put s.hist t' H t
    by_cases e : t = t'
    · rw [e, put_same]; exact hu.prefix
    · rw [put_ne _ _ _ _ e]
  | core _ _ => exact List.prefix_rfl

theorem MRun.prefix {N n : Nat} {prog : Nat → Nat → List Instr} {b : Bool} {s e : MState X} (h : MRun N prog b n s e) (t : Nat) :
    s.hist t <+: e.hist t := by
  induction h with
  | refl => exact List.prefix_rfl
  | step _ h0 _ ih => exact (h0.prefix t).trans ih

/-- A single execution without buffering shows what every execution gets. -/
theorem gets_of_run {N n : Nat} {prog : Nat → Nat → List Instr} {b : Bool} {s0 e : MState X} (h : MRun N prog b n s0 e)
    (hs : Sep' s0) (he : ∀ t, t < N → e.calls t = []) (hf : ∀ k, Final N (e.core k)) : Gets N prog b s0 e.hist := by
  have hstuck : ∀ l s', ¬MStep N prog true l e s' := by
    intro l s' hl
    cases hl with
    | @user _ t _ _ _ ht hu =>
      rw [he t ht] at hu
      cases hu
    | @core _ k l c hst _ => exact (hf k).stuck l c hst
  have key : ∀ k s s', MSteps N prog true k s s' → ∀ n, MRun N prog b n s e → Sep' s →
      ∃ j, n = k + j ∧ MRun N prog b j s' e := by
    intro k s s' hk
    induction hk with
    | refl => exact fun n hn _ => ⟨n, by omega, hn⟩
    | step hl _ ih =>
      intro n hn hsep
      obtain ⟨j, hj, hr⟩ := hn.after hsep hstuck hl
      obtain ⟨i, hi, hr'⟩ := ih j hr (hl.sep hsep)
      exact ⟨i, by omega, hr'⟩
  refine ⟨n, fun k s hk => ?_⟩
  obtain ⟨j, hj, hr⟩ := key k s0 s hk n h hs
  refine ⟨by omega, fun t _ => hr.prefix t, ?_⟩
  cases hr with
  | refl => exact .inl fun t ht => ⟨he t ht, rfl⟩
  | step hu h0 _ => exact .inr ⟨_, _, hu, h0⟩

end ExtMpi.Requests
