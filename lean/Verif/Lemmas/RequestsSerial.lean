import Verif.Lemmas.RequestsRun
/-! # One execution that performs the operations one at a time -/
namespace ExtMpi.Requests
open RawCode

variable {X : Type} [Add X]

/-- Executions that MPI can perform without buffering. -/
inductive ERun (N : Nat) : Nat → State X → State X → Prop
  | refl {s} : ERun N 0 s s
  | step {k l s s1 s2} : Unbuffered l s → Step N l s s1 → ERun N k s1 s2 → ERun N (k + 1) s s2

theorem ERun.steps {N n : Nat} {s e : State X} (h : ERun N n s e) : Steps N n s e := by
  induction h with
  | refl => exact .refl
  | step _ h0 _ ih => exact .step h0 ih

theorem ERun.trans {N j k : Nat} {s s1 s2 : State X} (h1 : ERun N j s s1) (h2 : ERun N k s1 s2) : ERun N (j + k) s s2 := by
  induction h1 with
  | refl => rw [Nat.zero_add]; exact h2
  | step hu hs _ ih => rw [Nat.add_right_comm]; exact .step hu hs (ih h2)

/-- Correct programs have an execution without buffering that ends well. -/
theorem run_of_correct {N : Nat} {prog : Nat → List Instr} {m : Nat → Mem X} {post : (Nat → Mem X) → Prop}
    (h : Correct N prog m post) :
    ∃ n e, ERun N n (initial prog m) e ∧ Final N e ∧ post fun t => (e.proc t).mem := by
  obtain ⟨bound, hb⟩ := h
  have key : ∀ d k s, ERun N k (initial prog m) s → bound < k + d →
      ∃ n e, ERun N n (initial prog m) e ∧ Final N e ∧ post fun t => (e.proc t).mem := by
    intro d
    induction d with
    | zero =>
      intro k s hs hk
      have := (hb k s (ERun.steps hs)).1
      omega
    | succ d ih =>
      intro k s hs hk
      rcases (hb k s (ERun.steps hs)).2.2 with ⟨h1, h2⟩ | ⟨l, s', hu, hst⟩
      · exact ⟨k, s, hs, h1, h2⟩
      · exact ih (k + 1) s' (hs.trans (.step hu hst .refl)) (by omega)
  exact key (bound + 1) 0 _ .refl (by omega)

/-! ## Processes outside -/

/-- The same for the first `N` processes, `P` for the others. -/
def cut (N : Nat) (P : Nat → Proc X) (s : State X) : State X :=
  ⟨fun t => if t < N then s.proc t else P t, fun q t => if q < N ∧ t < N then s.chan q t else []⟩

omit [Add X] in
theorem cut_setProc {N t : Nat} (P : Nat → Proc X) (f : Nat → Proc X) (p : Proc X) (ht : t < N) :
    (fun k => if k < N then setProc f t p k else P k) = setProc (fun k => if k < N then f k else P k) t p := by
  funext k
  unfold setProc
  by_cases h : k = t
  · subst h; simp [ht]
  · simp [h]

omit [Add X] in
theorem cut_setChan {N q t : Nat} (f : Nat → Nat → List (List X)) (c : List (List X)) (hq : q < N) (ht : t < N) :
    (fun k l => if k < N ∧ l < N then setChan f q t c k l else []) =
      setChan (fun k l => if k < N ∧ l < N then f k l else []) q t c := by
  funext k l
  unfold setChan
  by_cases h : k = q ∧ l = t
  · rw [if_pos h, if_pos h, if_pos ⟨by omega, by omega⟩]
  · rw [if_neg h, if_neg h]

theorem step_cut {N : Nat} {l : Lab} {s s1 : State X} (P : Nat → Proc X) (h : Step N l s s1) :
    Step N l (cut N P s) (cut N P s1) ∧ (Unbuffered l s → Unbuffered l (cut N P s)) := by
  cases h with
  | @loc _ t p ht hp =>
    refine ⟨Step.loc' (p := p) ht ?_ (cut_setProc _ _ _ ht) rfl, id⟩
    show LStep (if t < N then s.proc t else P t) p
    rw [if_pos ht]; exact hp
  | @depart _ q t a n r hq ht hne h =>
    have eq : (cut N P s).proc q = s.proc q := if_pos hq
    refine ⟨Step.depart' (a := a) (n := n) (r := r) hq ht hne (by rw [eq]; exact h) ?_ ?_, ?_⟩
    · rw [eq]; exact cut_setProc _ _ _ hq
    · rw [eq, show (cut N P s).chan q t = s.chan q t from if_pos ⟨hq, ht⟩]
      exact cut_setChan _ _ hq ht
    · rintro ⟨h1, h2⟩
      refine ⟨?_, ?_⟩
      · show (if q < N ∧ t < N then s.chan q t else []) = []
        rw [if_pos ⟨hq, ht⟩]; exact h1
      · show (if t < N then s.proc t else P t).recvs q ≠ []
        rw [if_pos ht]; exact h2
  | @arrive _ q t a n r msg ms hq ht hne h g hn =>
    subst hn
    have et : (cut N P s).proc t = s.proc t := if_pos ht
    refine ⟨Step.arrive' (a := a) (r := r) (msg := msg) (ms := ms) hq ht hne ?_ (by rw [et]; exact g) ?_ ?_, id⟩
    · rw [show (cut N P s).chan q t = s.chan q t from if_pos ⟨hq, ht⟩]; exact h
    · rw [et]; exact cut_setProc _ _ _ ht
    · exact cut_setChan _ _ hq ht

theorem erun_cut {N n : Nat} {s e : State X} (P : Nat → Proc X) (h : ERun N n s e) :
    ERun N n (cut N P s) (cut N P e) := by
  induction h with
  | refl => exact .refl
  | step hu h0 _ ih => exact .step ((step_cut P h0).2 hu) (step_cut P h0).1 ih

/-! ## The operations of all processes one after the other -/

/-- The execution of a request is at a point where all processes have the programs `rest` in front of them. -/
def Rest (N : Nat) (rest : Nat → List Instr) (M : Nat → Mem X) (c : State X) : Prop :=
  (∀ t, t < N → c.proc t = ⟨rest t, M t, fun _ => [], fun _ => []⟩) ∧ c.chan = fun _ _ => []

/-- From the begin of the programs to their end. -/
theorem rest_run {N : Nat} {prog : Nat → List Instr} {M : Nat → Mem X} {post : (Nat → Mem X) → Prop} {c : State X}
    (hc : ∃ pr, (∀ t, t < N → pr t = prog t) ∧ Correct N pr M post) (h : Rest N prog M c) :
    ∃ n c' R, ERun N n c c' ∧ Rest N (fun _ => []) R c' ∧ post R := by
  obtain ⟨pr, hpr, hcor⟩ := hc
  obtain ⟨n, e, hr, hf, hp⟩ := run_of_correct hcor
  have e1 : cut N c.proc (initial pr M) = c := by
    obtain ⟨h1, h2⟩ := h
    cases c with
    | mk cp cc =>
      dsimp only at h1 h2
      subst h2
      unfold cut initial
      congr 1
      · funext t
        split
        · next ht => dsimp only; rw [h1 t ht, hpr t ht]
        · rfl
      · funext q t; split <;> rfl
  have hr' := erun_cut c.proc hr
  rw [e1] at hr'
  refine ⟨n, _, _, hr', ⟨fun t ht => ?_, ?_⟩, hp⟩
  · show (if t < N then e.proc t else c.proc t) = _
    rw [if_pos ht]
    obtain ⟨f1, f2⟩ := hf t ht
    have e2 : (e.proc t).recvs = fun _ => [] := funext fun q => (f2 q).1
    have e3 : (e.proc t).sends = fun _ => [] := funext fun q => (f2 q).2.1
    generalize e.proc t = p at f1 e2 e3
    cases p
    dsimp only at f1 e2 e3 ⊢
    rw [f1, e2, e3]
  · funext q t
    show (if q < N ∧ t < N then e.chan q t else []) = []
    split
    · next h => exact ((hf t h.2).2 q).2.2.1
    · rfl

/-- The steps of one request while all processes wait for it or test it. -/
theorem run_core {N n : Nat} {prog : Nat → Nat → List Instr} {b : Bool} {h : Nat} {c c' : State X} (hr : ERun N n c c')
    (s : MState X) (hc : s.core h = c) (hw : ∀ t, t < N → b = true ∨ ∃ r, s.calls t = .wait h :: r) :
    MRun N prog b n s ⟨put s.core h c', s.calls, s.hist⟩ := by
  induction hr generalizing s with
  | @refl c =>
    rw [← hc, put_self]; exact .refl
  | @step k l c c1 c2 hu h0 _ ih =>
    subst hc
    refine .step (l := .core h l) (s1 := ⟨put s.core h c1, s.calls, s.hist⟩) hu (.core h0 ?_) ?_
    · intro t e
      subst e
      cases h0 with
      | loc ht _ => exact hw t ht
    · have := ih ⟨put s.core h c1, s.calls, s.hist⟩ (put_same _ _ _) hw
      dsimp only at this
      rw [put_put] at this
      exact this

/-- All processes begin or end a call. -/
theorem all_user {N : Nat} {prog : Nat → Nat → List Instr} {b : Bool} (s : MState X) (ps : Nat → Nat → Proc X)
    (cl : Nat → List (Call X)) (H : Nat → Hist X)
    (hu : ∀ t, t < N → UStep prog t (fun h => (s.core h).proc t) (s.calls t) (s.hist t) (ps t) (cl t) (H t)) :
    ∀ k, k ≤ N → MRun N prog b k s
      ⟨fun h => ⟨fun t => if t < k then ps t h else (s.core h).proc t, (s.core h).chan⟩,
        fun t => if t < k then cl t else s.calls t, fun t => if t < k then H t else s.hist t⟩ := by
  intro k
  induction k with
  | zero => intro _; exact .refl
  | succ k ih =>
    intro hk
    refine (ih (by omega)).trans (.step (l := .user k) trivial ?_ .refl)
    have hd : ∀ {A : Type} (f g : Nat → A), (fun t => if t < k + 1 then f t else g t) =
        put (fun t => if t < k then f t else g t) k (f k) := by
      intro A f g
      funext t
      unfold put
      by_cases h1 : t = k
      · subst h1; simp
      · have : t < k + 1 ↔ t < k := by omega
        simp [h1, this]
    have hd' : ∀ (f g : Nat → Proc X), (fun t => if t < k + 1 then f t else g t) =
        setProc (fun t => if t < k then f t else g t) k (f k) := fun f g => hd f g
    rw [hd, hd]
    simp only [hd']
    refine MStep.user (s := ⟨fun h => ⟨fun t => if t < k then ps t h else (s.core h).proc t, (s.core h).chan⟩,
        fun t => if t < k then cl t else s.calls t, fun t => if t < k then H t else s.hist t⟩) (by omega) ?_
    dsimp only
    rw [if_neg (by omega), if_neg (by omega)]
    simp only [Nat.lt_irrefl, if_false]
    exact hu k (by omega)

/-- All processes are before the same call. -/
structure Before (N : Nat) (prog : Nat → Nat → List Instr) (s : MState X) (A : Nat → Bool) (M : Nat → Nat → Mem X)
    (H : Nat → Hist X) (cl : List (GCall X)) : Prop where
  core : ∀ h, Rest N (fun t => if A h then prog h t else []) (M h) (s.core h)
  user : ∀ t, t < N → s.calls t = cl.map (GCall.at t) ∧ s.hist t = H t

omit [Add X] in
theorem rest_idle {N : Nat} {M : Nat → Mem X} {c : State X} (h : Rest N (fun _ => []) M c) {t : Nat} (ht : t < N) :
    Idle (c.proc t) := by
  rw [h.1 t ht]
  exact ⟨rfl, fun _ => ⟨rfl, rfl⟩⟩

theorem before_start {N : Nat} {prog : Nat → Nat → List Instr} {s : MState X} {A : Nat → Bool}
    {M : Nat → Nat → Mem X} {H : Nat → Hist X} {h : Nat} {fill : Nat → Hist X → Mem X → Mem X} {r : List (GCall X)}
    (hb : Before N prog s A M H (.start h fill :: r)) (ha : A h = false) :
    ∃ s', MRun N prog false N s s' ∧ Before N prog s' (put A h true) (put M h fun t => fill t (H t) (M h t)) H r := by
  have hu : ∀ t, t < N → UStep prog t (fun h => (s.core h).proc t) (s.calls t) (s.hist t)
      (put (fun h => (s.core h).proc t) h ⟨prog h t, fill t (H t) (M h t), fun _ => [], fun _ => []⟩)
      (r.map (GCall.at t)) (H t) := by
    intro t ht
    rw [(hb.user t ht).1, (hb.user t ht).2]
    have hrest := hb.core h
    simp only [ha, Bool.false_eq_true, if_false] at hrest
    have := UStep.start (prog := prog) (t := t) (ps := fun h => (s.core h).proc t) (h := h) (fill := fill t)
      (r := r.map (GCall.at t)) (H := H t) (rest_idle hrest ht)
    rw [show ((s.core h).proc t).mem = M h t by rw [hrest.1 t ht]] at this
    exact this
  refine ⟨_, all_user s _ _ _ hu N (Nat.le_refl _), fun k => ⟨fun t ht => ?_, (hb.core k).2⟩, fun t ht => ?_⟩
  · dsimp only
    rw [if_pos ht]
    by_cases e : k = h
    · rw [e, put_same, put_same, put_same]; rfl
    · rw [put_ne _ _ _ _ e, put_ne _ _ _ _ e, put_ne _ _ _ _ e]; exact (hb.core k).1 t ht
  · dsimp only
    rw [if_pos ht, if_pos ht]
    exact ⟨rfl, rfl⟩

theorem before_wait {N : Nat} {prog : Nat → Nat → List Instr} {s : MState X} {A : Nat → Bool}
    {M : Nat → Nat → Mem X} {H : Nat → Hist X} {h : Nat} {r : List (GCall X)}
    {post : (Nat → Mem X) → Prop}
    (hc : ∃ pr, (∀ t, t < N → pr t = prog h t) ∧ Correct N pr (M h) post)
    (hb : Before N prog s A M H (.wait h :: r)) (ha : A h = true) :
    ∃ n s' R, MRun N prog false n s s' ∧ post R ∧
      Before N prog s' (put A h false) (put M h R) (fun t => H t ++ [(h, R t)]) r := by
  have hrest := hb.core h
  simp only [ha, if_true] at hrest
  obtain ⟨n, c', R, hr, hc', hp⟩ := rest_run hc hrest
  have hrun := run_core (prog := prog) (b := false) hr s rfl fun t ht => .inr ⟨_, (hb.user t ht).1⟩
  have hu : ∀ t, t < N → UStep prog t (fun k => (put s.core h c' k).proc t) (s.calls t) (s.hist t)
      (fun k => (put s.core h c' k).proc t) (r.map (GCall.at t)) (H t ++ [(h, R t)]) := by
    intro t ht
    rw [(hb.user t ht).1, (hb.user t ht).2]
    have := UStep.done (prog := prog) (t := t) (ps := fun k => (put s.core h c' k).proc t) (h := h)
      (r := r.map (GCall.at t)) (H := H t) (by rw [put_same]; exact rest_idle hc' ht)
    rw [show ((put s.core h c' h).proc t).mem = R t by rw [put_same, hc'.1 t ht]] at this
    exact this
  refine ⟨_, _, R, hrun.trans (all_user ⟨put s.core h c', s.calls, s.hist⟩ _ _ _ hu N (Nat.le_refl _)), hp,
    fun k => ⟨fun t ht => ?_, ?_⟩, fun t ht => ?_⟩
  · dsimp only
    rw [if_pos ht]
    by_cases e : k = h
    · rw [e, put_same, put_same, put_same]; exact hc'.1 t ht
    · rw [put_ne _ _ _ _ e, put_ne _ _ _ _ e, put_ne _ _ _ _ e]; exact (hb.core k).1 t ht
  · dsimp only
    by_cases e : k = h
    · rw [e, put_same]; exact hc'.2
    · rw [put_ne _ _ _ _ e]; exact (hb.core k).2
  · dsimp only
    rw [if_pos ht, if_pos ht]
    exact ⟨rfl, rfl⟩

/-- One execution of all calls. -/
theorem serial_run {N : Nat} {prog : Nat → Nat → List Instr}
    {post : Nat → (Nat → Mem X) → (Nat → Mem X) → Prop}
    (hc : ∀ h m, ∃ pr, (∀ t, t < N → pr t = prog h t) ∧ Correct N pr m (post h m))
    (cl : List (GCall X)) (s : MState X) (A : Nat → Bool) (M : Nat → Nat → Mem X) (H : Nat → Hist X)
    (ho : Ordered A cl) (hb : Before N prog s A M H cl) :
    ∃ n e H', Serial post cl M H H' ∧ MRun N prog false n s e ∧ (∀ t, t < N → e.calls t = [] ∧ e.hist t = H' t) ∧
      ∀ k, Final N (e.core k) := by
  induction cl generalizing s A M H with
  | nil =>
    refine ⟨0, s, H, .nil, .refl, hb.user, fun k t ht => ?_⟩
    have hr := hb.core k
    have ha : A k = false := ho k
    simp only [ha, Bool.false_eq_true, if_false] at hr
    rw [hr.1 t ht, hr.2]
    exact ⟨rfl, fun _ => ⟨rfl, rfl, rfl, rfl⟩⟩
  | cons c r ih =>
    cases c with
    | start h fill =>
      obtain ⟨s', hr, hb'⟩ := before_start hb ho.1
      obtain ⟨n, e, H', h1, h2, h3, h4⟩ := ih s' _ _ _ ho.2 hb'
      exact ⟨_, e, H', .start h1, hr.trans h2, h3, h4⟩
    | wait h =>
      obtain ⟨k, s', R, hr, hp, hb'⟩ := before_wait (hc h (M h)) hb ho.1
      obtain ⟨n, e, H', h1, h2, h3, h4⟩ := ih s' _ _ _ ho.2 hb'
      exact ⟨_, e, H', .wait hp h1, hr.trans h2, h3, h4⟩

end ExtMpi.Requests
