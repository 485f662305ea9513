import Verif.Spec.RawCode
/-! Executions of given programs by computation, to refute `Correct`. -/
namespace ExtMpi.RawCode
variable {X : Type} [Add X]

instance (a : Addr) (n : Nat) (b : Addr) (m : Nat) : Decidable (overlap a n b m) := by unfold overlap; infer_instance

/-- `clearRecv` for partners below `N`. -/
def clearR (N : Nat) (p : Proc X) (a : Addr) (n : Nat) : Bool :=
  (List.range N).all fun q => (p.recvs q).all fun x => !decide (overlap x.1 x.2 a n)

/-- `clearSend` for partners below `N`. -/
def clearS (N : Nat) (p : Proc X) (a : Addr) (n : Nat) : Bool :=
  (List.range N).all fun q => (p.sends q).all fun x => !decide (overlap x.1 x.2 a n)

/-- Nothing is pending with a partner from `N` on. -/
def Inside (N : Nat) (s : State X) : Prop := ∀ t q, N ≤ q →
  (s.proc t).recvs q = [] ∧ (s.proc t).sends q = [] ∧ s.chan t q = [] ∧ s.chan q t = []

/-- `LStep` as a function. -/
def lexec (N : Nat) (p : Proc X) : Option (Proc X) :=
  match p.rest with
  | .copy red dst src n :: rest =>
    if !decide (overlap dst n src n) && clearR N p dst n && clearS N p dst n && clearR N p src n then
      some { p with rest := rest, mem := copyMem red dst src n p.mem }
    else none
  | .irecv buf n q :: rest =>
    if clearR N p buf n && clearS N p buf n && decide (q < N) then
      some { p with rest := rest, recvs := push p.recvs q (buf, n) }
    else none
  | .isend buf n q :: rest =>
    if clearR N p buf n && decide (q < N) then some { p with rest := rest, sends := push p.sends q (buf, n) } else none
  | .waitall :: rest =>
    if (List.range N).all fun q => (p.recvs q).isEmpty && (p.sends q).isEmpty then some { p with rest := rest } else none
  | .barrier :: rest => some { p with rest := rest }
  | [] => none

/-- `Step` as a function. -/
def exec (N : Nat) (l : Lab) (s : State X) : Option (State X) :=
  match l with
  | .loc t => if t < N then (lexec N (s.proc t)).map fun p => ⟨setProc s.proc t p, s.chan⟩ else none
  | .depart q t =>
    if q < N ∧ t < N ∧ q ≠ t then
      match (s.proc q).sends t with
      | (a, n) :: _ => some ⟨setProc s.proc q { s.proc q with sends := pop (s.proc q).sends t },
          setChan s.chan q t (s.chan q t ++ [readMem (s.proc q).mem a n])⟩
      | [] => none
    else none
  | .arrive q t =>
    if q < N ∧ t < N ∧ q ≠ t then
      match s.chan q t, (s.proc t).recvs q with
      | msg :: ms, (a, n) :: _ =>
        if msg.length = n then
          some ⟨setProc s.proc t { s.proc t with mem := writeMem (s.proc t).mem a msg, recvs := pop (s.proc t).recvs q },
            setChan s.chan q t ms⟩
        else none
      | _, _ => none
    else none

/-- A sequence of steps. -/
def execs (N : Nat) : List Lab → State X → Option (State X)
  | [], s => some s
  | l :: ls, s => (exec N l s).bind (execs N ls)

theorem clearR_iff (N : Nat) (p : Proc X) (h : ∀ q, N ≤ q → p.recvs q = []) (a : Addr) (n : Nat) :
    clearR N p a n = true ↔ p.clearRecv a n := by
  unfold clearR Proc.clearRecv
  simp only [List.all_eq_true, List.mem_range, Bool.not_eq_true', decide_eq_false_iff_not]
  constructor
  · intro h1 q x hx
    by_cases hq : q < N
    · exact h1 q hq x hx
    · rw [h q (by omega)] at hx; cases hx
  · intro h1 q _ x hx; exact h1 q x hx

theorem clearS_iff (N : Nat) (p : Proc X) (h : ∀ q, N ≤ q → p.sends q = []) (a : Addr) (n : Nat) :
    clearS N p a n = true ↔ p.clearSend a n := by
  unfold clearS Proc.clearSend
  simp only [List.all_eq_true, List.mem_range, Bool.not_eq_true', decide_eq_false_iff_not]
  constructor
  · intro h1 q x hx
    by_cases hq : q < N
    · exact h1 q hq x hx
    · rw [h q (by omega)] at hx; cases hx
  · intro h1 q _ x hx; exact h1 q x hx

theorem lexec_iff (N : Nat) (p p' : Proc X) (hr : ∀ q, N ≤ q → p.recvs q = []) (hs : ∀ q, N ≤ q → p.sends q = [])
    (h : lexec N p = some p') :
    LStep p p' ∧ (∀ q, N ≤ q → p'.recvs q = []) ∧ ∀ q, N ≤ q → p'.sends q = [] := by
  unfold lexec at h
  have hp : ∀ (f : Nat → List (Addr × Nat)), (∀ q, N ≤ q → f q = []) → ∀ q x, q < N → ∀ k, N ≤ k → push f q x k = [] := by
    intro f hf q x hq k hk
    unfold push
    rw [if_neg (by omega)]
    exact hf k hk
  split at h
  · rename_i red dst src n rest e
    split at h
    · rename_i hc
      simp only [Bool.and_eq_true, Bool.not_eq_true', decide_eq_false_iff_not] at hc
      obtain ⟨⟨⟨h1, h2⟩, h3⟩, h4⟩ := hc
      cases h
      exact ⟨.copy e h1 ((clearR_iff N p hr _ _).1 h2) ((clearS_iff N p hs _ _).1 h3) ((clearR_iff N p hr _ _).1 h4), hr, hs⟩
    · cases h
  · rename_i buf n q rest e
    split at h
    · rename_i hc
      simp only [Bool.and_eq_true, decide_eq_true_eq] at hc
      obtain ⟨⟨h1, h2⟩, h3⟩ := hc
      cases h
      exact ⟨.irecv e ((clearR_iff N p hr _ _).1 h1) ((clearS_iff N p hs _ _).1 h2), hp _ hr q _ h3, hs⟩
    · cases h
  · rename_i buf n q rest e
    split at h
    · rename_i hc
      simp only [Bool.and_eq_true, decide_eq_true_eq] at hc
      cases h
      exact ⟨.isend e ((clearR_iff N p hr _ _).1 hc.1), hr, hp _ hs q _ hc.2⟩
    · cases h
  · rename_i rest e
    split at h
    · rename_i hc
      simp only [List.all_eq_true, List.mem_range, Bool.and_eq_true, List.isEmpty_iff] at hc
      cases h
      refine ⟨.waitall e fun q => ?_, hr, hs⟩
      by_cases hq : q < N
      · exact hc q hq
      · exact ⟨hr q (by omega), hs q (by omega)⟩
    · cases h
  · rename_i rest e
    cases h
    exact ⟨.barrier e, hr, hs⟩
  · cases h

theorem exec_step (N : Nat) (l : Lab) (s s' : State X) (hi : Inside N s) (h : exec N l s = some s') :
    Step N l s s' ∧ Inside N s' := by
  unfold exec at h
  have hpop : ∀ (f : Nat → List (Addr × Nat)) (q k : Nat), f k = [] → pop f q k = [] := by
    intro f q k hf
    unfold pop
    split
    · rw [hf]; rfl
    · exact hf
  split at h
  · rename_i t
    split at h
    · rename_i ht
      cases hl : lexec N (s.proc t) with
      | none => rw [hl] at h; cases h
      | some p =>
        rw [hl] at h
        cases h
        obtain ⟨h1, h2, h3⟩ := lexec_iff N (s.proc t) p (fun q hq => (hi t q hq).1) (fun q hq => (hi t q hq).2.1) hl
        refine ⟨.loc ht h1, fun t' q hq => ⟨?_, ?_, (hi t' q hq).2.2⟩⟩
        · show (setProc s.proc t p t').recvs q = []
          unfold setProc
          split
          · exact h2 q hq
          · exact (hi t' q hq).1
        · show (setProc s.proc t p t').sends q = []
          unfold setProc
          split
          · exact h3 q hq
          · exact (hi t' q hq).2.1
    · cases h
  · rename_i q t
    split at h
    · rename_i hc
      obtain ⟨h1, h2, h3⟩ := hc
      split at h
      · rename_i a n r e
        cases h
        refine ⟨.depart h1 h2 h3 e, fun t' k hk => ⟨?_, ?_, ?_, ?_⟩⟩
        · show (setProc s.proc q _ t').recvs k = []
          unfold setProc
          split
          · exact (hi q k hk).1
          · exact (hi t' k hk).1
        · show (setProc s.proc q _ t').sends k = []
          unfold setProc
          split
          · exact hpop _ _ _ (hi q k hk).2.1
          · exact (hi t' k hk).2.1
        · show setChan s.chan q t _ t' k = []
          unfold setChan
          rw [if_neg (by omega)]; exact (hi t' k hk).2.2.1
        · show setChan s.chan q t _ k t' = []
          unfold setChan
          rw [if_neg (by omega)]; exact (hi t' k hk).2.2.2
      · cases h
    · cases h
  · rename_i q t
    split at h
    · rename_i hc
      obtain ⟨h1, h2, h3⟩ := hc
      split at h
      · rename_i msg ms a n r e1 e2
        split at h
        · rename_i hlen
          cases h
          refine ⟨.arrive h1 h2 h3 e1 e2 hlen, fun t' k hk => ⟨?_, ?_, ?_, ?_⟩⟩
          · show (setProc s.proc t _ t').recvs k = []
            unfold setProc
            split
            · exact hpop _ _ _ (hi t k hk).1
            · exact (hi t' k hk).1
          · show (setProc s.proc t _ t').sends k = []
            unfold setProc
            split
            · exact (hi t k hk).2.1
            · exact (hi t' k hk).2.1
          · show setChan s.chan q t _ t' k = []
            unfold setChan
            rw [if_neg (by omega)]; exact (hi t' k hk).2.2.1
          · show setChan s.chan q t _ k t' = []
            unfold setChan
            rw [if_neg (by omega)]; exact (hi t' k hk).2.2.2
        · cases h
      · cases h
    · cases h

theorem execs_steps (N : Nat) (ls : List Lab) : ∀ (s s' : State X), Inside N s → execs N ls s = some s' →
    Steps N ls.length s s' ∧ Inside N s' := by
  induction ls with
  | nil => intro s s' hi h; cases h; exact ⟨.refl, hi⟩
  | cons l ls ih =>
    intro s s' hi h
    rw [execs, Option.bind_eq_some_iff] at h
    obtain ⟨s1, h1, h2⟩ := h
    obtain ⟨h3, h4⟩ := exec_step N l s s1 hi h1
    obtain ⟨h5, h6⟩ := ih s1 s' h4 h2
    exact ⟨.step h3 h5, h6⟩

theorem inside_initial (N : Nat) (prog : Nat → List Instr) (m : Nat → Mem X) : Inside N (initial prog m) :=
  fun _ _ _ => ⟨rfl, rfl, rfl, rfl⟩

/-- `exec` finds every step. -/
theorem step_exec (N : Nat) (l : Lab) (s s' : State X) (hi : Inside N s)
    (hp : ∀ t, t < N → ∀ a n q rest, (s.proc t).rest = .irecv a n q :: rest ∨ (s.proc t).rest = .isend a n q :: rest → q < N)
    (h : Step N l s s') : (exec N l s).isSome := by
  cases h with
  | @loc s t p ht hl =>
    have hr : ∀ q, N ≤ q → (s.proc t).recvs q = [] := fun q hq => (hi t q hq).1
    have hs : ∀ q, N ≤ q → (s.proc t).sends q = [] := fun q hq => (hi t q hq).2.1
    unfold exec
    simp only [ht, if_true, Option.isSome_map]
    unfold lexec
    cases hl with
    | copy e h1 h2 h3 h4 =>
      rw [e]
      simp only [(clearR_iff N (s.proc t) hr _ _).2 h2, (clearS_iff N (s.proc t) hs _ _).2 h3, (clearR_iff N (s.proc t) hr _ _).2 h4, h1,
        decide_false, Bool.not_false, Bool.and_self, if_true, Option.isSome_some]
    | irecv e h1 h2 =>
      rw [e]
      simp only [(clearR_iff N (s.proc t) hr _ _).2 h1, (clearS_iff N (s.proc t) hs _ _).2 h2, hp t ht _ _ _ _ (.inl e),
        decide_true, Bool.and_self, if_true, Option.isSome_some]
    | isend e h1 =>
      rw [e]
      simp only [(clearR_iff N (s.proc t) hr _ _).2 h1, hp t ht _ _ _ _ (.inr e), decide_true, Bool.and_self, if_true,
        Option.isSome_some]
    | waitall e h1 =>
      rw [e]
      have : ((List.range N).all fun q => ((s.proc t).recvs q).isEmpty && ((s.proc t).sends q).isEmpty) = true := by
        simp only [List.all_eq_true, Bool.and_eq_true, List.isEmpty_iff]
        intro q _; exact h1 q
      simp only [this, if_true, Option.isSome_some]
    | barrier e => rw [e]; rfl
  | depart h1 h2 h3 e =>
    unfold exec
    simp only [h1, h2, h3, ne_eq, not_false_eq_true, and_self, if_true, e, Option.isSome_some]
  | arrive h1 h2 h3 e1 e2 e3 =>
    unfold exec
    simp only [h1, h2, h3, ne_eq, not_false_eq_true, and_self, if_true, e1, e2, e3, Option.isSome_some]

/-- `Final` by computation. -/
def finalB (N : Nat) (s : State X) : Bool :=
  (List.range N).all fun t => (s.proc t).rest.isEmpty && (List.range N).all fun q =>
    ((s.proc t).recvs q).isEmpty && ((s.proc t).sends q).isEmpty && (s.chan q t).isEmpty && (s.chan t q).isEmpty

theorem finalB_iff (N : Nat) (s : State X) (hi : Inside N s) : finalB N s = true ↔ Final N s := by
  unfold finalB Final
  simp only [List.all_eq_true, List.mem_range, Bool.and_eq_true, List.isEmpty_iff]
  constructor
  · intro h t ht
    refine ⟨(h t ht).1, fun q => ?_⟩
    by_cases hq : q < N
    · obtain ⟨⟨⟨h1, h2⟩, h3⟩, h4⟩ := (h t ht).2 q hq
      exact ⟨h1, h2, h3, h4⟩
    · obtain ⟨h1, h2, h3, h4⟩ := hi t q (by omega)
      exact ⟨h1, h2, h4, h3⟩
  · intro h t ht
    refine ⟨(h t ht).1, fun q _ => ?_⟩
    obtain ⟨h1, h2, h3, h4⟩ := (h t ht).2 q
    exact ⟨⟨⟨h1, h2⟩, h3⟩, h4⟩

theorem final_no_step (N : Nat) (l : Lab) (s s' : State X) (hf : Final N s) (h : Step N l s s') : False := by
  cases h with
  | loc ht hl =>
    have := (hf _ ht).1
    cases hl with
    | copy e => rw [e] at this; cases this
    | irecv e => rw [e] at this; cases this
    | isend e => rw [e] at this; cases this
    | waitall e => rw [e] at this; cases this
    | barrier e => rw [e] at this; cases this
  | @depart _ q t _ _ _ h1 h2 h3 e =>
    have := ((hf q h1).2 t).2.1
    rw [e] at this; cases this
  | @arrive _ q t _ _ _ _ _ h1 h2 h3 e1 e2 =>
    have := ((hf t h2).2 q).2.2.1
    rw [e1] at this; cases this

/-- An execution that ends with a wrong result. -/
theorem not_correct (N : Nat) (prog : Nat → List Instr) (m : Nat → Mem X) (post : (Nat → Mem X) → Prop) (ls : List Lab)
    (s : State X) (h : execs N ls (initial prog m) = some s) (hf : finalB N s = true)
    (hp : ¬post fun t => (s.proc t).mem) : ¬Correct N prog m post := by
  rintro ⟨bound, hb⟩
  obtain ⟨h1, h2⟩ := execs_steps N ls _ _ (inside_initial N prog m) h
  have hf' := (finalB_iff N s h2).1 hf
  rcases (hb _ s h1).2.2 with h3 | ⟨l, s', _, h3⟩
  · exact hp h3.2
  · exact final_no_step N l s s' hf' h3

/-- An execution that gets stuck. -/
theorem not_correct_stuck (N : Nat) (prog : Nat → List Instr) (m : Nat → Mem X) (post : (Nat → Mem X) → Prop) (ls : List Lab)
    (s : State X) (h : execs N ls (initial prog m) = some s) (hf : finalB N s = false)
    (hp : ∀ t, t < N → ∀ a n q rest, (s.proc t).rest = .irecv a n q :: rest ∨ (s.proc t).rest = .isend a n q :: rest → q < N)
    (hl : ∀ t, t < N → exec N (.loc t) s = none ∧ ∀ q, q < N → exec N (.depart q t) s = none ∧ exec N (.arrive q t) s = none) :
    ¬Correct N prog m post := by
  rintro ⟨bound, hb⟩
  obtain ⟨h1, h2⟩ := execs_steps N ls _ _ (inside_initial N prog m) h
  rcases (hb _ s h1).2.2 with h3 | ⟨l, s', _, h3⟩
  · rw [(finalB_iff N s h2).2 h3.1] at hf; cases hf
  · have h4 := step_exec N l s s' h2 hp h3
    have h5 : exec N l s = none := by
      cases h3 with
      | loc ht _ => exact (hl _ ht).1
      | depart h1 h2 _ _ => exact ((hl _ h2).2 _ h1).1
      | arrive h1 h2 _ _ _ _ => exact ((hl _ h2).2 _ h1).2
    rw [h5] at h4; cases h4

end ExtMpi.RawCode
