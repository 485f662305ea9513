import Verif.Spec.TasksRun
/-! Programs that are correct post as many receives as sends. -/
namespace ExtMpi.TasksNode
open RawCode

variable {W : Nat → Nat → Nat → Prop}

/-- Number of sends to `p`. -/
def sendCount (p : Nat) (l : List Instr) : Nat := l.countP fun i => match i with
  | .isend _ _ q => q == p
  | _ => false

/-- Number of receives from `p`. -/
def recvCount (p : Nat) (l : List Instr) : Nat := l.countP fun i => match i with
  | .irecv _ _ q => q == p
  | _ => false

theorem sendCount_placed (u : Users) (t p : Nat) (l : List Instr) : sendCount p (l.map (placed u t)) = sendCount p l := by
  unfold sendCount
  rw [List.countP_map]
  congr 1
  funext i
  cases i <;> rfl

theorem recvCount_placed (u : Users) (t p : Nat) (l : List Instr) : recvCount p (l.map (placed u t)) = recvCount p l := by
  unfold recvCount
  rw [List.countP_map]
  congr 1
  funext i
  cases i <;> rfl

/-- Messages from `p` to `p'` that are not complete on the side of the sender. -/
def sent {X : Type} (s : TState X) (p p' : Nat) : Nat :=
  sendCount p' (s.task p).rest + ((s.task p).sends p').length + (s.chan p p').length

/-- The same on the side of the receiver. -/
def received {X : Type} (s : TState X) (p p' : Nat) : Nat :=
  recvCount p (s.task p').rest + ((s.task p').recvs p).length

theorem step_balance {X : Type} [Add X] {N ns : Nat} {l : Lab} {s s' : TState X} (h : TStep N ns W l s s') (p p' : Nat) :
    sent s' p p' + received s p p' = sent s p p' + received s' p p' := by
  unfold sent received
  cases h with
  | @instr _ t i rest ht hr hb hc hw =>
    dsimp only
    have key : sendCount p' (put s.task t (taskAfter i rest (s.task t)) p).rest +
        ((put s.task t (taskAfter i rest (s.task t)) p).sends p').length =
        sendCount p' (s.task p).rest + ((s.task p).sends p').length := by
      unfold put
      by_cases e : p = t
      · subst e
        rw [if_pos rfl, hr]
        cases i with
        | isend a n q =>
          by_cases e2 : p' = q
          · subst e2; simp [taskAfter, sendCount, push]; omega
          · have e3 : ¬q = p' := fun h => e2 h.symm
            simp [taskAfter, sendCount, push, e2, e3]
        | _ => simp [taskAfter, sendCount]
      · rw [if_neg e]
    have key2 : recvCount p (put s.task t (taskAfter i rest (s.task t)) p').rest +
        ((put s.task t (taskAfter i rest (s.task t)) p').recvs p).length =
        recvCount p (s.task p').rest + ((s.task p').recvs p).length := by
      unfold put
      by_cases e : p' = t
      · subst e
        rw [if_pos rfl, hr]
        cases i with
        | irecv a n q =>
          by_cases e2 : p = q
          · subst e2; simp [taskAfter, recvCount, push]; omega
          · have e3 : ¬q = p := fun h => e2 h.symm
            simp [taskAfter, recvCount, push, e2, e3]
        | _ => simp [taskAfter, recvCount]
      · rw [if_neg e]
    omega
  | @enter _ t rest ht hr hw =>
    have key : ∀ x, (put s.task t { s.task t with entered := (s.task t).entered + 1, waiting := true } x).rest = (s.task x).rest ∧
        (put s.task t { s.task t with entered := (s.task t).entered + 1, waiting := true } x).sends = (s.task x).sends ∧
        (put s.task t { s.task t with entered := (s.task t).entered + 1, waiting := true } x).recvs = (s.task x).recvs := by
      intro x
      unfold put
      by_cases e : x = t
      · subst e; rw [if_pos rfl]; exact ⟨rfl, rfl, rfl⟩
      · rw [if_neg e]; exact ⟨rfl, rfl, rfl⟩
    dsimp only
    rw [(key p).1, (key p).2.1, (key p').1, (key p').2.2]
  | @leave _ t rest ht hr hw hall =>
    have key : ∀ x y, sendCount y (put s.task t { s.task t with rest := rest, waiting := false } x).rest = sendCount y (s.task x).rest ∧
        recvCount y (put s.task t { s.task t with rest := rest, waiting := false } x).rest = recvCount y (s.task x).rest ∧
        (put s.task t { s.task t with rest := rest, waiting := false } x).sends = (s.task x).sends ∧
        (put s.task t { s.task t with rest := rest, waiting := false } x).recvs = (s.task x).recvs := by
      intro x y
      unfold put
      by_cases e : x = t
      · subst e
        rw [if_pos rfl, hr]
        refine ⟨?_, ?_, rfl, rfl⟩
        · simp [sendCount]
        · simp [recvCount]
      · rw [if_neg e]; exact ⟨rfl, rfl, rfl, rfl⟩
    dsimp only
    rw [(key p p').1, (key p p').2.2.1, (key p' p).2.1, (key p' p).2.2.2]
  | @depart _ q t a n r hq ht hne hs =>
    have key : ∀ x, (put s.task q { s.task q with sends := pop (s.task q).sends t } x).rest = (s.task x).rest ∧
        (put s.task q { s.task q with sends := pop (s.task q).sends t } x).recvs = (s.task x).recvs := by
      intro x
      unfold put
      by_cases e : x = q
      · subst e; rw [if_pos rfl]; exact ⟨rfl, rfl⟩
      · rw [if_neg e]; exact ⟨rfl, rfl⟩
    have key2 : ((put s.task q { s.task q with sends := pop (s.task q).sends t } p).sends p').length +
        (setChan s.chan q t (s.chan q t ++ [readMem (s.mem (q / ns)) a n]) p p').length =
        ((s.task p).sends p').length + (s.chan p p').length := by
      unfold put setChan
      by_cases e : p = q
      · subst e
        rw [if_pos rfl]
        by_cases e2 : p' = t
        · subst e2
          simp [pop, hs]; omega
        · simp [pop, e2]
      · rw [if_neg e, if_neg fun h => e h.1]
    dsimp only at key key2 ⊢
    rw [(key p).1, (key p').1, (key p').2]
    omega
  | @arrive _ q t a n r msg ms hq ht hne hc hr hl =>
    have key : ∀ x, (put s.task t { s.task t with recvs := pop (s.task t).recvs q } x).rest = (s.task x).rest ∧
        (put s.task t { s.task t with recvs := pop (s.task t).recvs q } x).sends = (s.task x).sends := by
      intro x
      unfold put
      by_cases e : x = t
      · subst e; rw [if_pos rfl]; exact ⟨rfl, rfl⟩
      · rw [if_neg e]; exact ⟨rfl, rfl⟩
    have key2 : ((s.task p').recvs p).length + (setChan s.chan q t ms p p').length =
        (s.chan p p').length + ((put s.task t { s.task t with recvs := pop (s.task t).recvs q } p').recvs p).length := by
      unfold put setChan
      by_cases e : p' = t
      · subst e
        rw [if_pos rfl]
        by_cases e2 : p = q
        · subst e2
          simp [pop, hr, hc]; omega
        · simp [pop, e2]; omega
      · rw [if_neg e, if_neg fun h => e h.2]; omega
    dsimp only at key key2 ⊢
    rw [(key p).1, (key p).2, (key p').1]
    omega

theorem steps_balance {X : Type} [Add X] {N ns k : Nat} {s s' : TState X} (h : TSteps N ns W k s s') (p p' : Nat) :
    sent s' p p' + received s p p' = sent s p p' + received s' p p' := by
  induction h with
  | refl => omega
  | step h1 _ ih =>
    have := step_balance h1 p p'
    omega

theorem steps_snoc {X : Type} [Add X] {N ns k : Nat} {l : Lab} {s s1 s2 : TState X} (h : TSteps N ns W k s s1) (h2 : TStep N ns W l s1 s2) :
    TSteps N ns W (k + 1) s s2 := by
  induction h with
  | refl => exact .step h2 .refl
  | step h1 _ ih => exact .step h1 (ih h2)

/-- Correct programs reach an end. -/
theorem tcorrect_final {X : Type} [Add X] {N ns : Nat} {prog : Nat → List Instr} {m : Nat → Mem X} {post : (Nat → Mem X) → Prop}
    (h : WCorrect N ns W prog m post) : ∃ k s, TSteps N ns W k (startT prog m) s ∧ TFinal N ns s ∧ post s.mem := by
  obtain ⟨bound, hb⟩ := h
  by_contra hno
  have grow : ∀ k, ∃ s, TSteps N ns W k (startT prog m) s := by
    intro k
    induction k with
    | zero => exact ⟨_, .refl⟩
    | succ k ih =>
      obtain ⟨s, hs⟩ := ih
      rcases (hb k s hs).2.2.2 with hf | ⟨l, s', _, hst⟩
      · exact absurd ⟨k, s, hs, hf.1, hf.2⟩ hno
      · exact ⟨s', steps_snoc hs hst⟩
  obtain ⟨s, hs⟩ := grow (bound + 1)
  have := (hb _ s hs).1
  omega

/-- Correct programs post as many receives as sends. -/
theorem tcorrect_matched {X : Type} [Add X] {N ns : Nat} {prog : Nat → List Instr} {m : Nat → Mem X} {post : (Nat → Mem X) → Prop}
    (h : WCorrect N ns W prog m post) {p p' : Nat} (hp : p < N * ns) (hp' : p' < N * ns) :
    sendCount p' (prog p) = recvCount p (prog p') := by
  obtain ⟨k, s, hs, hf, _⟩ := tcorrect_final h
  have hbal := steps_balance hs p p'
  have h1 := hf p hp
  have h2 := hf p' hp'
  unfold sent received at hbal
  rw [h1.1, h2.1, (h1.2 p').2.1, (h1.2 p').2.2.2, (h2.2 p).1] at hbal
  simp [startT, sendCount, recvCount] at hbal ⊢
  omega

end ExtMpi.TasksNode
