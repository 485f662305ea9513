import Verif.Lemmas.RequestsSerial
/-! # Requests that every process starts and waits for in its own order, with calls of `MPI_Test` -/
namespace ExtMpi.Requests
open RawCode

variable {X : Type} [Add X]

/-- Request `h` is active on process `t` if `A h t`, `M h t` is its memory; the calls left and what has been received. -/
structure Here (N : Nat) (prog : Nat → Nat → List Instr) (s : MState X) (A : Nat → Nat → Bool) (M : Nat → Nat → Mem X)
    (C : Nat → List (Call X)) (H : Nat → Hist X) : Prop where
  core : ∀ h, Rest N (fun t => if A h t then prog h t else []) (M h) (s.core h)
  user : ∀ t, t < N → s.calls t = C t ∧ s.hist t = H t

omit [Add X] in
theorem Here.congr {N : Nat} {prog : Nat → Nat → List Instr} {s : MState X} {A A' : Nat → Nat → Bool}
    {M M' : Nat → Nat → Mem X} {C C' : Nat → List (Call X)} {H H' : Nat → Hist X} (hb : Here N prog s A M C H)
    (hA : ∀ h t, t < N → A h t = A' h t) (hM : ∀ h t, t < N → M h t = M' h t) (hC : ∀ t, t < N → C t = C' t)
    (hH : ∀ t, t < N → H t = H' t) : Here N prog s A' M' C' H' := by
  refine ⟨fun h => ⟨fun t ht => ?_, (hb.core h).2⟩, fun t ht => ?_⟩
  · rw [(hb.core h).1 t ht]
    dsimp only
    rw [hA h t ht, hM h t ht]
  · rw [(hb.user t ht).1, (hb.user t ht).2]
    exact ⟨hC t ht, hH t ht⟩

omit [Add X] in
theorem Here.idle {N : Nat} {prog : Nat → Nat → List Instr} {s : MState X} {A : Nat → Nat → Bool}
    {M : Nat → Nat → Mem X} {C : Nat → List (Call X)} {H : Nat → Hist X} (hb : Here N prog s A M C H) {h t : Nat}
    (ht : t < N) (ha : A h t = false) : Idle ((s.core h).proc t) := by
  rw [(hb.core h).1 t ht]
  dsimp only
  rw [ha]
  exact ⟨rfl, fun _ => ⟨rfl, rfl⟩⟩

/-- Every process starts its next request. -/
theorem here_start {N : Nat} {prog : Nat → Nat → List Instr} {b : Bool} {s : MState X} {A : Nat → Nat → Bool}
    {M : Nat → Nat → Mem X} {C : Nat → List (Call X)} {H : Nat → Hist X} (a : Nat → Nat)
    (fill : Nat → Nat → Hist X → Mem X → Mem X)
    (hb : Here N prog s A M (fun t => .start (a t) (fill (a t) t) :: C t) H) (ha : ∀ t, t < N → A (a t) t = false) :
    ∃ s', MRun N prog b N s s' ∧ Here N prog s' (fun h t => A h t || decide (h = a t))
      (fun h t => if h = a t then fill h t (H t) (M h t) else M h t) C H := by
  have hu : ∀ t, t < N → UStep prog t (fun h => (s.core h).proc t) (s.calls t) (s.hist t)
      (put (fun h => (s.core h).proc t) (a t) ⟨prog (a t) t, fill (a t) t (H t) (M (a t) t), fun _ => [], fun _ => []⟩)
      (C t) (H t) := by
    intro t ht
    rw [(hb.user t ht).1, (hb.user t ht).2]
    have := UStep.start (prog := prog) (t := t) (ps := fun h => (s.core h).proc t) (h := a t) (fill := fill (a t) t)
      (r := C t) (H := H t) (hb.idle ht (ha t ht))
    rw [show ((s.core (a t)).proc t).mem = M (a t) t by rw [(hb.core (a t)).1 t ht]] at this
    exact this
  refine ⟨_, all_user s _ _ _ hu N (Nat.le_refl _), fun k => ⟨fun t ht => ?_, (hb.core k).2⟩, fun t ht => ?_⟩
  · dsimp only
    rw [if_pos ht]
    by_cases e : k = a t
    · rw [e, put_same]; simp
    · rw [put_ne _ _ _ _ e, (hb.core k).1 t ht]; simp [e]
  · dsimp only
    rw [if_pos ht, if_pos ht]
    exact ⟨rfl, rfl⟩

/-- Every process gets the result of its next request. -/
theorem here_wait {N : Nat} {prog : Nat → Nat → List Instr} {b : Bool} {s : MState X} {A : Nat → Nat → Bool}
    {M : Nat → Nat → Mem X} {C : Nat → List (Call X)} {H : Nat → Hist X} (a : Nat → Nat)
    (hb : Here N prog s A M (fun t => .wait (a t) :: C t) H) (ha : ∀ t, t < N → A (a t) t = false) :
    ∃ s', MRun N prog b N s s' ∧ Here N prog s' A M C (fun t => H t ++ [(a t, M (a t) t)]) := by
  have hu : ∀ t, t < N → UStep prog t (fun h => (s.core h).proc t) (s.calls t) (s.hist t)
      (fun h => (s.core h).proc t) (C t) (H t ++ [(a t, M (a t) t)]) := by
    intro t ht
    rw [(hb.user t ht).1, (hb.user t ht).2]
    have := UStep.done (prog := prog) (t := t) (ps := fun h => (s.core h).proc t) (h := a t)
      (r := C t) (H := H t) (hb.idle ht (ha t ht))
    rw [show ((s.core (a t)).proc t).mem = M (a t) t by rw [(hb.core (a t)).1 t ht]] at this
    exact this
  refine ⟨_, all_user s _ _ _ hu N (Nat.le_refl _), fun k => ⟨fun t ht => ?_, (hb.core k).2⟩, fun t ht => ?_⟩
  · dsimp only
    rw [if_pos ht]
    exact (hb.core k).1 t ht
  · dsimp only
    rw [if_pos ht, if_pos ht]
    exact ⟨rfl, rfl⟩

theorem here_starts {N : Nat} {prog : Nat → Nat → List Instr} {b : Bool} (K : Nat)
    (fill : Nat → Nat → Hist X → Mem X → Mem X) {C : Nat → List (Call X)} {H : Nat → Hist X} :
    ∀ (L : Nat → List Nat) {s : MState X} {A : Nat → Nat → Bool} {M : Nat → Nat → Mem X},
    (∀ t, t < N → (L t).length = K ∧ (L t).Nodup ∧ ∀ h, h ∈ L t → A h t = false) →
    Here N prog s A M (fun t => (L t).map (fun h => .start h (fill h t)) ++ C t) H →
    ∃ n s', MRun N prog b n s s' ∧ Here N prog s' (fun h t => A h t || decide (h ∈ L t))
      (fun h t => if h ∈ L t then fill h t (H t) (M h t) else M h t) C H := by
  induction K with
  | zero =>
    intro L s A M hL hb
    have hnil : ∀ t, t < N → L t = [] := fun t ht => List.length_eq_zero_iff.mp (hL t ht).1
    refine ⟨0, s, .refl, hb.congr ?_ ?_ ?_ fun _ _ => rfl⟩
    · intro h t ht; simp [hnil t ht]
    · intro h t ht; simp [hnil t ht]
    · intro t ht; simp [hnil t ht]
  | succ K ih =>
    intro L s A M hL hb
    have hcons : ∀ t, t < N → L t = (L t).headD 0 :: (L t).tail := by
      intro t ht
      have := (hL t ht).1
      cases h : L t with
      | nil => rw [h] at this; simp at this
      | cons x r => rfl
    have hhead : ∀ t, t < N → (L t).headD 0 ∈ L t := by
      intro t ht
      have := (hL t ht).1
      cases h : L t with
      | nil => rw [h] at this; simp at this
      | cons x r => exact List.mem_cons_self
    have hb1 : Here N prog s A M (fun t => .start ((L t).headD 0) (fill ((L t).headD 0) t) ::
        (((L t).tail).map (fun h => .start h (fill h t)) ++ C t)) H :=
      hb.congr (fun _ _ _ => rfl) (fun _ _ _ => rfl) (fun t ht => by
        conv => lhs; rw [hcons t ht]
        rfl) (fun _ _ => rfl)
    obtain ⟨s1, hr1, hb2⟩ := here_start (b := b) _ fill hb1 (fun t ht => (hL t ht).2.2 _ (hhead t ht))
    have hnd : ∀ t, t < N → (L t).headD 0 ∉ (L t).tail ∧ ((L t).tail).Nodup := by
      intro t ht
      have := (hL t ht).2.1
      rw [hcons t ht] at this
      exact List.nodup_cons.mp this
    obtain ⟨n, s2, hr2, hb3⟩ := ih (fun t => (L t).tail) (fun t ht => by
      refine ⟨by rw [List.length_tail, (hL t ht).1]; rfl, (hnd t ht).2, fun h hh => ?_⟩
      have h1 : A h t = false := (hL t ht).2.2 h (List.mem_of_mem_tail hh)
      have h2 : h ≠ (L t).headD 0 := fun e => (hnd t ht).1 (e ▸ hh)
      simp only [h1, Bool.false_or, decide_eq_false_iff_not]
      exact h2) hb2
    refine ⟨_, s2, hr1.trans hr2, hb3.congr ?_ ?_ (fun _ _ => rfl) fun _ _ => rfl⟩
    · intro h t ht
      have : h ∈ L t ↔ h = (L t).headD 0 ∨ h ∈ (L t).tail := by
        conv => lhs; rw [hcons t ht]
        exact List.mem_cons
      rw [Bool.or_assoc]
      congr 1
      rw [decide_eq_decide.mpr this, Bool.decide_or]
    · intro h t ht
      have : h ∈ L t ↔ h = (L t).headD 0 ∨ h ∈ (L t).tail := by
        conv => lhs; rw [hcons t ht]
        exact List.mem_cons
      by_cases h2 : h ∈ (L t).tail
      · have h1 : h ≠ (L t).headD 0 := fun e => (hnd t ht).1 (e ▸ h2)
        rw [if_pos h2, if_neg h1, if_pos (this.mpr (.inr h2))]
      · rw [if_neg h2]
        by_cases h1 : h = (L t).headD 0
        · rw [if_pos h1, if_pos (this.mpr (.inl h1))]
        · rw [if_neg h1, if_neg (fun e => (this.mp e).elim h1 h2)]

theorem here_waits {N : Nat} {prog : Nat → Nat → List Instr} {b : Bool} (K : Nat) {A : Nat → Nat → Bool}
    {M : Nat → Nat → Mem X} {C : Nat → List (Call X)} :
    ∀ (L : Nat → List Nat) {s : MState X} {H : Nat → Hist X},
    (∀ t, t < N → (L t).length = K ∧ ∀ h, h ∈ L t → A h t = false) →
    Here N prog s A M (fun t => (L t).map (fun h => .wait h) ++ C t) H →
    ∃ n s', MRun N prog b n s s' ∧ Here N prog s' A M C (fun t => H t ++ (L t).map fun h => (h, M h t)) := by
  induction K with
  | zero =>
    intro L s H hL hb
    have hnil : ∀ t, t < N → L t = [] := fun t ht => List.length_eq_zero_iff.mp (hL t ht).1
    refine ⟨0, s, .refl, hb.congr (fun _ _ _ => rfl) (fun _ _ _ => rfl) ?_ ?_⟩
    · intro t ht; simp [hnil t ht]
    · intro t ht; simp [hnil t ht]
  | succ K ih =>
    intro L s H hL hb
    have hcons : ∀ t, t < N → L t = (L t).headD 0 :: (L t).tail := by
      intro t ht
      have := (hL t ht).1
      cases h : L t with
      | nil => rw [h] at this; simp at this
      | cons x r => rfl
    have hhead : ∀ t, t < N → (L t).headD 0 ∈ L t := by
      intro t ht
      have := (hL t ht).1
      cases h : L t with
      | nil => rw [h] at this; simp at this
      | cons x r => exact List.mem_cons_self
    have hb1 : Here N prog s A M (fun t => .wait ((L t).headD 0) :: (((L t).tail).map (fun h => .wait h) ++ C t)) H :=
      hb.congr (fun _ _ _ => rfl) (fun _ _ _ => rfl) (fun t ht => by
        conv => lhs; rw [hcons t ht]
        rfl) (fun _ _ => rfl)
    obtain ⟨s1, hr1, hb2⟩ := here_wait (b := b) _ hb1 (fun t ht => (hL t ht).2 _ (hhead t ht))
    obtain ⟨n, s2, hr2, hb3⟩ := ih (fun t => (L t).tail) (fun t ht =>
      ⟨by rw [List.length_tail, (hL t ht).1]; rfl, fun h hh => (hL t ht).2 h (List.mem_of_mem_tail hh)⟩) hb2
    refine ⟨_, s2, hr1.trans hr2, hb3.congr (fun _ _ _ => rfl) (fun _ _ _ => rfl) (fun _ _ => rfl) ?_⟩
    intro t ht
    conv => rhs; rw [hcons t ht]
    simp

/-- All requests run to their ends while the processes test them. -/
theorem here_run {N : Nat} {prog : Nat → Nat → List Instr} {post : Nat → (Nat → Mem X) → (Nat → Mem X) → Prop}
    (hc : ∀ h m, ∃ pr, (∀ t, t < N → pr t = prog h t) ∧ Correct N pr m (post h m)) {C : Nat → List (Call X)}
    {H : Nat → Hist X} : ∀ (hs : List Nat), hs.Nodup → ∀ {s : MState X} {M : Nat → Nat → Mem X},
    Here N prog s (fun h _ => decide (h ∈ hs)) M C H →
    ∃ n s' R, MRun N prog true n s s' ∧ (∀ h, h ∈ hs → post h (M h) (R h)) ∧ (∀ h, h ∉ hs → R h = M h) ∧
      Here N prog s' (fun _ _ => false) R C H := by
  intro hs
  induction hs with
  | nil =>
    intro _ s M hb
    refine ⟨0, s, M, .refl, by simp, fun _ _ => rfl, ?_⟩
    simpa using hb
  | cons a r ih =>
    intro hnd s M hb
    obtain ⟨hna, hnd'⟩ := List.nodup_cons.mp hnd
    have hrest := hb.core a
    simp only [List.mem_cons_self, decide_true, if_true] at hrest
    obtain ⟨n, c', R0, hr, hc', hp⟩ := rest_run (hc a (M a)) hrest
    have hrun := run_core (prog := prog) (b := true) hr s rfl fun t _ => .inl rfl
    have hb1 : Here N prog ⟨put s.core a c', s.calls, s.hist⟩ (fun h _ => decide (h ∈ r)) (put M a R0) C H := by
      refine ⟨fun k => ?_, hb.user⟩
      show Rest N _ _ (put s.core a c' k)
      by_cases e : k = a
      · subst e
        rw [put_same, put_same]
        simp only [hna, decide_false, Bool.false_eq_true, if_false]
        exact hc'
      · rw [put_ne _ _ _ _ e, put_ne _ _ _ _ e]
        have := hb.core k
        simp only [List.mem_cons, e, false_or] at this
        exact this
    obtain ⟨j, s', R, hr2, hp2, hq2, hb2⟩ := ih hnd' hb1
    refine ⟨_, s', R, hrun.trans hr2, ?_, ?_, hb2⟩
    · intro h hh
      by_cases e : h = a
      · subst e
        rw [hq2 h hna, put_same]; exact hp
      · have := hp2 h ((List.mem_cons.mp hh).resolve_left e)
        rw [put_ne _ _ _ _ e] at this
        exact this
    · intro h hh
      have e : h ≠ a := fun e => hh (e ▸ List.mem_cons_self)
      rw [hq2 h (fun g => hh (List.mem_cons_of_mem _ g)), put_ne _ _ _ _ e]

end ExtMpi.Requests
