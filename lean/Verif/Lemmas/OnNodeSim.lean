import Verif.Lemmas.OnNodeSeq
import Verif.Spec.OnNode
/-! Schedules of the processes of a node that can be computed, for counterexamples. -/
namespace ExtMpi.OnNode

/-- One action of process `p`, if it has one. -/
def stepFn {X : Type} [Add X] (p : Nat) (s : State X) : Option (State X) :=
  match s.rest p with
  | .elem red d c :: as => some { s with rest := Function.update s.rest p as, mem := accessed red d c s.mem }
  | .set b (.ofNat r) :: as =>
    some { s with rest := Function.update s.rest p as
                  flag := Function.update s.flag b (Function.update (s.flag b) r (s.cnt p b)) }
  | .wait b (.ofNat r) :: as =>
    if s.cnt p b ≤ s.flag b r then
      some { s with rest := Function.update s.rest p as
                    cnt := Function.update s.cnt p (Function.update (s.cnt p) b (s.cnt p b + 1)) }
    else none
  | _ => none

theorem step_of_stepFn {X : Type} [Add X] {p : Nat} {s s' : State X} (h : stepFn p s = some s') : Step p s s' := by
  unfold stepFn at h
  split at h
  · rename_i hr; injection h with h; subst h; exact .elem hr
  · rename_i hr; injection h with h; subst h; exact .set hr
  · rename_i hr
    split at h
    · rename_i hc; injection h with h; subst h; exact .wait hr hc
    · cases h
  · cases h

theorem stepFn_of_step {X : Type} [Add X] {p : Nat} {s s' : State X} (h : Step p s s') : stepFn p s = some s' := by
  cases h with
  | elem hr => unfold stepFn; rw [hr]
  | set hr => unfold stepFn; rw [hr]
  | @wait b as r hr hc =>
    unfold stepFn
    rw [hr]
    show (if s.cnt p b ≤ s.flag b r then _ else none) = _
    rw [if_pos hc]

/-- Process `p` acts as long as it can, at most `k` times. -/
def actAlone {X : Type} [Add X] (p : Nat) : Nat → State X → State X
  | 0, s => s
  | k + 1, s => match stepFn p s with
    | some s' => actAlone p k s'
    | none => s

/-- The processes act in turn as long as they can. -/
def inTurn {X : Type} [Add X] (n k : Nat) : Nat → State X → State X
  | 0, s => s
  | r + 1, s => inTurn n k r ((List.range n).foldl (fun s p => actAlone p k s) s)

theorem Steps.trans {X : Type} [Add X] {n i j : Nat} {s s' s'' : State X} (h : Steps n i s s') (h' : Steps n j s' s'') :
    Steps n (i + j) s s'' := by
  induction h' with
  | nil => exact h
  | snoc _ hp hs ih => exact .snoc (ih h) hp hs

theorem steps_alone {X : Type} [Add X] {n p : Nat} (hp : p < n) (k : Nat) (s : State X) :
    ∃ i, Steps n i s (actAlone p k s) := by
  induction k generalizing s with
  | zero => exact ⟨0, .nil⟩
  | succ k ih =>
    unfold actAlone
    split
    · rename_i s' hs
      obtain ⟨i, hi⟩ := ih s'
      exact ⟨_, Steps.trans (Steps.snoc .nil hp (step_of_stepFn hs)) hi⟩
    · exact ⟨0, .nil⟩

theorem steps_inTurn {X : Type} [Add X] (n k r : Nat) (s : State X) : ∃ i, Steps n i s (inTurn n k r s) := by
  induction r generalizing s with
  | zero => exact ⟨0, .nil⟩
  | succ r ih =>
    have h : ∀ (l : List Nat) (s : State X), (∀ p ∈ l, p < n) →
        ∃ i, Steps n i s (l.foldl (fun s p => actAlone p k s) s) := by
      intro l
      induction l with
      | nil => intro s _; exact ⟨0, .nil⟩
      | cons p l ihl =>
        intro s hl
        obtain ⟨i, hi⟩ := steps_alone (hl p (by simp)) k s
        obtain ⟨j, hj⟩ := ihl (actAlone p k s) (fun q hq => hl q (by simp [hq]))
        exact ⟨_, hi.trans hj⟩
    obtain ⟨i, hi⟩ := h (List.range n) s (by simp)
    obtain ⟨j, hj⟩ := ih ((List.range n).foldl (fun s p => actAlone p k s) s)
    exact ⟨_, hi.trans hj⟩

/-- A schedule that ends, or gets stuck, with a wrong result. -/
theorem not_correct {X : Type} [Add X] {n : Nat} {prog : Nat → List Instr} {m : Cell → X} {post : (Cell → X) → Prop}
    (k r : Nat) (hend : ∀ p, p < n → (stepFn p (inTurn n k r (start n prog m))).isNone = true)
    (hpost : Finished n (inTurn n k r (start n prog m)) → ¬ post (inTurn n k r (start n prog m)).mem) :
    ¬ Correct n prog m post := by
  rintro ⟨bound, h⟩
  obtain ⟨i, hi⟩ := steps_inTurn n k r (start n prog m)
  rcases (h i _ hi).2 with ⟨hf, hp⟩ | ⟨p, s', hp, hs⟩
  · exact hpost hf hp
  · have := hend p hp
    rw [stepFn_of_step hs] at this
    cases this

end ExtMpi.OnNode
