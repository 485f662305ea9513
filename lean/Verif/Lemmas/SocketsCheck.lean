import Verif.Lemmas.RawExec
import Verif.Lemmas.RawCodeRun
/-! A computed execution that shows that given programs are correct. -/
namespace ExtMpi.RawCode
variable {X : Type} [Add X]

def unbufferedB : Lab → State X → Bool
  | .depart q t, s => (s.chan q t).isEmpty && !((s.proc t).recvs q).isEmpty
  | _, _ => true

def waitsB (ls : List Instr) : Bool :=
  match ls with
  | .waitall :: _ => true
  | _ => false

def delayedB : Lab → State X → Bool
  | .depart q _, s => waitsB (s.proc q).rest
  | .arrive _ t, s => waitsB (s.proc t).rest
  | .loc _, _ => true

def runB (N : Nat) : List Lab → State X → Option (State X)
  | [], s => some s
  | l :: ls, s => if unbufferedB l s && delayedB l s then (exec N l s).bind (runB N ls) else none

theorem waits_of {ls : List Instr} (h : waitsB ls = true) : ∃ r, ls = .waitall :: r := by
  unfold waitsB at h
  split at h
  · exact ⟨_, rfl⟩
  · cases h

theorem runB_run (N : Nat) (ls : List Lab) : ∀ (s s' : State X), Inside N s → runB N ls s = some s' →
    URun N ls.length s s' ∧ Inside N s' := by
  induction ls with
  | nil => intro s s' hi h; cases h; exact ⟨.refl, hi⟩
  | cons l ls ih =>
    intro s s' hi h
    rw [runB] at h
    split at h
    · next hb =>
      rw [Bool.and_eq_true] at hb
      obtain ⟨s1, h1, h2⟩ := Option.bind_eq_some_iff.1 h
      obtain ⟨hs, hi1⟩ := exec_step N l s s1 hi h1
      obtain ⟨h3, h4⟩ := ih s1 s' hi1 h2
      refine ⟨.step ?_ ?_ hs h3, h4⟩
      · cases l with
        | depart q t =>
          have := hb.1
          simp only [unbufferedB, Bool.and_eq_true, List.isEmpty_iff, Bool.not_eq_true', List.isEmpty_eq_false_iff] at this
          exact this
        | _ => trivial
      · cases l with
        | loc t => trivial
        | depart q t => exact waits_of hb.2
        | arrive q t => exact waits_of hb.2
    · cases h

theorem correct_of_check {N : Nat} {prog : Nat → List Instr} {m : Nat → Mem X} {post : (Nat → Mem X) → Prop} (ls : List Lab) (s : State X)
    (h : runB N ls (initial prog m) = some s) (hf : finalB N s = true) (hp : post fun t => (s.proc t).mem) :
    Correct N prog m post := by
  obtain ⟨h1, h2⟩ := runB_run N ls _ s (inside_initial N prog m) h
  exact correct_of_run h1 ((finalB_iff N s h2).1 hf) hp

end ExtMpi.RawCode
