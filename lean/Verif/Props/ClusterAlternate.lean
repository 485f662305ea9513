import Verif.Props.ClusterRepeat
import Verif.Lemmas.AlternateBridge
/-! # Repeated executions with alternating shared memories (C103) -/
namespace ExtMpi.Cluster
open RawCode Schedule RankPerm
open TasksNode
open OnNode (Par)

variable {X : Type} [AddCommMonoid X]

theorem apartBy_of {ns : Nat} {u : Users} {len : Nat} (h : Apart ns u len) : ApartBy ns u fun _ => len := by
  intro p p' hne hd i j hi hj e
  have hi : i < len := hi
  have hj : j < len := hj
  refine h p p' hne hd ⟨rfl, ?_, ?_⟩
  · show u.recv p < u.recv p' + len
    omega
  · show u.recv p' < u.recv p + len
    omega

/-- The receive buffers of the processes of a node are apart. -/
theorem clibrary_apart {N ns d : Nat} {u : Users} {S R : Nat → Nat} {prog : Nat → List CInstr}
    {post : (Nat → Mem X) → (Nat → Mem X) → Prop} (h : CLibrary N ns u d S R prog post) : ApartBy ns u R := by
  cases h with
  | allreduce _ _ _ _ _ _ _ _ h => exact apartBy_of h
  | allreduceCyclic _ _ _ _ _ _ _ h => exact apartBy_of h
  | reduceScatter _ _ _ _ _ h => exact h
  | reduceScatterCyclic _ _ _ _ h => exact h
  | allgather _ _ _ h => exact apartBy_of h
  | allgatherCyclic _ _ _ _ h => exact apartBy_of h

/-- What an execution is to do does not depend on the shared memories. -/
theorem clibrary_bank {N ns d : Nat} {u : Users} {S R : Nat → Nat} {prog : Nat → List CInstr}
    {post : (Nat → Mem X) → (Nat → Mem X) → Prop} (h : CLibrary N ns u d S R prog post) (b : Nat) (m mem : Nat → Mem X)
    (hp : post (fun a r => m a (bank b r)) (fun a r => mem a (bank b r))) : post m mem := by
  cases h <;> exact hp

/-- C103: `K` executions of a persistent collective by `ns` processes on each of `N` nodes with two alternating programs, which
have shared memories, flags and counters of their own and of which the first `j` barriers are removed: the first one, as in
the code, or also the second one of reductions. No execution gets stuck or has a race, and all end as if the executions took
place one at a time. -/
theorem alternating_executions {N ns d : Nat} (hns : 0 < ns) {u : Users} {S R : Nat → Nat} {prog : Nat → List CInstr}
    {post : (Nat → Mem X) → (Nat → Mem X) → Prop} (hl : CLibrary N ns u d S R prog post)
    {fills : Nat → Nat → List Change} (hf : OwnData ns u S R fills) {j : Nat} (hj : j ≤ d) (K : Nat) (m : Nat → Mem X) :
    ACorrect N ns (alternating N ns fills (fun p => withoutFirst ns j (prog p)) K) m (Serially N ns fills post 0 K m) := by
  refine alternate_acorrect hns hj (alternates_of_own hf (clibrary_apart hl) fun p i hi => ?_) (clibrary_bank hl)
    (fun m => (clibrary_serial hns hl m).2) K m
  by_cases hp : p < N * ns
  · rw [if_pos hp] at hi
    exact clibrary_own hns hl hp hi
  · rw [if_neg hp] at hi
    cases hi

/-! ## The hypotheses can be met -/

/-- Six nodes with two processes each, ten executions of an allreduce, each with results of the one before. -/
example (m : Nat → Mem Nat) : ∃ (sched : Nat → List Block) (prog : Nat → List CInstr) (P : Par),
    (∀ p, p < 6 * 2 →
      allreduceProgram 6 2 P (fun k => k + 1) (List.range 6) twoUsers (sched (p / 2)) (p / 2) (p % 2) = some (prog p)) ∧
    ACorrect 6 2 (alternating 6 2 feedback (fun p => withoutFirst 2 1 (prog p)) 10) m
      (Serially 6 2 feedback (CAllreduceMem 6 2 twoUsers 21) 0 10 m) := by
  obtain ⟨P, hP⟩ := choices_ne 2 8 21
  obtain ⟨sched, prog, h1, h2, _⟩ := allreduce_recursive [1] [2] [1] (by decide) (by decide) (by decide) (by decide)
    (by decide) (by decide) (fun k => k + 1) (by decide) hP twoUsers (twoUsers_apart (by decide)) m
  exact ⟨sched, prog, P, h2, alternating_executions (by decide) (.allreduce (negs := [1]) (mids := [2]) (gs := [1]) (by decide)
    (by decide) (by decide) (by decide) (by decide) (by decide) (by decide) hP (twoUsers_apart (by decide)) h1 h2) feedback_own
    (by decide) 10 m⟩

/-! ## Without alternating the barrier is needed -/

/-- A step of process `p` that is not a message. -/
def simStep {X : Type} [Add X] (ns : Nat) (s : CState X) (p : Nat) : Option (CState X) :=
  match (s.task p).rest with
  | .op (.copy false d x n) :: r =>
    if d.reg = x.reg then none
    else some { s with
      task := put s.task p { s.task p with rest := r }, mem := put s.mem (p / ns) (memAfter (.copy false d x n) (s.mem (p / ns))) }
  | .op .waitall :: r => some { s with task := put s.task p { s.task p with rest := r }, mem := put s.mem (p / ns) (s.mem (p / ns)) }
  | .set (.ofNat k) :: r => some { s with
      task := put s.task p { s.task p with rest := r }, flag := put s.flag (p / ns) (put (s.flag (p / ns)) k (s.task p).count) }
  | .wait (.ofNat k) :: r =>
    if (s.task p).count ≤ s.flag (p / ns) k then some { s with task := put s.task p { s.task p with rest := r, count := (s.task p).count + 1 } }
    else none
  | _ => none

/-- Steps of the processes in the list. -/
def simRun {X : Type} [Add X] (ns : Nat) : List Nat → CState X → Option (CState X)
  | [], s => some s
  | p :: l, s => (simStep ns s p).bind (simRun ns l)

omit [AddCommMonoid X] in
theorem simStep_sound [Add X] {N ns : Nat} {s s' : CState X} {p : Nat} (hp : p < N * ns)
    (hq : ∀ p q, (s.task p).recvs q = [] ∧ (s.task p).sends q = []) (h : simStep ns s p = some s') :
    CStep N ns (.loc p) s s' ∧ ∀ p q, (s'.task p).recvs q = [] ∧ (s'.task p).sends q = [] := by
  have keep : ∀ t : CTask, t.recvs = (s.task p).recvs → t.sends = (s.task p).sends → ∀ p' q,
      (put s.task p t p').recvs q = [] ∧ (put s.task p t p').sends q = [] := fun t h1 h2 p' q => by
    by_cases e : p' = p
    · subst e; rw [put_same, h1, h2]; exact hq p' q
    · rw [put_other _ _ e]; exact hq p' q
  have free : ∀ a i, (∀ x, x ∈ writes i → ∀ y, y ∈ reads i → ¬overlap x.1 x.2 y.1 y.2) → CClear ns s a i := fun a i h =>
    ⟨fun p _ q x hx => absurd ((hq p q).1 ▸ hx) List.not_mem_nil, fun p _ q x hx => absurd ((hq p q).2 ▸ hx) List.not_mem_nil, h⟩
  unfold simStep at h
  split at h
  · rename_i d x n r e
    split at h
    · cases h
    · rename_i hne
      obtain rfl := Option.some.inj h
      refine ⟨.op hp e nofun (free _ _ fun y hy z hz => ?_) nofun, keep _ rfl rfl⟩
      obtain rfl := List.mem_singleton.1 hy
      obtain rfl := List.mem_singleton.1 hz
      exact fun h => hne h.1
  · rename_i r e
    obtain rfl := Option.some.inj h
    exact ⟨.op hp e nofun (free _ _ fun y hy => by cases hy) fun _ => hq p, keep _ rfl rfl⟩
  · rename_i k r e
    obtain rfl := Option.some.inj h
    exact ⟨.set hp e, keep _ rfl rfl⟩
  · rename_i k r e
    split at h
    · rename_i hle
      obtain rfl := Option.some.inj h
      exact ⟨.wait hp e hle, keep _ rfl rfl⟩
    · cases h
  · cases h

omit [AddCommMonoid X] in
theorem simRun_sound [Add X] {N ns : Nat} (l : List Nat) : ∀ {s s' : CState X}, (∀ p, p ∈ l → p < N * ns) →
    (∀ p q, (s.task p).recvs q = [] ∧ (s.task p).sends q = []) → simRun ns l s = some s' → CSteps N ns l.length s s' := by
  induction l with
  | nil => intro s s' _ _ h; obtain rfl := Option.some.inj h; exact .refl
  | cons p l ih =>
    intro s s' hl hq h
    unfold simRun at h
    obtain ⟨s1, h1, h2⟩ := Option.bind_eq_some_iff.1 h
    obtain ⟨g1, g2⟩ := simStep_sound (hl p List.mem_cons_self) hq h1
    exact .step g1 (ih (fun q hq => hl q (List.mem_cons_of_mem _ hq)) g2 h2)

/-- Two processes, an allgather of one element each: process 1 is at the start of the second execution, process 0 has the
last element of the first one to copy. -/
def slowReader : List Nat :=
  [0, 0, 1, 1, 0, 1] ++ [0, 1] ++ [0, 1, 0, 1, 0, 1, 0, 1, 0, 1, 0, 1] ++ [0, 1, 1]

/-- The programs of two processes on a node for an allgather of one element each. -/
def pairProgram (p : Nat) : List CInstr :=
  ((Recursive.generate true [] 0).bind fun sched => allgatherProgram 1 2 (fun _ => 1) [0] twoUsers sched 0 p).getD []

/-- C103: without alternating shared memories the first barrier must not be removed: two executions of an allgather on one
shared memory have a race. -/
theorem first_barrier_needed (m : Nat → Mem Nat) (post : (Nat → Mem Nat) → Prop) :
    ¬CCorrect 1 2 (repeated 1 2 (fun _ _ => []) (fun p => withoutFirst 2 1 (pairProgram p)) 2) m post := by
  rintro ⟨bound, h⟩
  have hm : ∀ m' : Nat → Mem Nat, (simRun 2 slowReader (startC
      (repeated 1 2 (fun _ _ => []) (fun p => withoutFirst 2 1 (pairProgram p)) 2) m')).isSome = true := fun m' => by rfl
  obtain ⟨s, hs⟩ := Option.isSome_iff_exists.1 (hm m)
  obtain ⟨_, h2, _⟩ := h _ s (simRun_sound _ (by decide) (fun _ _ => ⟨rfl, rfl⟩) hs)
  obtain rfl := (Option.some.inj (hs.symm.trans rfl))
  exact h2 0 1 (by decide) (by decide) (by decide) (by decide) _ _ _ _ rfl rfl
    (.inr ⟨(⟨.shm 0, 1⟩, 1), (⟨.shm 0, 1⟩, 1), by decide, by decide, by decide⟩)

end ExtMpi.Cluster
