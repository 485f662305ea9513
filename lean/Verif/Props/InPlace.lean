import Verif.Lemmas.InPlace
import Verif.Props.OnePerNode
import Verif.Props.RawCodeCyclic
/-! C65: allreduce with `MPI_IN_PLACE`. -/
namespace ExtMpi.OnePerNode
open RawCode Schedule

theorem early_copyIf {r : Bool} {d s : Addr} {n : Nat} (hd : Optimise.isShm d.reg = true) (hs : s.reg ≠ .recv) :
    ∀ i, i ∈ copyIf r d s n → Early i := by
  intro i hi
  unfold copyIf at hi
  split at hi
  · cases hi
  · rw [List.mem_singleton] at hi; rw [hi]; exact ⟨hd, hs⟩

theorem late_copyIf {r : Bool} {d s : Addr} {n : Nat} (hd : d.reg ≠ .send) (hs : s.reg ≠ .send) :
    ∀ i, i ∈ copyIf r d s n → Late i := by
  intro i hi
  unfold copyIf at hi
  split at hi
  · cases hi
  · rw [List.mem_singleton] at hi; rw [hi]; exact ⟨hd, hs⟩

theorem early_posts (sz : Nat → Nat) (b : Block) (t : Nat) (qs : List Nat) : ∀ k i, i ∈ posts sz b t k qs → Early i := by
  induction qs with
  | nil => intro k i hi; cases hi
  | cons q qs ih =>
    intro k i hi
    unfold posts at hi
    split at hi
    · rcases List.mem_cons.1 hi with rfl | hi
      · exact rfl
      · exact ih _ i hi
    · exact ih _ i hi

theorem early_pack (sz : Nat → Nat) (b : Block) (k : Nat) (ns : List Nat) : ∀ add i, i ∈ pack sz b k add ns → Early i := by
  induction ns with
  | nil => intro add i hi; cases hi
  | cons n ns ih =>
    intro add i hi
    unfold pack at hi
    rcases List.mem_append.1 hi with hi | hi
    · exact early_copyIf rfl (by simp) i hi
    · exact ih _ i hi

theorem early_sends (sz : Nat → Nat) (b : Block) (t : Nat) (qs : List Nat) : ∀ k i, i ∈ sends sz b t k qs → Early i := by
  induction qs with
  | nil => intro k i hi; cases hi
  | cons q qs ih =>
    intro k i hi
    unfold sends at hi
    split at hi
    · rcases List.mem_append.1 hi with hi | hi
      · rcases List.mem_append.1 hi with hi | hi
        · exact early_pack _ _ _ _ _ i hi
        · rcases List.mem_cons.1 hi with rfl | hi
          · trivial
          · rw [List.mem_singleton] at hi; rw [hi]; exact rfl
      · exact ih _ i hi
    · exact ih _ i hi

theorem early_unpack (sz : Nat → Nat) (b : Block) (t : Nat) (qs : List Nat) : ∀ k i, i ∈ unpack sz b t k qs → Early i := by
  induction qs with
  | nil => intro k i hi; cases hi
  | cons q qs ih =>
    intro k i hi
    unfold unpack at hi
    split at hi
    · rcases List.mem_append.1 hi with hi | hi
      · split at hi
        · cases hi
        · rw [List.mem_singleton] at hi; rw [hi]; exact ⟨rfl, by simp⟩
      · exact ih _ i hi
    · exact ih _ i hi

theorem early_blockCode (N : Nat) (sz : Nat → Nat) (b : Block) (t : Nat) : ∀ i, i ∈ blockCode N sz b t → Early i := by
  intro i hi
  unfold blockCode at hi
  simp only [List.mem_append] at hi
  rcases hi with ((((((hi | hi) | hi) | hi) | hi) | hi) | hi)
  · exact early_posts _ _ _ _ _ i hi
  · exact early_sends _ _ _ _ _ i hi
  · rcases List.mem_cons.1 hi with rfl | hi
    · trivial
    · rw [List.mem_singleton] at hi; rw [hi]; trivial
  · exact early_unpack _ _ _ _ _ i hi
  · rw [List.mem_singleton] at hi; rw [hi]; trivial
  · unfold reductions at hi
    simp only [List.mem_flatMap] at hi
    obtain ⟨_, _, _, _, hi⟩ := hi
    exact early_copyIf rfl (by simp) i hi
  · unfold copyReductions at hi
    simp only [List.mem_flatMap] at hi
    obtain ⟨_, _, _, _, hi⟩ := hi
    exact early_copyIf rfl (by simp) i hi

theorem early_blocksCode (N : Nat) (sz : Nat → Nat) (t : Nat) (bs : List Block) :
    ∀ f i, i ∈ blocksCode N sz t f bs → Early i := by
  induction bs with
  | nil => intro f i hi; rw [blocksCode, List.mem_singleton] at hi; rw [hi]; trivial
  | cons b bs ih =>
    intro f i hi
    unfold blocksCode at hi
    rcases List.mem_append.1 hi with hi | hi
    · rcases List.mem_append.1 hi with hi | hi
      · cases f with
        | true => cases hi
        | false => simp at hi; rw [hi]; trivial
      · exact early_blockCode _ _ _ _ i hi
    · exact ih _ i hi

theorem early_copyInReduce (sz : Nat → Nat) (len : Nat) (b : Block) : ∀ add i, i ∈ copyInReduce sz len add b → Early i := by
  induction b with
  | nil => intro add i hi; cases hi
  | cons l ls ih =>
    intro add i hi
    unfold copyInReduce at hi
    rcases List.mem_append.1 hi with hi | hi
    · exact early_copyIf rfl (by simp) i hi
    · exact ih _ i hi

theorem late_copyOutAll (sz : Nat → Nat) (len : Nat) (b : Block) : ∀ add i, i ∈ copyOutAll sz len add b → Late i := by
  induction b with
  | nil => intro add i hi; cases hi
  | cons l ls ih =>
    intro add i hi
    unfold copyOutAll at hi
    rcases List.mem_append.1 hi with hi | hi
    · split at hi
      · exact late_copyIf (by simp) (by simp) i hi
      · cases hi
    · exact ih _ i hi

theorem program_inPlace (N : Nat) (sz : Nat → Nat) (sched : List Block) (t : Nat) (p : List Instr)
    (h : program N sz .allreduce sched t = some p) :
    ∃ A B, p = A ++ B ∧ (∀ i, i ∈ A → Early i) ∧ ∀ i, i ∈ B → Late i := by
  unfold program at h
  split at h
  · rename_i b0 bs bl hl
    split at h
    · refine ⟨copyInCode N sz .allreduce b0 t ++ blocksCode N (mmsize N sz) t true bs, copyOutCode N sz .allreduce bl t,
        (Option.some.inj h).symm, ?_, fun i hi => late_copyOutAll _ _ _ _ i hi⟩
      intro i hi
      rcases List.mem_append.1 hi with hi | hi
      · unfold copyInCode at hi
        dsimp only at hi
        rcases List.mem_cons.1 hi with rfl | hi
        · trivial
        rcases List.mem_cons.1 hi with rfl | hi
        · trivial
        rcases List.mem_append.1 hi with hi | hi
        · exact early_copyInReduce _ _ _ _ i hi
        · rw [List.mem_singleton] at hi; rw [hi]; trivial
      · exact early_blocksCode _ _ _ _ _ i hi
    · cases h
  · cases h

/-- What the programs before the passes for one process per node do on two buffers they do on one. -/
theorem transfer {X : Type} [AddCommMonoid X] (N len : Nat) (sz : Nat → Nat) (m : Nat → Mem X) (sched : Nat → List Block)
    (prog : Nat → List Instr) (h1 : ∀ t, t < N → program N sz .allreduce (sched t) t = some (prog t))
    (h2 : Correct N prog (fun t => doubled (m t)) fun mem => AllreduceMem N len (fun t => doubled (m t)) mem) :
    Correct N (fun t => inPlace (prog t)) m fun mem => InPlaceMem N len m mem := by
  refine correct_inPlace N prog m _ _ (fun t ht => program_inPlace N sz (sched t) t (prog t) (h1 t ht)) h2 ?_
  intro mem mem' hm he t ht
  obtain ⟨a1, a2, a3⟩ := hm t ht
  refine ⟨fun e h => ?_, fun e h => ?_⟩
  · rw [he t ht, a1 e h]
    rfl
  · rw [he t ht, a2 e h]
    rfl

/-- C65, recursive algorithm: the allreduce programs work in place. Only for the programs before the passes of `Model/Optimise.lean`;
with these passes it is wrong (`inPlace_violated`). -/
theorem inPlace_recursive_partial {X : Type} [AddCommMonoid X] (negs mids gs : List Nat) (hne : mids ++ gs ≠ [])
    (hn : ∀ p, p ∈ negs → 0 < p) (hm : ∀ p, p ∈ mids → 0 < p) (hg : ∀ p, p ∈ gs → 0 < p)
    (hbal : (negs.map fun p => p + 1).prod = (gs.map fun p => p + 1).prod) (sz : Nat → Nat) (m : Nat → Mem X) :
    ∃ (sched : Nat → List Block) (prog : Nat → List Instr),
      (∀ t, Recursive.generate false ((negs.map fun p : Nat => -(p : Int)) ++
        ((mids ++ gs).map fun p : Nat => (p : Int))) t = some (sched t)) ∧
      (∀ t, t < ((mids ++ gs).map fun p => p + 1).prod →
        program ((mids ++ gs).map fun p => p + 1).prod sz .allreduce (sched t) t = some (prog t)) ∧
      Correct ((mids ++ gs).map fun p => p + 1).prod (fun t => inPlace (prog t)) m fun mem =>
        InPlaceMem ((mids ++ gs).map fun p => p + 1).prod
          (∑ k ∈ Finset.range ((mids ++ gs).map fun p => p + 1).prod, sz k) m mem := by
  obtain ⟨sched, prog, h1, h2, h3⟩ := allreduce_recursive negs mids gs hne hn hm hg hbal sz (fun t => doubled (m t))
  exact ⟨sched, prog, h1, h2, transfer _ _ sz m sched prog h2 h3⟩

/-- C65, cyclic algorithm, before the same passes and for lists of ports that fit. -/
theorem inPlace_cyclic_partial {X : Type} [AddCommMonoid X] (N : Nat) (hN : 0 < N) (negs ports : List Nat)
    (hne : ports ≠ []) (hp : ∀ p, p ∈ ports → 0 < p) (hcov : N ≤ (ports.map fun p => p + 1).prod)
    (hfit : CyclicReduce.Fits N 1 ports) (sz : Nat → Nat) (m : Nat → Mem X) :
    ∃ (sched : Nat → List Block) (prog : Nat → List Instr),
      (∀ t, CyclicReduce.core N negs ports t = some (sched t)) ∧
      (∀ t, t < N → program N sz .allreduce (sched t) t = some (prog t)) ∧
      Correct N (fun t => inPlace (prog t)) m fun mem => InPlaceMem N (∑ k ∈ Finset.range N, sz k) m mem := by
  obtain ⟨sched, prog, h1, h2, h3⟩ := allreduce_cyclic_partial N hN negs ports hne hp hcov hfit sz (fun t => doubled (m t))
  exact ⟨sched, prog, h1, h2, transfer _ _ sz m sched prog h2 h3⟩

/-- Six nodes and pieces of different sizes. -/
example (m : Nat → Mem Nat) : ∃ (sched : Nat → List Block) (prog : Nat → List Instr),
    (∀ t, Recursive.generate false [-2, 1, 2] t = some (sched t)) ∧
    (∀ t, t < 6 → program 6 (fun k => k % 3) .allreduce (sched t) t = some (prog t)) ∧
    Correct 6 (fun t => inPlace (prog t)) m fun mem => InPlaceMem 6 (∑ k ∈ Finset.range 6, k % 3) m mem :=
  inPlace_recursive_partial [2] [1] [2] (by decide) (by decide) (by decide) (by decide) (by decide) _ m

/-- Seven nodes, a reduction step and two steps that may gather or reduce. -/
example (m : Nat → Mem Nat) : ∃ (sched : Nat → List Block) (prog : Nat → List Instr),
    (∀ t, CyclicReduce.core 7 [1] [2, 2] t = some (sched t)) ∧
    (∀ t, t < 7 → program 7 (fun k => k % 3) .allreduce (sched t) t = some (prog t)) ∧
    Correct 7 (fun t => inPlace (prog t)) m fun mem => InPlaceMem 7 (∑ k ∈ Finset.range 7, k % 3) m mem :=
  inPlace_cyclic_partial 7 (by decide) [1] [2, 2] (by decide) (by decide) (by decide)
    (CyclicReduce.fits_small 7 [2, 2] 1 (by decide)) _ m

end ExtMpi.OnePerNode
