import Verif.Props.Cluster
import Verif.Lemmas.ClusterUses
/-! # Repeated executions by several processes on each of several nodes (C102) -/
namespace ExtMpi.Cluster
open RawCode Schedule RankPerm
open TasksNode
open OnNode (Par)

/-- The number of barriers at the start of the programs, the sizes `S`, `R` of the send and receive buffers of the processes,
the programs of the processes for one request, and what one execution is to do: the collectives of C68, C69 and C70. -/
inductive CLibrary {X : Type} [AddCommMonoid X] (N ns : Nat) (u : Users) :
    Nat → (Nat → Nat) → (Nat → Nat) → (Nat → List CInstr) → ((Nat → Mem X) → (Nat → Mem X) → Prop) → Prop
  | allreduce {negs mids gs : List Nat} {sz : Nat → Nat} {ts : Nat} {P : Par} {sched : Nat → List Block}
      {prog : Nat → List CInstr} :
      mids ++ gs ≠ [] → (∀ p, p ∈ negs → 0 < p) → (∀ p, p ∈ mids → 0 < p) → (∀ p, p ∈ gs → 0 < p) →
      (negs.map fun p => p + 1).prod = (gs.map fun p => p + 1).prod → N = ((mids ++ gs).map fun p => p + 1).prod →
      0 < ∑ k ∈ Finset.range N, sz k → P ∈ OnNode.largeChoices ns ts (∑ k ∈ Finset.range N, sz k) →
      Apart ns u (∑ k ∈ Finset.range N, sz k) →
      (∀ t, Recursive.generate false ((negs.map fun p : Nat => -(p : Int)) ++
        ((mids ++ gs).map fun p : Nat => (p : Int))) t = some (sched t)) →
      (∀ p, p < N * ns → allreduceProgram N ns P sz (List.range N) u (sched (p / ns)) (p / ns) (p % ns) = some (prog p)) →
      CLibrary N ns u 2 (fun _ => ∑ k ∈ Finset.range N, sz k) (fun _ => ∑ k ∈ Finset.range N, sz k) prog
        (CAllreduceMem N ns u (∑ k ∈ Finset.range N, sz k))
  | allreduceCyclic {negs ports : List Nat} {sz : Nat → Nat} {ts : Nat} {P : Par} {sched : Nat → List Block}
      {prog : Nat → List CInstr} :
      0 < N → ports ≠ [] → (∀ p, p ∈ ports → 0 < p) → N ≤ (ports.map fun p => p + 1).prod → CyclicReduce.Fits N 1 ports →
      0 < ∑ k ∈ Finset.range N, sz k → P ∈ OnNode.largeChoices ns ts (∑ k ∈ Finset.range N, sz k) →
      Apart ns u (∑ k ∈ Finset.range N, sz k) →
      (∀ t, CyclicReduce.core N negs ports t = some (sched t)) →
      (∀ p, p < N * ns → allreduceProgram N ns P sz (List.range N) u (sched (p / ns)) (p / ns) (p % ns) = some (prog p)) →
      CLibrary N ns u 2 (fun _ => ∑ k ∈ Finset.range N, sz k) (fun _ => ∑ k ∈ Finset.range N, sz k) prog
        (CAllreduceMem N ns u (∑ k ∈ Finset.range N, sz k))
  | reduceScatter {ports : List Nat} {cnt : Nat → Nat} {ts : Nat} {P : Par} {sched : Nat → List Block}
      {prog : Nat → List CInstr} :
      ports ≠ [] → (∀ p, p ∈ ports → 0 < p) → N = (ports.map fun p => p + 1).prod →
      0 < ∑ k ∈ Finset.range (N * ns), cnt k → P ∈ OnNode.largeChoices ns ts (∑ k ∈ Finset.range (N * ns), cnt k) →
      ApartBy ns u cnt →
      (∀ t, Recursive.generate false (ports.map fun p : Nat => -(p : Int)) t = some (sched t)) →
      (∀ p, p < N * ns → reduceScatterProgram N ns P cnt (List.range N) u (sched (p / ns)) (p / ns) (p % ns) = some (prog p)) →
      CLibrary N ns u 2 (fun _ => ∑ k ∈ Finset.range (N * ns), cnt k) cnt prog (CReduceScatterMem N ns u cnt)
  | reduceScatterCyclic {negs : List Nat} {cnt : Nat → Nat} {ts : Nat} {P : Par} {sched : Nat → List Block}
      {prog : Nat → List CInstr} :
      0 < N → N ≤ (negs.map fun p => p + 1).prod →
      0 < ∑ k ∈ Finset.range (N * ns), cnt k → P ∈ OnNode.largeChoices ns ts (∑ k ∈ Finset.range (N * ns), cnt k) →
      ApartBy ns u cnt → (∀ t, CyclicReduce.core N negs [] t = some (sched t)) →
      (∀ p, p < N * ns → reduceScatterProgram N ns P cnt (List.range N) u (sched (p / ns)) (p / ns) (p % ns) = some (prog p)) →
      CLibrary N ns u 2 (fun _ => ∑ k ∈ Finset.range (N * ns), cnt k) cnt prog (CReduceScatterMem N ns u cnt)
  | allgather {ports : List Nat} {cnt : Nat → Nat} {perm : List Nat} {sched sched' : Nat → List Block}
      {prog : Nat → List CInstr} :
      (∀ p, p ∈ ports → 0 < p) → N = (ports.map fun p => p + 1).prod → IsPerm N perm →
      Apart ns u (∑ k ∈ Finset.range (N * ns), cnt k) →
      (∀ t, Recursive.generate true (ports.map fun p : Nat => (p : Int)) t = some (sched t)) →
      Relabelled N perm sched sched' →
      (∀ p, p < N * ns → allgatherProgram N ns cnt perm u (sched' (p / ns)) (p / ns) (p % ns) = some (prog p)) →
      CLibrary N ns u 1 cnt (fun _ => ∑ k ∈ Finset.range (N * ns), cnt k) prog (TAllgatherMem N ns u cnt)
  | allgatherCyclic {ports : List Nat} {cnt : Nat → Nat} {prog : Nat → List CInstr} :
      0 < N → (∀ p, p ∈ ports → 0 < p) → Cyclic.Suits N 1 ports → N ≤ (ports.map fun p => p + 1).prod →
      Apart ns u (∑ k ∈ Finset.range (N * ns), cnt k) →
      (∀ p, p < N * ns →
        allgatherProgram N ns cnt (List.range N) u (Cyclic.allgather N ports (p / ns)) (p / ns) (p % ns) = some (prog p)) →
      CLibrary N ns u 1 cnt (fun _ => ∑ k ∈ Finset.range (N * ns), cnt k) prog (TAllgatherMem N ns u cnt)

variable {X : Type} [AddCommMonoid X]

/-- One execution. -/
theorem clibrary_serial {N ns d : Nat} (hns : 0 < ns) {u : Users} {S R : Nat → Nat} {prog : Nat → List CInstr}
    {post : (Nat → Mem X) → (Nat → Mem X) → Prop} (h : CLibrary N ns u d S R prog post) (m : Nat → Mem X) :
    0 < d ∧ ∃ pr, (∀ p, p < N * ns → pr p = prog p) ∧ Serial N ns d pr m (post m) := by
  cases h with
  | @allreduce negs mids gs sz ts P sched _ h1 h2 h3 h4 h5 h6 h7 h8 h9 h10 h11 =>
    subst h6
    obtain ⟨sched', pr, g1, g2, g3⟩ := allreduce_recursive_serial negs mids gs h1 h2 h3 h4 h5 hns sz h7 h8 u h9 m
    exact ⟨by decide, pr, fun t ht => Option.some.inj ((g2 t ht).symm.trans
      (by rw [Option.some.inj ((g1 (t / ns)).symm.trans (h10 (t / ns)))]; exact h11 t ht)), g3.serial⟩
  | @allreduceCyclic negs ports sz ts P sched _ h1 h2 h3 h4 h5 h6 h7 h8 h9 h10 =>
    obtain ⟨sched', pr, g1, g2, g3⟩ := allreduce_cyclic_serial N h1 negs ports h2 h3 h4 h5 hns sz h6 h7 u h8 m
    exact ⟨by decide, pr, fun t ht => Option.some.inj ((g2 t ht).symm.trans
      (by rw [Option.some.inj ((g1 (t / ns)).symm.trans (h9 (t / ns)))]; exact h10 t ht)), g3.serial⟩
  | @reduceScatter ports _ ts P sched _ h1 h2 h3 h4 h5 h6 h7 h8 =>
    subst h3
    obtain ⟨sched', pr, g1, g2, g3⟩ := reduceScatter_recursive_serial ports h1 h2 hns R h4 h5 u h6 m
    exact ⟨by decide, pr, fun t ht => Option.some.inj ((g2 t ht).symm.trans
      (by rw [Option.some.inj ((g1 (t / ns)).symm.trans (h7 (t / ns)))]; exact h8 t ht)), g3.serial⟩
  | @reduceScatterCyclic negs _ ts P sched _ h1 h2 h3 h4 h5 h6 h7 =>
    obtain ⟨sched', pr, g1, g2, g3⟩ := reduceScatter_cyclic_serial N h1 negs h2 hns R h3 h4 u h5 m
    exact ⟨by decide, pr, fun t ht => Option.some.inj ((g2 t ht).symm.trans
      (by rw [Option.some.inj ((g1 (t / ns)).symm.trans (h6 (t / ns)))]; exact h7 t ht)), g3.serial⟩
  | @allgather ports _ perm sched sched' _ h1 h2 h3 h4 h5 h6 h7 =>
    subst h2
    obtain ⟨sc, sc', pr, g1, g2, g3, g4⟩ := allgather_recursive_serial ports h1 hns S perm h3 u m h4
    refine ⟨by decide, pr, fun t ht => Option.some.inj ((g3 t ht).symm.trans ?_), g4.serial⟩
    have ha : t / ns < (ports.map fun p => p + 1).prod := div_lt ht
    obtain ⟨x, e1, e2⟩ := g2 _ ha
    obtain ⟨x', e1', e2'⟩ := h6 _ ha
    obtain rfl : x = x' := Option.some.inj (e1.symm.trans e1')
    rw [Option.some.inj ((g1 x).symm.trans (h5 x))] at e2
    rw [Option.some.inj (e2.symm.trans e2')]
    exact h7 t ht
  | @allgatherCyclic ports _ _ h1 h2 h3 h4 h5 h6 =>
    obtain ⟨pr, g2, g3⟩ := allgather_cyclic_serial N h1 ports h2 h3 h4 hns S u m h5
    exact ⟨by decide, pr, fun t ht => Option.some.inj ((g2 t ht).symm.trans (h6 t ht)), g3.serial⟩

/-- Processes use their own buffers and shared memory only. -/
theorem clibrary_own {N ns d : Nat} (hns : 0 < ns) {u : Users} {S R : Nat → Nat} {prog : Nat → List CInstr}
    {post : (Nat → Mem X) → (Nat → Mem X) → Prop} (h : CLibrary N ns u d S R prog post) {p : Nat} (hp : p < N * ns) {j : Instr}
    (hj : .op j ∈ prog p) : OwnI u S R p j := by
  have key : ∀ {q}, q = p → OwnI u S R q j → OwnI u S R p j := fun e h => e ▸ h
  have hc : ∀ cnt : Nat → Nat, moffset (coarse ns cnt) N = ∑ k ∈ Finset.range (N * ns), cnt k := fun cnt => total_coarse ns cnt N
  have hm : ∀ sz : Nat → Nat, moffset sz N = ∑ k ∈ Finset.range N, sz k := fun sz => by rw [moffset_eq, lo_eq_sum]
  refine key (Nat.div_add_mod' p ns) ?_
  cases h with
  | allreduce _ _ _ _ _ _ h7 h8 _ _ h11 =>
    have hl := (large_sound hns h7 h8).2.2
    exact own_reduce (by rw [hl, hm]) (by rw [hl]) (fun b i hi => raw_outAll (by rw [hm]) _ _ _ hi) (h11 p hp) hj
  | allreduceCyclic _ _ _ _ _ h6 h7 _ _ h10 =>
    have hl := (large_sound hns h6 h7).2.2
    exact own_reduce (by rw [hl, hm]) (by rw [hl]) (fun b i hi => raw_outAll (by rw [hm]) _ _ _ hi) (h10 p hp) hj
  | reduceScatter _ _ _ h4 h5 _ _ h8 =>
    have hl := (large_sound hns h4 h5).2.2
    exact own_reduce (by rw [hl, hc]) (by rw [hl]) (fun b i hi => raw_outPart (Nat.le_refl _) _ _ hi) (h8 p hp) hj
  | reduceScatterCyclic _ _ h3 h4 _ _ h7 =>
    have hl := (large_sound hns h3 h4).2.2
    exact own_reduce (by rw [hl, hc]) (by rw [hl]) (fun b i hi => raw_outPart (Nat.le_refl _) _ _ hi) (h7 p hp) hj
  | allgather _ _ _ _ _ _ h7 => exact own_gather (Nat.le_refl _) (by rw [hc]) (h7 p hp) hj
  | allgatherCyclic _ _ _ _ _ h6 => exact own_gather (Nat.le_refl _) (by rw [hc]) (h6 p hp) hj

/-- C102: `K` executions of a persistent collective by `ns` processes on each of `N` nodes, with changes of the buffers by the
processes before every execution. No execution gets stuck or has a race, and all end as if the executions took place one at
a time: the memories at the start of an execution are those at the end of the one before with the changes of all processes.
Processes start an execution while others of their node, or of other nodes, are still in an earlier one. -/
theorem executions {N ns d : Nat} (hns : 0 < ns) {u : Users} {S R : Nat → Nat} {prog : Nat → List CInstr}
    {post : (Nat → Mem X) → (Nat → Mem X) → Prop} (hl : CLibrary N ns u d S R prog post)
    {fills : Nat → Nat → List Change} (hf : OwnData ns u S R fills) (K : Nat) (m : Nat → Mem X) :
    CCorrect N ns (repeated N ns fills prog K) m (Serially N ns fills post 0 K m) := by
  refine repeat_ccorrect hns (private_of_own hf fun p j hj => ?_) (fun m => by
    obtain ⟨hd, pr, h⟩ := clibrary_serial hns hl m
    exact ⟨d, pr, hd, h⟩) K m
  by_cases hp : p < N * ns
  · rw [if_pos hp] at hj
    exact clibrary_own hns hl hp hj
  · rw [if_neg hp] at hj
    cases hj

/-! ## The hypotheses can be met -/

/-- Every process takes the first elements of its result as the first elements of the next contribution, and keeps the last
one of its result outside of its buffers. -/
def feedback (i p : Nat) : List Change :=
  [(⟨.send, twoUsers.send p⟩, ⟨.recv, twoUsers.recv p⟩), (⟨.send, twoUsers.send p + 1⟩, ⟨.recv, twoUsers.recv p + 1⟩),
    (⟨.recv, twoUsers.recv p + 100 + i % 200⟩, ⟨.recv, twoUsers.recv p + 20⟩)]

theorem feedback_own : OwnData 2 twoUsers (fun _ => 21) (fun _ => 21) feedback where
  shm := fun i p x hx k => by
    simp only [feedback, List.mem_cons, List.not_mem_nil, or_false] at hx
    rcases hx with rfl | rfl | rfl <;> simp
  buffers := fun i p x hx p' hne hd => by
    simp only [feedback, List.mem_cons, List.not_mem_nil, or_false] at hx
    rcases hx with rfl | rfl | rfl <;> simp [InBuffers, twoUsers] <;> omega
  own := fun i p x hx i' p' x' hx' hne hd => by
    simp only [feedback, List.mem_cons, List.not_mem_nil, or_false] at hx hx'
    rcases hx with rfl | rfl | rfl <;> rcases hx' with rfl | rfl | rfl <;> simp [twoUsers] <;> omega
  ne := fun i p x hx => by
    simp only [feedback, List.mem_cons, List.not_mem_nil, or_false] at hx
    rcases hx with rfl | rfl | rfl <;> simp [twoUsers]
    omega

/-- Six nodes with two processes each, ten executions of an allreduce, each with results of the one before. -/
example (m : Nat → Mem Nat) : ∃ (sched : Nat → List Block) (prog : Nat → List CInstr) (P : Par),
    (∀ p, p < 6 * 2 →
      allreduceProgram 6 2 P (fun k => k + 1) (List.range 6) twoUsers (sched (p / 2)) (p / 2) (p % 2) = some (prog p)) ∧
    CCorrect 6 2 (repeated 6 2 feedback prog 10) m (Serially 6 2 feedback (CAllreduceMem 6 2 twoUsers 21) 0 10 m) := by
  obtain ⟨P, hP⟩ := choices_ne 2 8 21
  obtain ⟨sched, prog, h1, h2, _⟩ := allreduce_recursive [1] [2] [1] (by decide) (by decide) (by decide) (by decide)
    (by decide) (by decide) (fun k => k + 1) (by decide) hP twoUsers (twoUsers_apart (by decide)) m
  exact ⟨sched, prog, P, h2, executions (by decide) (.allreduce (negs := [1]) (mids := [2]) (gs := [1]) (by decide) (by decide)
    (by decide) (by decide) (by decide) (by decide) (by decide) hP (twoUsers_apart (by decide)) h1 h2) feedback_own 10 m⟩

end ExtMpi.Cluster
