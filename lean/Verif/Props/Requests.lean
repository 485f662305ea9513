import Verif.Lemmas.RequestsSerial
import Verif.Lemmas.RequestsBlock
import Verif.Lemmas.RequestsOrder
import Verif.Props.Optimise
import Verif.Props.RawCodeCyclic
/-! # Properties C98 and C99: several requests and repeated executions, one process per node -/
namespace ExtMpi.Requests
open RawCode Optimise

/-- The programs of `N` processes for one request and what one execution is to do: the collectives of C52 to C56 and, with
the passes that work in the buffers of the user, of C61 to C63. -/
inductive Library {X : Type} [AddCommMonoid X] (N : Nat) :
    (Nat → List Instr) → ((Nat → Mem X) → (Nat → Mem X) → Prop) → Prop
  | allreduce {negs mids gs : List Nat} {sz : Nat → Nat} {sched : Nat → List Schedule.Block} {prog : Nat → List Instr} :
      mids ++ gs ≠ [] → (∀ p, p ∈ negs → 0 < p) → (∀ p, p ∈ mids → 0 < p) → (∀ p, p ∈ gs → 0 < p) →
      (negs.map fun p => p + 1).prod = (gs.map fun p => p + 1).prod → N = ((mids ++ gs).map fun p => p + 1).prod →
      (∀ t, Recursive.generate false ((negs.map fun p : Nat => -(p : Int)) ++
        ((mids ++ gs).map fun p : Nat => (p : Int))) t = some (sched t)) →
      (∀ t, t < N → program N sz .allreduce (sched t) t = some (prog t)) →
      Library N prog (AllreduceMem N (∑ k ∈ Finset.range N, sz k))
  | allgather {ports : List Nat} {sz : Nat → Nat} {sched : Nat → List Schedule.Block} {prog : Nat → List Instr} :
      (∀ p, p ∈ ports → 0 < p) → N = (ports.map fun p => p + 1).prod →
      (∀ t, Recursive.generate true (ports.map fun p : Nat => (p : Int)) t = some (sched t)) →
      (∀ t, t < N → program N sz .allgather (sched t) t = some (prog t)) →
      Library N prog (AllgatherMem N sz)
  | reduceScatter {ports : List Nat} {sz : Nat → Nat} {sched : Nat → List Schedule.Block} {prog : Nat → List Instr} :
      ports ≠ [] → (∀ p, p ∈ ports → 0 < p) → N = (ports.map fun p => p + 1).prod →
      (∀ t, Recursive.generate false (ports.map fun p : Nat => -(p : Int)) t = some (sched t)) →
      (∀ t, t < N → program N sz .reduceScatter (sched t) t = some (prog t)) →
      Library N prog (ReduceScatterMem N sz)
  | allreduceCyclic {negs ports : List Nat} {sz : Nat → Nat} {sched : Nat → List Schedule.Block}
      {prog : Nat → List Instr} :
      0 < N → ports ≠ [] → (∀ p, p ∈ ports → 0 < p) → N ≤ (ports.map fun p => p + 1).prod →
      CyclicReduce.Fits N 1 ports → (∀ t, CyclicReduce.core N negs ports t = some (sched t)) →
      (∀ t, t < N → program N sz .allreduce (sched t) t = some (prog t)) →
      Library N prog (AllreduceMem N (∑ k ∈ Finset.range N, sz k))
  | allgatherCyclic {ports : List Nat} {sz : Nat → Nat} {prog : Nat → List Instr} :
      0 < N → (∀ p, p ∈ ports → 0 < p) → Cyclic.Suits N 1 ports → N ≤ (ports.map fun p => p + 1).prod →
      (∀ t, t < N → program N sz .allgather (Cyclic.allgather N ports t) t = some (prog t)) →
      Library N prog (AllgatherMem N sz)
  | reduceScatterCyclic {negs : List Nat} {sz : Nat → Nat} {sched : Nat → List Schedule.Block}
      {prog : Nat → List Instr} :
      0 < N → N ≤ (negs.map fun p => p + 1).prod → (∀ t, CyclicReduce.core N negs [] t = some (sched t)) →
      (∀ t, t < N → program N sz .reduceScatter (sched t) t = some (prog t)) →
      Library N prog (ReduceScatterMem N sz)
  | allreduceDirect {C : Nat} {negs mids gs : List Nat} {sz : Nat → Nat} {sched : Nat → List Schedule.Block}
      {prog : Nat → List Instr} :
      0 < C → mids ++ gs ≠ [] → (∀ p, p ∈ negs → 0 < p) → (∀ p, p ∈ mids → 0 < p) → (∀ p, p ∈ gs → 0 < p) →
      (negs.map fun p => p + 1).prod = (gs.map fun p => p + 1).prod → N = ((mids ++ gs).map fun p => p + 1).prod →
      (∀ t, Recursive.generate false ((negs.map fun p : Nat => -(p : Int)) ++
        ((mids ++ gs).map fun p : Nat => (p : Int))) t = some (sched t)) →
      (∀ t, t < N → userProgram C N sz .allreduce
        (bigRecvbuf ((negs.map fun p : Nat => -(p : Int)) ++ ((mids ++ gs).map fun p : Nat => (p : Int)))) (sched t) t =
          some (prog t)) →
      Library N prog (AllreduceMem N (∑ k ∈ Finset.range N, sz k))
  | reduceScatterDirect {C : Nat} {ports : List Nat} {sz : Nat → Nat} {sched : Nat → List Schedule.Block}
      {prog : Nat → List Instr} :
      0 < C → ports ≠ [] → (∀ p, p ∈ ports → 0 < p) → N = (ports.map fun p => p + 1).prod →
      (∀ t, Recursive.generate false (ports.map fun p : Nat => -(p : Int)) t = some (sched t)) →
      (∀ t, t < N → userProgram C N sz .reduceScatter (bigRecvbuf (ports.map fun p : Nat => -(p : Int))) (sched t) t =
        some (prog t)) →
      Library N prog (ReduceScatterMem N sz)
  | allgatherDirect {C port : Nat} {ports : List Nat} {sz : Nat → Nat} {sched : Nat → List Schedule.Block}
      {prog : Nat → List Instr} :
      0 < C → (∀ p, p ∈ port :: ports → 0 < p) → N = ((port :: ports).map fun p => p + 1).prod →
      (∀ k, k < N → 0 < sz k) →
      (∀ t, Recursive.generate true ((port :: ports).map fun p : Nat => (p : Int)) t = some (sched t)) →
      (∀ t, t < N → gatherProgram C N sz port (sched t) t = some (prog t)) →
      Library N prog (AllgatherMem N sz)

variable {X : Type} [AddCommMonoid X]

/-- One execution of a request of the library. -/
theorem library_correct {N : Nat} {prog : Nat → List Instr} {post : (Nat → Mem X) → (Nat → Mem X) → Prop}
    (h : Library N prog post) (m : Nat → Mem X) :
    ∃ pr, (∀ t, t < N → pr t = prog t) ∧ Correct N pr m (post m) := by
  cases h with
  | @allreduce negs mids gs sz sched _ h1 h2 h3 h4 h5 h6 h7 h8 =>
    subst h6
    obtain ⟨sched', pr, g1, g2, g3⟩ := allreduce_recursive negs mids gs h1 h2 h3 h4 h5 sz m
    exact ⟨pr, fun t ht => Option.some.inj ((g2 t ht).symm.trans
      (by rw [Option.some.inj ((g1 t).symm.trans (h7 t))]; exact h8 t ht)), g3⟩
  | @allgather ports sz sched _ h1 h2 h3 h4 =>
    subst h2
    obtain ⟨sched', pr, g1, g2, g3⟩ := allgather_recursive ports h1 sz m
    exact ⟨pr, fun t ht => Option.some.inj ((g2 t ht).symm.trans
      (by rw [Option.some.inj ((g1 t).symm.trans (h3 t))]; exact h4 t ht)), g3⟩
  | @reduceScatter ports sz sched _ h1 h2 h3 h4 h5 =>
    subst h3
    obtain ⟨sched', pr, g1, g2, g3⟩ := reduceScatter_recursive ports h1 h2 sz m
    exact ⟨pr, fun t ht => Option.some.inj ((g2 t ht).symm.trans
      (by rw [Option.some.inj ((g1 t).symm.trans (h4 t))]; exact h5 t ht)), g3⟩
  | @allreduceCyclic negs ports sz sched _ h1 h2 h3 h4 h5 h6 h7 =>
    obtain ⟨sched', pr, g1, g2, g3⟩ := allreduce_cyclic_partial N h1 negs ports h2 h3 h4 h5 sz m
    exact ⟨pr, fun t ht => Option.some.inj ((g2 t ht).symm.trans
      (by rw [Option.some.inj ((g1 t).symm.trans (h6 t))]; exact h7 t ht)), g3⟩
  | @allgatherCyclic ports sz _ h1 h2 h3 h4 h5 =>
    obtain ⟨pr, g2, g3⟩ := allgather_cyclic N h1 ports h2 h3 h4 sz m
    exact ⟨pr, fun t ht => Option.some.inj ((g2 t ht).symm.trans (h5 t ht)), g3⟩
  | @reduceScatterCyclic negs sz sched _ h1 h2 h3 h4 =>
    obtain ⟨sched', pr, g1, g2, g3⟩ := reduceScatter_cyclic N h1 negs h2 sz m
    exact ⟨pr, fun t ht => Option.some.inj ((g2 t ht).symm.trans
      (by rw [Option.some.inj ((g1 t).symm.trans (h3 t))]; exact h4 t ht)), g3⟩
  | @allreduceDirect C negs mids gs sz sched _ h0 h1 h2 h3 h4 h5 h6 h7 h8 =>
    subst h6
    obtain ⟨sched', pr, g1, g2, g3⟩ := allreduce_direct C h0 negs mids gs h1 h2 h3 h4 h5 sz m
    exact ⟨pr, fun t ht => Option.some.inj ((g2 t ht).symm.trans
      (by rw [Option.some.inj ((g1 t).symm.trans (h7 t))]; exact h8 t ht)), g3⟩
  | @reduceScatterDirect C ports sz sched _ h0 h1 h2 h3 h4 h5 =>
    subst h3
    obtain ⟨sched', pr, g1, g2, g3⟩ := reduceScatter_direct C h0 ports h1 h2 sz m
    exact ⟨pr, fun t ht => Option.some.inj ((g2 t ht).symm.trans
      (by rw [Option.some.inj ((g1 t).symm.trans (h4 t))]; exact h5 t ht)), g3⟩
  | @allgatherDirect C port ports sz sched _ h0 h1 h2 h3 h4 h5 =>
    subst h2
    obtain ⟨sched', pr, g1, g2, g3⟩ := allgather_direct_partial C h0 port ports h1 sz h3 m
    exact ⟨pr, fun t ht => Option.some.inj ((g2 t ht).symm.trans
      (by rw [Option.some.inj ((g1 t).symm.trans (h4 t))]; exact h5 t ht)), g3⟩

/-- C98, the general form: requests whose programs are correct for every memory. -/
theorem same_order_gets {Y : Type} [Add Y] (N : Nat) (prog : Nat → Nat → List Instr)
    (post : Nat → (Nat → Mem Y) → (Nat → Mem Y) → Prop)
    (hc : ∀ h m, ∃ pr, (∀ t, t < N → pr t = prog h t) ∧ Correct N pr m (post h m))
    (m : Nat → Nat → Mem Y) (calls : List (GCall Y)) (ho : Ordered (fun _ => false) calls) :
    ∃ H', Serial post calls m (fun _ => []) H' ∧ Gets N prog false (begin m fun t => calls.map (GCall.at t)) H' := by
  have hb : Before N prog (begin m fun t => calls.map (GCall.at t)) (fun _ => false) m (fun _ => []) calls := by
    refine ⟨fun h => ⟨fun t _ => rfl, rfl⟩, fun t _ => ⟨rfl, rfl⟩⟩
  obtain ⟨n, e, H', h1, h2, h3, h4⟩ := serial_run hc calls _ _ m _ ho hb
  refine ⟨H', h1, ?_⟩
  obtain ⟨bound, hg⟩ := gets_of_run h2 (fun h t => initial_sep _ _ t) (fun t ht => (h3 t ht).1) h4
  refine ⟨bound, fun k s hk => ?_⟩
  obtain ⟨g1, g2, g3⟩ := hg k s hk
  refine ⟨g1, fun t ht => ?_, ?_⟩
  · rw [← (h3 t ht).2]; exact g2 t ht
  · exact g3.imp (fun g t ht => ⟨(g t ht).1, (g t ht).2.trans (h3 t ht).2⟩) id

/-- C98: if all processes make the same calls, in the same order, to any number of requests of the library, every
process receives what it would receive if the operations were performed one at a time. Processes may be any number of
calls ahead of others, nothing synchronises them between two operations, and calls of `MPI_Test` may be anywhere. -/
theorem same_order (N : Nat) (prog : Nat → Nat → List Instr) (post : Nat → (Nat → Mem X) → (Nat → Mem X) → Prop)
    (hl : ∀ h, Library N (prog h) (post h)) (m : Nat → Nat → Mem X) (calls : List (GCall X))
    (ho : Ordered (fun _ => false) calls) :
    ∃ H', Serial post calls m (fun _ => []) H' ∧ Gets N prog false (begin m fun t => calls.map (GCall.at t)) H' :=
  same_order_gets N prog post (fun h m => library_correct (hl h) m) m calls ho

/-! ## Repeated execution of one request -/

/-- `K` executions of request `h`. -/
def rounds {Y : Type} (h : Nat) (fill : Nat → Nat → Hist Y → Mem Y → Mem Y) (K : Nat) : List (GCall Y) :=
  (List.range K).flatMap fun i => [.start h (fill i), .wait h]

theorem rounds_succ {Y : Type} (h : Nat) (fill : Nat → Nat → Hist Y → Mem Y → Mem Y) (K : Nat) :
    rounds h fill (K + 1) = .start h (fill 0) :: .wait h :: rounds h (fun i => fill (i + 1)) K := by
  unfold rounds
  rw [List.range_succ_eq_map, List.flatMap_cons, List.flatMap_map]
  rfl

theorem rounds_ordered {Y : Type} (h : Nat) (fill : Nat → Nat → Hist Y → Mem Y → Mem Y) (K : Nat) :
    Ordered (fun _ => false) (rounds h fill K) := by
  induction K generalizing fill with
  | zero => exact fun _ => rfl
  | succ K ih =>
    rw [rounds_succ]
    refine ⟨rfl, put_same _ _ _, ?_⟩
    rw [put_put]
    have : put (fun _ => false) h false = fun _ => false := put_self (fun _ => false) h
    rw [this]
    exact ih _

theorem rounds_serial {Y : Type} (post : Nat → (Nat → Mem Y) → (Nat → Mem Y) → Prop) (h : Nat) (K : Nat) :
    ∀ (fill : Nat → Nat → Hist Y → Mem Y → Mem Y) (M : Nat → Nat → Mem Y) (H H' : Nat → Hist Y),
    Serial post (rounds h fill K) M H H' →
    ∃ S R : Nat → Nat → Mem Y,
      (∀ i, i < K → post h (S i) (R i) ∧ ∀ t, S i t =
        fill i t (H t ++ (List.range i).map fun j => (h, R j t)) (if i = 0 then M h t else R (i - 1) t)) ∧
      ∀ t, H' t = H t ++ (List.range K).map fun j => (h, R j t) := by
  induction K with
  | zero =>
    intro fill M H H' hs
    cases hs
    exact ⟨fun _ => M h, fun _ => M h, fun i hi => by omega, fun t => by simp⟩
  | succ K ih =>
    intro fill M H H' hs
    rw [rounds_succ] at hs
    cases hs with
    | start hs =>
      cases hs with
      | @wait _ _ _ _ _ R0 hp hs =>
        obtain ⟨S, R, h1, h2⟩ := ih _ _ _ _ hs
        rw [put_same] at hp
        refine ⟨fun i => match i with | 0 => fun t => fill 0 t (H t) (M h t) | i + 1 => S i,
          fun i => match i with | 0 => R0 | i + 1 => R i, ?_, ?_⟩
        · intro i hi
          cases i with
          | zero => exact ⟨hp, fun t => by simp⟩
          | succ i =>
            obtain ⟨g1, g2⟩ := h1 i (by omega)
            refine ⟨g1, fun t => ?_⟩
            have := g2 t
            dsimp only
            rw [this, List.range_succ_eq_map, List.map_cons, List.map_map]
            congr 1
            · simp only [List.append_assoc, List.cons_append, List.nil_append]
              rfl
            · cases i with
              | zero => simp [put_same]
              | succ i => simp
        · intro t
          rw [h2 t, List.range_succ_eq_map, List.map_cons, List.map_map]
          simp only [List.append_assoc, List.cons_append, List.nil_append]
          rfl

/-- C98, repeated execution of a persistent collective: `K` times start and wait, with new data every time. The result of
execution `i` on all processes is that of the collective on the memories `S i` at the starts of this execution. -/
theorem repeated (N : Nat) (prog : Nat → List Instr) (post : (Nat → Mem X) → (Nat → Mem X) → Prop)
    (hl : Library N prog post) (m : Nat → Mem X) (fill : Nat → Nat → Hist X → Mem X → Mem X) (K : Nat) :
    ∃ S R : Nat → Nat → Mem X,
      (∀ i, i < K → post (S i) (R i) ∧ ∀ t, S i t =
        fill i t ((List.range i).map fun j => (0, R j t)) (if i = 0 then m t else R (i - 1) t)) ∧
      Gets N (fun _ => prog) false (begin (fun _ => m) fun t => (rounds 0 fill K).map (GCall.at t))
        fun t => (List.range K).map fun j => (0, R j t) := by
  obtain ⟨H', h1, h2⟩ := same_order N (fun _ => prog) (fun _ => post) (fun _ => hl) (fun _ => m) (rounds 0 fill K)
    (rounds_ordered 0 fill K)
  obtain ⟨S, R, g1, g2⟩ := rounds_serial _ 0 K fill _ _ _ h1
  refine ⟨S, R, ?_, ?_⟩
  · intro i hi
    obtain ⟨a, b⟩ := g1 i hi
    exact ⟨a, fun t => by have := b t; rw [List.nil_append] at this; exact this⟩
  · have : H' = fun t => (List.range K).map fun j => (0, R j t) := by
      funext t; rw [g2 t, List.nil_append]
    rw [← this]; exact h2

/-- A library request: allreduce on six nodes with different sizes. -/
theorem library_example : ∃ prog : Nat → List Instr,
    Library (X := Nat) 6 prog (AllreduceMem 6 (∑ k ∈ Finset.range 6, k)) := by
  obtain ⟨sched, prog, h1, h2, _⟩ := allreduce_recursive (X := Nat) [2, 1] [] [1, 2] (by decide) (by decide) (by decide)
    (by decide) (by decide) (fun k => k) (fun _ _ _ => 0)
  exact ⟨prog, .allreduce (negs := [2, 1]) (mids := []) (gs := [1, 2]) (by decide) (by decide) (by decide) (by decide)
    (by decide) (by decide) h1 h2⟩

/-- Three executions: the second reduces the result of the first and so on. -/
example : ∃ (prog : Nat → List Instr) (S R : Nat → Nat → Mem Nat),
    (∀ i, i < 3 → AllreduceMem 6 15 (S i) (R i)) ∧
    Gets 6 (fun _ => prog) false (begin (fun _ t _ e => t + e) fun t =>
      (rounds 0 (fun _ _ _ mem r e => match r with | .send => mem .recv e | r => mem r e) 3).map (GCall.at t))
      fun t => (List.range 3).map fun j => (0, R j t) := by
  obtain ⟨prog, hl⟩ := library_example
  obtain ⟨S, R, h1, h2⟩ := repeated 6 prog _ hl (fun t _ e => t + e)
    (fun _ _ _ mem r e => match r with | .send => mem .recv e | r => mem r e) 3
  exact ⟨prog, S, R, fun i hi => (h1 i hi).1, h2⟩

/-- Two requests that are active at the same time. -/
example : Ordered (X := Nat) (fun _ => false)
    [.start 0 fun _ _ m => m, .start 1 fun _ _ m => m, .wait 1, .start 1 fun _ _ m => m, .wait 0, .wait 1] := by
  refine ⟨rfl, rfl, rfl, rfl, rfl, rfl, fun h => ?_⟩
  by_cases h1 : h = 1
  · subst h1; rfl
  · by_cases h0 : h = 0
    · subst h0; rfl
    · simp [put, h1, h0]

/-! ## Different orders -/

/-- C99 is violated: two allgathers that are started in the same order by all processes. Process 0 waits for the first
one first, process 1 for the second one: neither of them ever returns from its wait, whatever the other processes do.
For every recursive allgather on two or more nodes in which the processes 0 and 1 contribute something. -/
theorem different_order_violated {Y : Type} [Add Y] (port : Nat) (ports : List Nat)
    (hp : ∀ p, p ∈ port :: ports → 0 < p) (sz : Nat → Nat) (h0 : 0 < sz 0) (h1 : 0 < sz 1)
    (sched : Nat → List Schedule.Block) (prog : Nat → List Instr)
    (hs : ∀ t, Recursive.generate true ((port :: ports).map fun p : Nat => (p : Int)) t = some (sched t))
    (hprog : ∀ t, t < ((port :: ports).map fun p => p + 1).prod →
      program ((port :: ports).map fun p => p + 1).prod sz .allgather (sched t) t = some (prog t))
    (m : Nat → Nat → Mem Y) (calls : Nat → List (Call Y)) (f0 f1 g0 g1 : Hist Y → Mem Y → Mem Y)
    (c0 : calls 0 = [.start 0 f0, .start 1 f1, .wait 0, .wait 1])
    (c1 : calls 1 = [.start 0 g0, .start 1 g1, .wait 1, .wait 0]) (k : Nat) (s : MState Y)
    (h : MSteps ((port :: ports).map fun p => p + 1).prod (fun _ => prog) false k (begin m calls) s) :
    s.hist 0 = [] ∧ s.hist 1 = [] := by
  obtain ⟨N, hN⟩ : ∃ N, N = Recursive.factor (port :: ports) := ⟨_, rfl⟩
  have hN' : ((port :: ports).map fun p => p + 1).prod = N := hN.symm
  rw [hN'] at hprog h
  have hpp : 0 < port := hp port List.mem_cons_self
  have h2 : 2 ≤ N := by
    rw [hN, Recursive.factor_cons]
    have : 0 < Recursive.factor ports := Recursive.factor_pos _
    exact Nat.le_trans (by omega : 2 ≤ port + 1) (Nat.le_mul_of_pos_right _ this)
  have hsched : ∀ t, sched t = Recursive.allgather (port :: ports) t := by
    intro t
    have := Recursive.generate_allgather (port :: ports) hp t
    exact Option.some.inj ((hs t).symm.trans this)
  have hr : ∀ t, t < 2 → 0 < sz (1 - t) → Receives (prog t) (1 - t) := by
    intro t ht hsz
    have := hprog t (by omega)
    rw [hsched t, Recursive.allgather, Recursive.gatherSteps, ← hN] at this
    exact program_receives this (by omega) (by omega) (by omega) (gather_receives N port t hpp h2 ht sz hsz)
  exact crossed_blocks (a := 0) (b := 1) (by decide) (hr 0 (by decide) h1) (hr 1 (by decide) h0) m calls
    ⟨[.start 0 f0, .start 1 f1], [.wait 1], c0, by simp, f0, by simp⟩
    ⟨[.start 0 g0, .start 1 g1], [.wait 0], c1, by simp, g1, by simp⟩ h

/-- The part of C99 that holds: every process starts the requests `hs` in an order of its own and gets the results in
another order of its own, if it tests all its active requests again and again until they are done. -/
theorem any_order_partial (N : Nat) (prog : Nat → Nat → List Instr)
    (post : Nat → (Nat → Mem X) → (Nat → Mem X) → Prop) (hl : ∀ h, Library N (prog h) (post h))
    (m : Nat → Nat → Mem X) (fill : Nat → Nat → Hist X → Mem X → Mem X) (hs : List Nat) (hnd : hs.Nodup)
    (starts waits : Nat → List Nat) (h1 : ∀ t, t < N → (starts t).Perm hs) (h2 : ∀ t, t < N → (waits t).Perm hs) :
    ∃ R : Nat → Nat → Mem X, (∀ h, h ∈ hs → ∃ S, post h S (R h) ∧ ∀ t, t < N → S t = fill h t [] (m h t)) ∧
      Gets N prog true (begin m fun t => (starts t).map (fun h => .start h (fill h t)) ++ (waits t).map fun h => .wait h)
        fun t => (waits t).map fun h => (h, R h t) := by
  have hb : Here N prog (begin m fun t => (starts t).map (fun h => .start h (fill h t)) ++
      (waits t).map fun h => .wait h) (fun _ _ => false) m
      (fun t => (starts t).map (fun h => .start h (fill h t)) ++ (waits t).map fun h => .wait h) (fun _ => []) :=
    ⟨fun h => ⟨fun t _ => rfl, rfl⟩, fun t _ => ⟨rfl, rfl⟩⟩
  obtain ⟨n1, s1, r1, b1⟩ := here_starts (b := true) hs.length fill starts (fun t ht =>
    ⟨(h1 t ht).length_eq, (h1 t ht).nodup_iff.mpr hnd, fun _ _ => rfl⟩) hb
  have b1' := b1.congr (A' := fun h _ => decide (h ∈ hs)) (fun h t ht => by
    rw [Bool.false_or]; exact decide_eq_decide.mpr (h1 t ht).mem_iff) (fun _ _ _ => rfl) (fun _ _ => rfl) fun _ _ => rfl
  obtain ⟨n2, s2, R, r2, hp, _, b2⟩ := here_run (fun h m => library_correct (hl h) m) hs hnd b1'
  have b2' := b2.congr (C' := fun t => (waits t).map (fun h => .wait h) ++ []) (fun _ _ _ => rfl) (fun _ _ _ => rfl)
    (fun t _ => by rw [List.append_nil]) fun _ _ => rfl
  obtain ⟨n3, s3, r3, b3⟩ := here_waits (b := true) hs.length waits (fun t ht => ⟨(h2 t ht).length_eq, fun _ _ => rfl⟩) b2'
  refine ⟨R, fun h hh => ⟨_, hp h hh, fun t ht => if_pos ((h1 t ht).mem_iff.mpr hh)⟩, ?_⟩
  obtain ⟨bound, hg⟩ := gets_of_run ((r1.trans r2).trans r3) (fun h t => initial_sep _ _ t) (fun t ht => (b3.user t ht).1)
    (fun k t ht => by
      have hr := b3.core k
      rw [hr.1 t ht, hr.2]
      exact ⟨rfl, fun _ => ⟨rfl, rfl, rfl, rfl⟩⟩)
  refine ⟨bound, fun k s hk => ?_⟩
  obtain ⟨g1, g2, g3⟩ := hg k s hk
  have e : ∀ t, t < N → s3.hist t = (waits t).map fun h => (h, R h t) := fun t ht => (b3.user t ht).2
  refine ⟨g1, fun t ht => ?_, ?_⟩
  · dsimp only; rw [← e t ht]; exact g2 t ht
  · exact g3.imp (fun g t ht => ⟨(g t ht).1, (g t ht).2.trans (e t ht)⟩) id

/-- Two allreduces on six nodes; the even processes wait for the first one first, the odd ones for the second one. -/
example : ∃ (prog : Nat → List Instr) (R : Nat → Nat → Mem Nat),
    Gets 6 (fun _ => prog) true (begin (fun h t _ e => h + t + e) fun t =>
      [0, 1].map (fun h => .start h fun _ mem => mem) ++ (if t % 2 = 0 then [0, 1] else [1, 0]).map fun h => .wait h)
      fun t => (if t % 2 = 0 then [0, 1] else [1, 0]).map fun h => (h, R h t) := by
  obtain ⟨prog, hl⟩ := library_example
  obtain ⟨R, _, h⟩ := any_order_partial 6 (fun _ => prog) (fun _ => AllreduceMem 6 _) (fun _ => hl)
    (fun h t _ e => h + t + e) (fun _ _ _ mem => mem) [0, 1] (by decide) (fun _ => [0, 1])
    (fun t => if t % 2 = 0 then [0, 1] else [1, 0]) (fun _ _ => .refl _) (fun t _ => by
      split
      · exact .refl _
      · exact .swap _ _ _)
  exact ⟨prog, R, h⟩

/-- The hypotheses of `different_order_violated`: three nodes that contribute 1, 2 and 3 elements. -/
example : ∃ (sched : Nat → List Schedule.Block) (prog : Nat → List Instr), ∀ (k : Nat) (s : MState Nat),
    MSteps 3 (fun _ => prog) false k (begin (fun h t _ e => h + t + e) fun t =>
      [.start 0 (fun _ m => m), .start 1 (fun _ m => m)] ++ (if t = 1 then [.wait 1, .wait 0] else [.wait 0, .wait 1])) s →
    s.hist 0 = [] ∧ s.hist 1 = [] := by
  obtain ⟨sched, prog, h1, h2, _⟩ := RawCode.allgather_recursive (X := Nat) [2] (by decide) (fun k => k + 1) (fun _ _ _ => 0)
  exact ⟨sched, prog, fun k s h => different_order_violated 2 [] (by decide) (fun k => k + 1) (by decide) (by decide) sched
    prog h1 h2 _ _ _ _ _ _ rfl rfl k s h⟩

end ExtMpi.Requests
