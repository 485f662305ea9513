import Verif.Lemmas.SocketsCode
import Verif.Lemmas.SocketsCheck
import Verif.Lemmas.OnNodeSim
import Verif.Model.Groups
/-! # Several sockets per node: properties C110 to C112 -/
namespace ExtMpi.Sockets
open RawCode

/-- An execution that ends with a wrong result. -/
theorem not_correct {X : Type} [Add X] {n : Nat} {prog : Nat → Option (List SInstr)} {m : OnNode.Cell → X}
    {post : (OnNode.Cell → X) → Prop} (s : OnNode.State X) (hs : ∃ i, OnNode.Steps n i (start (actions n prog) m) s)
    (hend : ∀ p, p < n → (OnNode.stepFn p s).isNone = true) (hpost : ¬post s.mem) : ¬NodeCorrect n prog m post := by
  rintro ⟨_, bound, h⟩
  obtain ⟨i, hi⟩ := hs
  rcases (h i _ hi).2 with ⟨_, hp⟩ | ⟨p, s', hp, hs⟩
  · exact hpost hp
  · have := hend p hp
    rw [OnNode.stepFn_of_step hs] at this
    cases this

/-- The schedules of all processes. -/
def schedules (notRec : Bool) (N : Nat) (ports groups : List Int) (t : Nat) : List Schedule.Block :=
  (Groups.generateAny notRec N ports groups t).getD []

/-- Different values in all send buffers. -/
def sample : OnNode.Cell → Nat
  | .send p _ x => 10 * p + x + 1
  | _ => 0

/-! ## Messages inside of a node -/

/-- C110: programs that are correct with messages are correct on a single node of `n` sockets after the messages have become copies
between segments of shared memory: for every interleaving of the processes they end, and with a memory the programs with
messages could have ended with. -/
theorem shared_correct {X : Type} [AddCommMonoid X] {n rounds : Nat} (hn : 0 < n) {prog : Nat → List Instr} (h : Regular n rounds prog)
    {m : Nat → Mem X} {post : (Nat → Mem X) → Prop} (hc : Correct n prog m post) {M : OnNode.Cell → X} (hm : Holds n m M) :
    NodeCorrect n (fun t => share n n prog t) M fun M' => ∃ mem, post mem ∧ Holds n mem M' :=
  shared_aux hn h hc hm

/-- C110 for allreduce. -/
theorem shared_allreduce {X : Type} [AddCommMonoid X] {n rounds len : Nat} (hn : 0 < n) {prog : Nat → List Instr}
    (h : Regular n rounds prog) {m : Nat → Mem X} (hc : Correct n prog m fun mem => AllreduceMem n len m mem) {M : OnNode.Cell → X}
    (hm : Holds n m M) : NodeCorrect n (fun t => share n n prog t) M (OnNode.AllreduceNode n len 0 M) := by
  obtain ⟨h1, bound, h2⟩ := shared_correct hn h hc hm
  refine ⟨h1, bound, fun k s hs => ⟨(h2 k s hs).1, (h2 k s hs).2.imp ?_ id⟩⟩
  rintro ⟨hf, mem, hp, hh⟩
  refine ⟨hf, fun p hp' => ?_⟩
  obtain ⟨p1, p2, p3⟩ := hp p hp'
  refine ⟨fun e he => ?_, fun e he => ?_, fun e => ?_⟩
  · rw [(hh p hp' e).2.2, p1 e he]
    exact Finset.sum_congr rfl fun q hq => ((hm q (Finset.mem_range.1 hq) e).2.1).symm
  · rw [(hh p hp' e).2.2, p2 e he, (hm p hp' e).2.2]
  · rw [(hh p hp' e).2.1, p3, (hm p hp' e).2.1]

/-- An exchange of two processes and the reduction, as the generator emits it for two sockets. -/
def swap (t : Nat) : List Instr :=
  [.copy false ⟨.shm 0, 0⟩ ⟨.send, 0⟩ 1, .irecv ⟨.shm 0, 1⟩ 1 (1 - t), .isend ⟨.shm 0, 0⟩ 1 (1 - t), .waitall, .barrier,
    .copy true ⟨.shm 0, 0⟩ ⟨.shm 0, 1⟩ 1, .copy false ⟨.recv, 0⟩ ⟨.shm 0, 0⟩ 1]

/-- Memories of the processes with different values in the send buffers. -/
def values (t : Nat) : Mem Nat
  | .send, x => 10 * t + x + 1
  | _, _ => 0

theorem holds_sample (n : Nat) : Holds n values sample := fun _ _ _ => ⟨rfl, rfl, rfl⟩

theorem swap_regular : Regular 2 1 swap := by
  refine ⟨?_, by decide, ?_, ?_⟩
  · intro t ht i hi
    have : t = 0 ∨ t = 1 := by omega
    rcases this with rfl | rfl <;> simp [swap] at hi <;> rcases hi with rfl | rfl | rfl | rfl | rfl | rfl | rfl <;> simp [LineOk]
  · intro t q r ht hq hr
    obtain rfl : r = 0 := by omega
    have h1 : t = 0 ∨ t = 1 := by omega
    have h2 : q = 0 ∨ q = 1 := by omega
    rcases h1 with rfl | rfl <;> rcases h2 with rfl | rfl <;> decide
  · intro t ht i hi
    have : t = 0 ∨ t = 1 := by omega
    rcases this with rfl | rfl <;> simp [swap, splitWaits] at hi <;> rcases hi with rfl | rfl | rfl <;> simp

theorem swap_correct : Correct 2 swap values fun mem => mem 0 .recv 0 = 12 ∧ mem 1 .recv 0 = 12 :=
  correct_of_check [.loc 0, .loc 0, .loc 0, .loc 1, .loc 1, .loc 1, .depart 0 1, .arrive 0 1, .depart 1 0, .arrive 1 0, .loc 0, .loc 0, .loc 0,
    .loc 0, .loc 1, .loc 1, .loc 1, .loc 1] _ rfl (by decide +kernel) (by decide +kernel)

example : NodeCorrect 2 (fun t => share 2 2 swap t) sample fun M' => ∃ mem : Nat → Mem Nat,
    (mem 0 .recv 0 = 12 ∧ mem 1 .recv 0 = 12) ∧ Holds 2 mem M' :=
  shared_correct (by omega) swap_regular swap_correct (holds_sample 2)

/-- The copies and barriers that come out of it. -/
example : share 2 2 swap 0 = some
    [.ins (.copy false ⟨.shm 0, 0⟩ ⟨.send, 0⟩ 1), .ins .waitall, .ins .barrier, .node, .ins (.copy false ⟨.shm 0, 1⟩ ⟨.shm 1, 0⟩ 1), .node,
      .ins .barrier, .ins .barrier, .ins (.copy true ⟨.shm 0, 0⟩ ⟨.shm 0, 1⟩ 1), .ins (.copy false ⟨.recv, 0⟩ ⟨.shm 0, 0⟩ 1)] := by
  decide +kernel

/-- A process on its own. -/
def alone (_ : Nat) : List Instr :=
  [.copy false ⟨.shm 0, 0⟩ ⟨.send, 0⟩ 1, .waitall, .copy false ⟨.recv, 0⟩ ⟨.shm 0, 0⟩ 1]

theorem alone_allreduce : Correct 1 alone values fun mem => AllreduceMem 1 1 values mem := by
  refine correct_of_check [.loc 0, .loc 0, .loc 0] _ rfl (by decide +kernel) ?_
  intro p hp
  obtain rfl : p = 0 := by omega
  refine ⟨fun e he => ?_, fun e he => ?_, ?_⟩
  · obtain rfl : e = 0 := by omega
    decide +kernel
  · have : e ≠ 0 := by omega
    simp [initial, copyMem, setProc, this]
  · funext e
    simp [initial, copyMem, setProc]

example : NodeCorrect 1 (fun t => share 1 1 alone t) sample (OnNode.AllreduceNode 1 1 0 sample) := by
  refine shared_allreduce (rounds := 1) (by omega) ⟨?_, by decide, ?_, ?_⟩ alone_allreduce (holds_sample 1)
  · intro t ht i hi
    simp [alone] at hi
    rcases hi with rfl | rfl | rfl <;> simp [LineOk]
  · intro t q r ht hq hr
    obtain rfl : r = 0 := by omega
    obtain rfl : t = 0 := by omega
    obtain rfl : q = 0 := by omega
    decide
  · intro t ht i hi
    simp [alone, splitWaits] at hi
    subst hi
    simp

/-! ## Reducing from the other segment -/

/-- Process 0 sends a value and uses the place for another one, process 1 adds the value to its own one. -/
def reuse (t : Nat) : List Instr :=
  if t = 0 then
    [.copy false ⟨.shm 0, 0⟩ ⟨.send, 0⟩ 1, .isend ⟨.shm 0, 0⟩ 1 1, .waitall, .copy false ⟨.shm 0, 0⟩ ⟨.send, 1⟩ 1,
      .copy false ⟨.recv, 0⟩ ⟨.shm 0, 0⟩ 1]
  else
    [.copy false ⟨.shm 0, 0⟩ ⟨.send, 0⟩ 1, .irecv ⟨.shm 0, 1⟩ 1 0, .waitall, .copy true ⟨.shm 0, 0⟩ ⟨.shm 0, 1⟩ 1,
      .copy false ⟨.recv, 0⟩ ⟨.shm 0, 0⟩ 1]

theorem reuse_regular : Regular 2 1 reuse := by
  refine ⟨?_, by decide, ?_, ?_⟩
  · intro t ht i hi
    have : t = 0 ∨ t = 1 := by omega
    rcases this with rfl | rfl <;> simp [reuse] at hi <;> rcases hi with rfl | rfl | rfl | rfl | rfl <;> simp [LineOk]
  · intro t q r ht hq hr
    obtain rfl : r = 0 := by omega
    have h1 : t = 0 ∨ t = 1 := by omega
    have h2 : q = 0 ∨ q = 1 := by omega
    rcases h1 with rfl | rfl <;> rcases h2 with rfl | rfl <;> decide
  · intro t ht i hi
    have : t = 0 ∨ t = 1 := by omega
    rcases this with rfl | rfl <;> simp [reuse, splitWaits] at hi <;> rcases hi with rfl | rfl <;> simp

theorem reuse_correct : Correct 2 reuse values fun mem => mem 1 .recv 0 = 12 :=
  correct_of_check [.loc 0, .loc 0, .loc 1, .loc 1, .depart 0 1, .arrive 0 1, .loc 0, .loc 0, .loc 0, .loc 1, .loc 1, .loc 1] _ rfl
    (by decide +kernel) (by decide +kernel)

/-- C111, negation: the pass that reduces from the segment of the other process moves the access behind the second barrier and
changes the result of correct programs. -/
theorem fuse_violated : ¬∀ (n rounds : Nat) (prog : Nat → List Instr) (m : Nat → Mem Nat) (post : (Nat → Mem Nat) → Prop) (M : OnNode.Cell → Nat),
    0 < n → Regular n rounds prog → Correct n prog m post → Holds n m M →
    NodeCorrect n (fun t => (share n n prog t).map fuse) M fun M' => ∃ mem, post mem ∧ Holds n mem M' := by
  intro h
  have h := h 2 1 reuse values (fun mem => mem 1 .recv 0 = 12) sample (by omega) reuse_regular reuse_correct (holds_sample 2)
  refine not_correct (OnNode.inTurn 2 60 6 (start _ sample)) (OnNode.steps_inTurn _ _ _ _) (by decide +kernel) ?_ h
  rintro ⟨mem, hp, hh⟩
  have h0 := (hh 1 (by omega) 0).2.2
  rw [hp] at h0
  revert h0
  decide +kernel

/-- No line is a reduction. -/
def Plain (ls : List SInstr) : Prop := ∀ d s k, SInstr.ins (.copy true d s k) ∉ ls

theorem fusible_plain (c : Copy) : ∀ ls, Plain ls → fusible c ls = none
  | [], _ => rfl
  | l :: ls, h => by
    have ih := fusible_plain c ls fun d s k hm => h d s k (List.mem_cons_of_mem _ hm)
    cases l with
    | node => exact ih
    | ins i =>
      cases i with
      | copy r d s k =>
        cases r with
        | false => exact ih
        | true => exact absurd List.mem_cons_self (h d s k)
      | _ => exact ih

theorem fuseF_plain : ∀ (ls : List SInstr) (c : Option Copy), Plain ls → fuseF c none ls = ls
  | [], _, _ => rfl
  | l :: ls, c, h => by
    have hr : Plain ls := fun d s k hm => h d s k (List.mem_cons_of_mem _ hm)
    have ih := fun c => fuseF_plain ls c hr
    cases l with
    | node => cases c <;> simp [fuseF, ih]
    | ins i =>
      cases i with
      | copy r d s k =>
        cases r with
        | false => simp [fuseF, fusible_plain _ ls hr, ih]
        | true => exact absurd List.mem_cons_self (h d s k)
      | _ => cases c <;> simp [fuseF, ih]

theorem copies_plain (ns t : Nat) (other : Nat → List Instr) : ∀ (ls : List Instr) (seen : List Nat) (cs : List SInstr),
    copies ns t other seen ls = some cs → Plain cs
  | [], _, _, h => by cases h; intro d s k hm; cases hm
  | l :: ls, seen, cs, h => by
    cases l with
    | irecv a k q =>
      rw [copies] at h
      obtain ⟨x, _, h⟩ := Option.bind_eq_some_iff.1 h
      obtain ⟨r, hr, h⟩ := Option.bind_eq_some_iff.1 h
      have ih := copies_plain ns t other ls _ _ hr
      split at h
      · cases h
        intro d s k hm
        rcases List.mem_append.1 hm with hm | hm
        · exact ih d s k hm
        · cases List.mem_singleton.1 hm
      · cases h; exact ih
    | _ => exact copies_plain ns t other ls _ _ h

theorem plain_append {a b : List SInstr} (ha : Plain a) (hb : Plain b) : Plain (a ++ b) := fun d s k hm =>
  (List.mem_append.1 hm).elim (ha d s k) (hb d s k)

theorem plain_map {ls : List Instr} (h : ∀ d s k, Instr.copy true d s k ∉ ls) : Plain (ls.map .ins) := by
  intro d s k hm
  obtain ⟨i, hi, he⟩ := List.mem_map.1 hm
  cases he
  exact h d s k hi

theorem mem_splitWaits (i : Instr) : ∀ ls : List Instr,
    ((∃ b, b ∈ (splitWaits ls).1 ∧ i ∈ b) ∨ i ∈ (splitWaits ls).2) → i ∈ ls
  | [], h => by simpa [splitWaits] using h
  | l :: ls, h => by
    have ih := mem_splitWaits i ls
    by_cases hl : l = .waitall
    · subst hl
      refine List.mem_cons_of_mem _ (ih ?_)
      rcases h with ⟨b, hb, hi⟩ | h
      · rcases List.mem_cons.1 hb with rfl | hb
        · cases hi
        · exact .inl ⟨b, hb, hi⟩
      · exact .inr h
    · have he : splitWaits (l :: ls) = match (splitWaits ls).1 with
          | b :: bs => ((l :: b) :: bs, (splitWaits ls).2)
          | [] => ([], l :: (splitWaits ls).2) := by
        cases l <;> first | rfl | exact absurd rfl hl
      rw [he] at h
      cases hs : (splitWaits ls).1 with
      | nil =>
        rw [hs] at h ih
        rcases h with ⟨b, hb, _⟩ | h
        · cases hb
        · rcases List.mem_cons.1 h with rfl | h
          · exact List.mem_cons_self
          · exact List.mem_cons_of_mem _ (ih (.inr h))
      | cons b bs =>
        rw [hs] at h ih
        rcases h with ⟨b', hb, hi⟩ | h
        · rcases List.mem_cons.1 hb with rfl | hb
          · rcases List.mem_cons.1 hi with rfl | hi
            · exact List.mem_cons_self
            · exact List.mem_cons_of_mem _ (ih (.inl ⟨b, List.mem_cons_self, hi⟩))
          · exact List.mem_cons_of_mem _ (ih (.inl ⟨b', List.mem_cons_of_mem _ hb, hi⟩))
        · exact List.mem_cons_of_mem _ (ih (.inr h))

theorem sharePart_plain {ns N : Nat} {prog : Nat → List Instr} {t r : Nat} {ls : List Instr} {x : List SInstr}
    (h : sharePart ns N prog t r ls = some x) (hp : ∀ d s k, Instr.copy true d s k ∉ ls) : Plain x := by
  obtain ⟨cs, hc, h⟩ := Option.bind_eq_some_iff.1 h
  have hcs := copies_plain _ _ _ _ _ _ hc
  cases h
  refine plain_append (plain_append (plain_append (plain_map fun d s k hm => hp d s k (List.mem_of_mem_filter hm)) ?_) ?_) ?_
  · intro d s k hm; simp at hm
  · split
    · exact plain_append (fun d s k hm => by simp at hm) hcs
    · intro d s k hm; cases hm
  · intro d s k hm
    split at hm
    · split at hm <;> simp at hm
    · cases hm

theorem shareParts_plain {ns N : Nat} {prog : Nat → List Instr} {t : Nat} : ∀ (bs : List (List Instr)) (r : Nat) (x : List SInstr),
    shareParts ns N prog t r bs = some x → (∀ b, b ∈ bs → ∀ d s k, Instr.copy true d s k ∉ b) → Plain x
  | [], _, _, h, _ => by cases h; intro d s k hm; cases hm
  | b :: bs, r, x, h, hp => by
    obtain ⟨u, hu, h⟩ := Option.bind_eq_some_iff.1 h
    obtain ⟨v, hv, h⟩ := Option.bind_eq_some_iff.1 h
    cases h
    exact plain_append (sharePart_plain hu (hp b List.mem_cons_self))
      (shareParts_plain bs _ _ hv fun b' hb => hp b' (List.mem_cons_of_mem _ hb))

theorem share_plain {ns N : Nat} {prog : Nat → List Instr} {t : Nat} {x : List SInstr} (h : share ns N prog t = some x)
    (hp : ∀ d s k, Instr.copy true d s k ∉ prog t) : Plain x := by
  obtain ⟨u, hu, h⟩ := Option.bind_eq_some_iff.1 h
  cases h
  refine plain_append (shareParts_plain _ _ _ hu fun b hb d s k hm => hp d s k (mem_splitWaits _ _ (.inl ⟨b, hb, hm⟩))) (plain_map ?_)
  exact fun d s k hm => hp d s k (mem_splitWaits _ _ (.inr hm))

/-- C111 for programs without reductions, as those of allgather and broadcast. Missing: programs with reductions, for which it is false. -/
theorem fuse_partial {X : Type} [AddCommMonoid X] {n rounds : Nat} (hn : 0 < n) {prog : Nat → List Instr} (h : Regular n rounds prog)
    (hr : ∀ t d s k, Instr.copy true d s k ∉ prog t) {m : Nat → Mem X} {post : (Nat → Mem X) → Prop} (hc : Correct n prog m post)
    {M : OnNode.Cell → X} (hm : Holds n m M) :
    NodeCorrect n (fun t => (share n n prog t).map fuse) M fun M' => ∃ mem, post mem ∧ Holds n mem M' := by
  have he : (fun t => (share n n prog t).map fuse) = fun t => share n n prog t := by
    funext t
    cases hs : share n n prog t with
    | none => rfl
    | some x => exact congrArg some (fuseF_plain x none (share_plain hs (hr t)))
  rw [he]
  exact shared_correct hn h hc hm

/-- An exchange without a reduction. -/
def trade (t : Nat) : List Instr :=
  [.copy false ⟨.shm 0, 0⟩ ⟨.send, 0⟩ 1, .irecv ⟨.shm 0, 1⟩ 1 (1 - t), .isend ⟨.shm 0, 0⟩ 1 (1 - t), .waitall,
    .copy false ⟨.recv, 0⟩ ⟨.shm 0, 1⟩ 1]

theorem trade_regular : Regular 2 1 trade := by
  refine ⟨?_, by decide, ?_, ?_⟩
  · intro t ht i hi
    have : t = 0 ∨ t = 1 := by omega
    rcases this with rfl | rfl <;> simp [trade] at hi <;> rcases hi with rfl | rfl | rfl | rfl | rfl <;> simp [LineOk]
  · intro t q r ht hq hr
    obtain rfl : r = 0 := by omega
    have h1 : t = 0 ∨ t = 1 := by omega
    have h2 : q = 0 ∨ q = 1 := by omega
    rcases h1 with rfl | rfl <;> rcases h2 with rfl | rfl <;> decide
  · intro t ht i hi
    have : t = 0 ∨ t = 1 := by omega
    rcases this with rfl | rfl <;> simp [trade, splitWaits] at hi <;> subst hi <;> simp

theorem trade_correct : Correct 2 trade values fun mem => mem 0 .recv 0 = 11 ∧ mem 1 .recv 0 = 1 :=
  correct_of_check [.loc 0, .loc 0, .loc 0, .loc 1, .loc 1, .loc 1, .depart 0 1, .arrive 0 1, .depart 1 0, .arrive 1 0, .loc 0, .loc 0,
    .loc 1, .loc 1] _ rfl (by decide +kernel) (by decide +kernel)

example : NodeCorrect 2 (fun t => (share 2 2 trade t).map fuse) sample fun M' => ∃ mem : Nat → Mem Nat,
    (mem 0 .recv 0 = 11 ∧ mem 1 .recv 0 = 1) ∧ Holds 2 mem M' :=
  fuse_partial (by omega) trade_regular (fun t d s k => by simp [trade]) trade_correct (holds_sample 2)

/-- Two elements in the first two of four parts. -/
def two (k : Nat) : Nat := if k < 2 then 1 else 0

/-- The generated program of process `t` (`none` is replaced by no lines). -/
def generated (C N ns : Nat) (sz : Nat → Nat) (ports groups : List Int) (t : Nat) : List SInstr :=
  (program C N ns sz false false (schedules true N ports groups) t).getD []

/-- C111, negation for generated programs: on two nodes with two sockets of one process each, cyclic algorithm, process 0 reads from the
segment of process 1 while process 1 may receive a message of the other node there. -/
theorem orderly_violated : ¬∀ (C N ns : Nat) (sz : Nat → Nat) (ports groups : List Int), 0 < C → 0 < ns →
    (∀ t, t < N → (program C N ns sz false false (schedules true N ports groups) t).isSome = true) →
    Orderly ns N (generated C N ns sz ports groups) := by
  intro h
  have h := h 8 4 2 two [-1, -1, 1, 1] [-2, -2, -2, -2] (by decide) (by decide) (by decide +kernel)
  exact h 0 1 2 true ⟨.shm 0, 0⟩ 1 1 1 (by decide) (by decide) (by decide) (by decide) (by decide) (by decide) (by decide +kernel)
    ⟨⟨.shm 0, 1⟩, 1, 3, by decide +kernel, rfl, by decide, by decide⟩

/-! ## Working in the buffers of the user -/

/-- C112, negation: on a node with two sockets of one process each the recursive algorithm, with the ports the library chooses there,
gives a wrong result. The data of the other process is never read. -/
theorem direct_violated : ¬∀ (C ns : Nat) (sz : Nat → Nat) (p : List Int × List Int) (m : OnNode.Cell → Nat), 0 < C →
    singleNodePorts ns = some p →
    (∀ t, t < ns → (Groups.generateAny false ns p.1 p.2 t).isSome = true) →
    NodeCorrect ns (program C ns ns sz true (Optimise.bigRecvbuf p.1) (schedules false ns p.1 p.2)) m
      (OnNode.AllreduceNode ns (∑ k ∈ Finset.range ns, sz k) 0 m) := by
  intro h
  have h := h 8 2 (fun _ => 1) ([-1, 1], [-2, -2]) sample (by decide) rfl (by decide +kernel)
  refine not_correct (OnNode.inTurn 2 60 6 (start _ sample)) (OnNode.steps_inTurn _ _ _ _) (by decide +kernel) ?_ h
  intro hp
  have h0 := (hp 0 (by omega)).1 0 (by decide)
  revert h0
  decide +kernel

end ExtMpi.Sockets
