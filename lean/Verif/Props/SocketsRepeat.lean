import Verif.Props.Sockets
/-! C114: programs of several sockets on one node that are executed one after the other. -/
namespace ExtMpi.Sockets
open RawCode

theorem roundsSk_append (n : Nat) (T U : Nat → List OnNode.Elem) (rs us : List Rnd) :
    roundsSk n U (rs ++ (false, T, fun _ => []) :: us) = roundsSk n T rs ++ roundsSk n U us := by
  induction rs with
  | nil => simp [roundsSk]
  | cons x rs ih =>
    obtain ⟨b, L, E⟩ := x
    rw [List.cons_append, roundsSk, roundsSk, ih]
    cases b <;> simp

theorem Calm.append {n : Nat} {T U : Nat → List OnNode.Elem} {rs us : List Rnd} (h : Calm n T rs) (k : Calm n U us) :
    Calm n U (rs ++ (false, T, fun _ => []) :: us) where
  tail := k.tail
  lines := by
    intro x hx
    rcases List.mem_append.1 hx with hx | hx
    · exact h.lines x hx
    · rcases List.mem_cons.1 hx with rfl | hx
      · exact h.tail
      · exact k.lines x hx
  copies := by
    intro x hx
    rcases List.mem_append.1 hx with hx | hx
    · exact h.copies x hx
    · rcases List.mem_cons.1 hx with rfl | hx
      · intro p q _ _ _ e he
        cases he
      · exact k.copies x hx

theorem sequence_rounds {X : Type} [AddCommMonoid X] {n : Nat} (ps : List (Nat → List Instr)) (h : ∀ p ∈ ps, ∃ rounds, Regular n rounds p)
    {m : Nat → Mem X} {post : (Nat → Mem X) → Prop} (hc : CorrectSeq n ps m post) {M : OnNode.Cell → X} (hm : Holds n m M) :
    ∃ T rs, (∀ t, t < n → (inTurn n t ps).bind (allActs n t) = some (OnNode.code (roundsSk n T rs) t)) ∧ Calm n T rs ∧
      ∃ mem, post mem ∧ Holds n mem (OnNode.lockstep n (roundsSk n T rs) M) := by
  induction ps generalizing m M with
  | nil =>
    refine ⟨fun _ => [], [], fun t _ => rfl, ⟨fun p _ e he => ?_, fun x hx => ?_, fun x hx => ?_⟩, m, hc, ?_⟩
    · cases he
    · cases hx
    · cases hx
    · rw [roundsSk, OnNode.lockstep_ops]
      have : (List.range n).flatMap (fun _ => ([] : List OnNode.Elem)) = [] := by simp
      rw [this]
      exact hm
  | cons prog ps ih =>
    obtain ⟨K, hK⟩ := h prog List.mem_cons_self
    obtain ⟨c1, mem1, p1, h1⟩ := shared_rounds hK hc hm
    obtain ⟨U, us, a2, c2, mem2, p2, h2⟩ := ih (fun p hp => h p (List.mem_cons_of_mem _ hp)) p1 h1
    refine ⟨U, _, fun t ht => ?_, c1.append c2, mem2, p2, ?_⟩
    · have e1 := share_acts hK ht
      have e2 := a2 t ht
      rw [roundsSk_append, OnNode.code_append, inTurn]
      obtain ⟨x, hx, hxa⟩ := Option.bind_eq_some_iff.1 e1
      obtain ⟨y, hy, hya⟩ := Option.bind_eq_some_iff.1 e2
      rw [hx, hy]
      exact acts_app hxa hya
    · rw [roundsSk_append, OnNode.lockstep_append]
      exact h2

/-- C114: several executions on a node with several sockets, one after the other and without further synchronisation: if they are
correct with messages when all processes complete an execution before the next one, they are correct after messages have become
copies, although a process may be executing the next program while another one is still executing the one before. -/
theorem shared_sequence {X : Type} [AddCommMonoid X] {n : Nat} (hn : 0 < n) (ps : List (Nat → List Instr))
    (h : ∀ p ∈ ps, ∃ rounds, Regular n rounds p) {m : Nat → Mem X} {post : (Nat → Mem X) → Prop} (hc : CorrectSeq n ps m post)
    {M : OnNode.Cell → X} (hm : Holds n m M) :
    NodeCorrect n (fun t => inTurn n t ps) M fun M' => ∃ mem, post mem ∧ Holds n mem M' := by
  obtain ⟨T, rs, h1, h2, h3⟩ := sequence_rounds ps h hc hm
  exact correct_of_rounds hn h1 h2.tail h2.lines h2.copies h3

/-- A user copies the result to the send buffer. -/
def feedBack (_ : Nat) : List Instr := [.copy false ⟨.send, 0⟩ ⟨.recv, 0⟩ 1]

theorem feedBack_regular : Regular 2 0 feedBack := by
  refine ⟨?_, by decide, fun t q r _ _ hr => by omega, ?_⟩
  · intro t ht i hi
    simp [feedBack] at hi
    subst hi
    simp [LineOk]
  · intro t ht i hi
    simp [feedBack, splitWaits] at hi
    subst hi
    simp

/-- An allreduce, the result of which is the input of another one. -/
example : NodeCorrect 2 (fun t => inTurn 2 t [swap, feedBack, swap]) sample fun M' => ∃ mem : Nat → Mem Nat,
    (mem 0 .recv 0 = 24 ∧ mem 1 .recv 0 = 24) ∧ Holds 2 mem M' := by
  refine shared_sequence (by omega) _ ?_ ?_ (holds_sample 2)
  · intro p hp
    simp at hp
    rcases hp with rfl | rfl | rfl
    · exact ⟨1, swap_regular⟩
    · exact ⟨0, feedBack_regular⟩
    · exact ⟨1, swap_regular⟩
  · refine correct_of_check [.loc 0, .loc 0, .loc 0, .loc 1, .loc 1, .loc 1, .depart 0 1, .arrive 0 1, .depart 1 0, .arrive 1 0, .loc 0, .loc 0, .loc 0,
      .loc 0, .loc 1, .loc 1, .loc 1, .loc 1] _ rfl (by decide +kernel) ?_
    refine correct_of_check [.loc 0, .loc 1] _ rfl (by decide +kernel) ?_
    exact correct_of_check [.loc 0, .loc 0, .loc 0, .loc 1, .loc 1, .loc 1, .depart 0 1, .arrive 0 1, .depart 1 0, .arrive 1 0, .loc 0, .loc 0, .loc 0,
      .loc 0, .loc 1, .loc 1, .loc 1, .loc 1] _ rfl (by decide +kernel) (by unfold CorrectSeq; decide +kernel)

theorem Correct.mono {X : Type} [Add X] {n : Nat} {prog : Nat → List Instr} {m : Nat → Mem X} {post post' : (Nat → Mem X) → Prop}
    (h : Correct n prog m post) (hp : ∀ mem, post mem → post' mem) : Correct n prog m post' := by
  obtain ⟨bound, h⟩ := h
  exact ⟨bound, fun k s hs => ⟨(h k s hs).1, (h k s hs).2.1, (h k s hs).2.2.imp (fun x => ⟨x.1, hp _ x.2⟩) id⟩⟩

theorem allreduceMem_trans {X : Type} [AddCommMonoid X] {n len : Nat} {a b c : Nat → Mem X} (h : AllreduceMem n len a b)
    (k : AllreduceMem n len b c) : AllreduceMem n len a c := by
  intro t ht
  refine ⟨fun e he => ?_, fun e he => ?_, ?_⟩
  · rw [(k t ht).1 e he]
    exact Finset.sum_congr rfl fun s hs => by rw [(h s (Finset.mem_range.1 hs)).2.2]
  · rw [(k t ht).2.1 e he, (h t ht).2.1 e he]
  · rw [(k t ht).2.2, (h t ht).2.2]

theorem repeat_seq {X : Type} [AddCommMonoid X] {n len : Nat} {prog : Nat → List Instr}
    (hc : ∀ m : Nat → Mem X, Correct n prog m fun mem => AllreduceMem n len m mem) :
    ∀ (k : Nat) (m : Nat → Mem X), CorrectSeq n (List.replicate (k + 1) prog) m fun mem => AllreduceMem n len m mem
  | 0, m => hc m
  | k + 1, m => Correct.mono (hc m) fun m' h' => by
    have : ∀ (ps : List (Nat → List Instr)) {m : Nat → Mem X} {post post' : (Nat → Mem X) → Prop}, CorrectSeq n ps m post →
        (∀ mem, post mem → post' mem) → CorrectSeq n ps m post' := by
      intro ps
      induction ps with
      | nil => exact fun h hp => hp _ h
      | cons p ps ih => exact fun h hp => Correct.mono h fun _ h' => ih h' hp
    exact this _ (repeat_seq hc k m') fun _ => allreduceMem_trans h'

/-- C114 for allreduce that is executed `k + 1` times in a row: whatever earlier executions have left in the segments, the sums are
the ones of the send buffers. -/
theorem shared_allreduce_again {X : Type} [AddCommMonoid X] {n rounds len : Nat} (hn : 0 < n) {prog : Nat → List Instr}
    (h : Regular n rounds prog) (hc : ∀ m : Nat → Mem X, Correct n prog m fun mem => AllreduceMem n len m mem) (k : Nat)
    {m : Nat → Mem X} {M : OnNode.Cell → X} (hm : Holds n m M) :
    NodeCorrect n (fun t => inTurn n t (List.replicate (k + 1) prog)) M (OnNode.AllreduceNode n len 0 M) := by
  obtain ⟨h1, bound, h2⟩ := shared_sequence hn _ (fun p hp => ⟨rounds, by rw [List.eq_of_mem_replicate hp]; exact h⟩) (repeat_seq hc k m) hm
  refine ⟨h1, bound, fun k s hs => ⟨(h2 k s hs).1, (h2 k s hs).2.imp ?_ id⟩⟩
  rintro ⟨hf, mem, hp, hh⟩
  refine ⟨hf, fun p hp' => ?_⟩
  obtain ⟨p1, p2, p3⟩ := hp p hp'
  refine ⟨fun e he => ?_, fun e he => ?_, fun e => ?_⟩
  · rw [(hh p hp' e).2.2, p1 e he]
    exact Finset.sum_congr rfl fun q hq => ((hm q (Finset.mem_range.1 hq) e).2.1).symm
  · rw [(hh p hp' e).2.2, p2 e he, (hm p hp' e).2.2]
  · rw [(hh p hp' e).2.1, p3, (hm p hp' e).2.1]

theorem alone_always (m : Nat → Mem Nat) : Correct 1 alone m fun mem => AllreduceMem 1 1 m mem := by
  refine correct_of_check [.loc 0, .loc 0, .loc 0] _ rfl rfl ?_
  intro p hp
  obtain rfl : p = 0 := by omega
  refine ⟨fun e he => ?_, fun e he => ?_, ?_⟩
  · obtain rfl : e = 0 := by omega
    simp [initial, copyMem, setProc]
  · have : e ≠ 0 := by omega
    simp [initial, copyMem, setProc, this]
  · funext e
    simp [initial, copyMem, setProc]

example : NodeCorrect 1 (fun t => inTurn 1 t [alone, alone, alone]) sample (OnNode.AllreduceNode 1 1 0 sample) := by
  refine shared_allreduce_again (rounds := 1) (by omega) ⟨?_, by decide, ?_, ?_⟩ alone_always 2 (holds_sample 1)
  · intro t ht i hi
    simp [alone] at hi
    rcases hi with rfl | rfl | rfl <;> simp [LineOk]
  · intro t q r ht hq hr
    obtain rfl : r = 0 := by omega
    obtain rfl : t = 0 := by omega
    obtain rfl : q = 0 := by omega
    decide
  · intro t ht i hi
    simp [alone, splitWaits] at hi
    subst hi
    simp

end ExtMpi.Sockets
