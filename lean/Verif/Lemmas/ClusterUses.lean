import Verif.Lemmas.ClusterRepeat
import Verif.Lemmas.ClusterLines
/-! Which elements the programs of the processes use: those of the shared memory and of the buffers of the process. -/
namespace ExtMpi.Cluster
open RawCode Schedule
open TasksNode

/-- An interval in shared memory, or in the first elements of the buffers. -/
def RawA (s r : Nat) (a : Addr) (n : Nat) : Prop :=
  match a.reg with
  | .shm _ => True
  | .send => a.off + n ≤ s
  | .recv => a.off + n ≤ r

/-- All operands are such intervals; the send buffer is not written, and messages are in shared memory. -/
def RawI (s r : Nat) : Instr → Prop
  | .copy _ d t n => (RawA s r d n ∧ RawA s r t n) ∧ d.reg ≠ .send
  | .irecv a _ _ => ∃ k, a.reg = .shm k
  | .isend a _ _ => ∃ k, a.reg = .shm k
  | _ => True

/-- An operand of process `p`: in shared memory or in its buffers (in the receive buffer it is not empty). -/
def OwnA (u : Users) (S R : Nat → Nat) (p : Nat) (x : Addr × Nat) : Prop :=
  (∃ k, x.1.reg = .shm k) ∨ (x.1.reg = .send ∧ u.send p ≤ x.1.off ∧ x.1.off + x.2 ≤ u.send p + S p) ∨
    (x.1.reg = .recv ∧ u.recv p ≤ x.1.off ∧ x.1.off + x.2 ≤ u.recv p + R p ∧ 0 < x.2)

/-- The instruction of process `p` uses these operands only, and it does not write to send buffers. -/
def OwnI (u : Users) (S R : Nat → Nat) (p : Nat) (i : Instr) : Prop :=
  (∀ x, x ∈ writes i ++ reads i → OwnA u S R p x) ∧ ∀ x, x ∈ writes i → x.1.reg ≠ .send

theorem place_send {u : Users} {p : Nat} {a : Addr} (h : a.reg ≠ .send) : (place u p a).reg ≠ .send := by
  obtain ⟨r, o⟩ := a
  cases r with
  | send => exact absurd rfl h
  | recv => intro h; cases h
  | shm k => intro h; cases h

theorem place_shm {u : Users} {p k : Nat} {a : Addr} (h : a.reg = .shm k) : (place u p a).reg = .shm k := by
  obtain ⟨r, o⟩ := a
  subst h
  rfl

theorem own_place {u : Users} {S R : Nat → Nat} {p : Nat} {a : Addr} {n : Nat} (h : RawA (S p) (R p) a n) (hn : 0 < n) :
    OwnA u S R p (place u p a, n) := by
  obtain ⟨r, o⟩ := a
  cases r with
  | shm k => exact .inl ⟨k, rfl⟩
  | send =>
    refine .inr (.inl ⟨rfl, Nat.le_add_right _ _, ?_⟩)
    have : o + n ≤ S p := h
    show u.send p + o + n ≤ _
    omega
  | recv =>
    refine .inr (.inr ⟨rfl, Nat.le_add_right _ _, ?_⟩)
    have : o + n ≤ R p := h
    exact ⟨by show u.recv p + o + n ≤ _; omega, hn⟩

theorem own_shift {u : Users} {S R : Nat → Nat} {p : Nat} {a : Addr} {n : Nat} (h : OwnA u S R p (a, n)) {e : Nat} (he : e < n) :
    OwnA u S R p (shift a e, 1) := by
  rcases h with ⟨k, h⟩ | ⟨h1, h2, h3⟩ | ⟨h1, h2, h3⟩
  · exact .inl ⟨k, h⟩
  · refine .inr (.inl ⟨h1, ?_, ?_⟩) <;> dsimp only [shift] at * <;> omega
  · refine .inr (.inr ⟨h1, ?_, ?_, Nat.one_pos⟩) <;> dsimp only [shift] at * <;> omega

theorem own_expand {ns : Nat} {u : Users} {S R : Nat → Nat} {p : Nat} {i j : Instr} (h : RawI (S p) (R p) i)
    (hj : .op j ∈ expand ns u p i) : OwnI u S R p j := by
  cases i with
  | copy red d s n =>
    have hj : CInstr.op j ∈ if red = false ∧ overlap (place u p d) n (place u p s) n then [.wait (-1)]
      else (List.range n).map fun e => .op (.copy red (shift (place u p d) e) (shift (place u p s) e) 1) := hj
    split at hj
    · cases List.mem_singleton.1 hj
    · obtain ⟨e, he, hj⟩ := List.mem_map.1 hj
      injection hj with hj
      subst hj
      have he := List.mem_range.1 he
      refine ⟨fun x hx => ?_, fun x hx => ?_⟩
      · rcases List.mem_append.1 hx with hx | hx <;> rw [List.mem_singleton.1 hx]
        · exact own_shift (own_place h.1.1 (by omega)) he
        · exact own_shift (own_place h.1.2 (by omega)) he
      · rw [List.mem_singleton.1 hx]
        exact place_send (u := u) (p := p) h.2
  | barrier =>
    exfalso
    have hj : CInstr.op j ∈ (List.range (Nat.clog 2 ns)).flatMap fun k => [CInstr.set ((p % ns : Nat) : Int), .wait ((p % ns + 2 ^ k) % ns : Nat)] := hj
    obtain ⟨k, _, hj⟩ := List.mem_flatMap.1 hj
    rcases List.mem_cons.1 hj with hj | hj
    · cases hj
    · cases List.mem_singleton.1 hj
  | irecv a n q =>
    have hj : CInstr.op j = .op (.irecv (place u p a) n q) := List.mem_singleton.1 hj
    injection hj with hj
    subst hj
    refine ⟨fun x hx => ?_, fun x hx => ?_⟩ <;> rw [List.mem_singleton.1 hx]
    · obtain ⟨k, h⟩ := h
      exact .inl ⟨k, place_shm h⟩
    · obtain ⟨k, h⟩ := h
      exact place_send (by rw [h]; nofun)
  | isend a n q =>
    have hj : CInstr.op j = .op (.isend (place u p a) n q) := List.mem_singleton.1 hj
    injection hj with hj
    subst hj
    refine ⟨fun x hx => ?_, fun x hx => by cases hx⟩
    rw [List.mem_singleton.1 hx]
    obtain ⟨k, h⟩ := h
    exact .inl ⟨k, place_shm h⟩
  | waitall =>
    have hj : CInstr.op j = .op .waitall := List.mem_singleton.1 hj
    injection hj with hj
    subst hj
    exact ⟨fun x (hx : x ∈ []) => absurd hx List.not_mem_nil, fun x (hx : x ∈ []) => absurd hx List.not_mem_nil⟩

/-! ## The blocks between copy-in and copy-out -/

structure RawL (s r : Nat) (l : List Line) : Prop where
  all : ∀ x, x ∈ l → RawI s r x.ins

theorem RawL.append {s r : Nat} {A B : List Line} (h : RawL s r A) (h' : RawL s r B) : RawL s r (A ++ B) := by
  constructor
  intro x hx
  rcases List.mem_append.1 hx with hx | hx
  · exact h.all x hx
  · exact h'.all x hx

theorem rawL_nil (s r : Nat) : RawL s r [] := ⟨fun x h => by cases h⟩

theorem rawL_one {s r : Nat} {x : Line} (h : RawI s r x.ins) : RawL s r [x] :=
  ⟨fun y hy => by rw [List.mem_singleton.1 hy]; exact h⟩

theorem rawL_ite {s r : Nat} {c : Prop} [Decidable c] {A B : List Line} (h : RawL s r A) (h' : RawL s r B) :
    RawL s r (if c then A else B) := by
  split
  · exact h
  · exact h'

theorem rawL_copy {s r : Nat} (rank : Nat) (red : Bool) (k k' o o' n : Nat) : RawL s r (copyLine rank red ⟨.shm k, o⟩ ⟨.shm k', o'⟩ n) := by
  unfold copyLine
  split
  · exact rawL_nil _ _
  · exact rawL_one ⟨⟨trivial, trivial⟩, nofun⟩

theorem rawL_posts {s r : Nat} (sz : Nat → Nat) (b : Block) (t : Nat) (qs : List Nat) : ∀ k, RawL s r (postsT sz b t k qs) := by
  induction qs with
  | nil => intro k; exact rawL_nil _ _
  | cons q qs ih =>
    intro k
    rw [postsT]
    refine RawL.append (RawL.append ?_ ?_) (ih _)
    · exact rawL_ite (rawL_nil _ _) (rawL_one ⟨_, rfl⟩)
    · exact rawL_ite (rawL_nil _ _) (rawL_one ⟨_, rfl⟩)

theorem rawL_pack {s r : Nat} (sz : Nat → Nat) (b : Block) (rank k : Nat) (l : List (Nat × Bool)) :
    ∀ add adds, RawL s r (packT sz b rank k add adds l) := by
  induction l with
  | nil => intro a c; exact rawL_nil _ _
  | cons x l ih =>
    intro a c
    obtain ⟨n, c'⟩ := x
    cases c' <;> rw [packT] <;> exact RawL.append (rawL_copy ..) (ih _ _)

theorem rawL_sends {s r : Nat} (sz : Nat → Nat) (b : Block) (rank t : Nat) (qs : List Nat) :
    ∀ k, RawL s r (sendsT sz b rank t k qs) := by
  induction qs with
  | nil => intro k; exact rawL_nil _ _
  | cons q qs ih =>
    intro k
    rw [sendsT]
    refine RawL.append (RawL.append (RawL.append ?_ ?_) ?_) (ih _)
    · exact rawL_ite (rawL_nil _ _) (rawL_pack ..)
    · exact rawL_ite (rawL_nil _ _) (RawL.append (A := [_]) (rawL_one (by trivial)) (rawL_one ⟨_, rfl⟩))
    · exact rawL_ite (rawL_nil _ _) (RawL.append (A := [_]) (rawL_one (by trivial)) (rawL_one ⟨_, rfl⟩))

theorem rawL_unpack {s r : Nat} (sz : Nat → Nat) (b : Block) (rank t : Nat) (qs : List Nat) :
    ∀ k, RawL s r (unpackT sz b rank t k qs) := by
  induction qs with
  | nil => intro k; exact rawL_nil _ _
  | cons q qs ih =>
    intro k
    rw [unpackT]
    split
    · refine RawL.append ?_ (ih _)
      split
      · exact rawL_nil _ _
      · exact rawL_copy ..
    · exact ih _

theorem rawL_block {s r : Nat} (N ns : Nat) (sz : Nat → Nat) (node rank : Nat) (b : Block) : RawL s r (blockLines N ns sz node rank b) := by
  unfold blockLines
  refine RawL.append (RawL.append (RawL.append (RawL.append (RawL.append (RawL.append ?_ ?_) ?_) ?_) ?_) ?_) ?_
  · exact rawL_posts ..
  · exact rawL_sends ..
  · exact RawL.append (rawL_one (x := ⟨true, .waitall⟩) trivial) (rawL_one trivial)
  · exact rawL_unpack ..
  · exact rawL_one trivial
  · refine ⟨fun x hx => ?_⟩
    obtain ⟨y, _, hx⟩ := List.mem_flatMap.1 hx
    obtain ⟨z, _, hx⟩ := List.mem_flatMap.1 hx
    exact (rawL_copy ..).all x hx
  · refine ⟨fun x hx => ?_⟩
    obtain ⟨y, _, hx⟩ := List.mem_flatMap.1 hx
    obtain ⟨z, _, hx⟩ := List.mem_flatMap.1 hx
    exact (rawL_copy ..).all x hx

theorem rawL_blocks {s r : Nat} (N ns : Nat) (sz : Nat → Nat) (node rank : Nat) (bs : List Block) :
    ∀ first, RawL s r (blocksLines N ns sz node rank first bs) := by
  induction bs with
  | nil => intro first; exact rawL_one trivial
  | cons b bs ih =>
    intro first
    rw [blocksLines]
    refine RawL.append (RawL.append ?_ (rawL_block ..)) (ih _)
    split
    · exact rawL_nil _ _
    · exact rawL_one trivial

theorem raw_code {s r : Nat} (N ns : Nat) (sz : Nat → Nat) (node rank : Nat) (bs : List Block) (first : Bool) {i : Instr}
    (h : i ∈ TasksNode.code (blocksLines N ns sz node rank first bs)) : RawI s r i := by
  obtain ⟨x, hx, rfl⟩ := List.mem_map.1 h
  exact (rawL_blocks ..).all x (List.mem_filter.1 hx).1

theorem raw_outAll {s r : Nat} {sz : Nat → Nat} {len : Nat} (hr : len ≤ r) (b : Block) : ∀ add i, i ∈ copyOutAll sz len add b → RawI s r i := by
  induction b with
  | nil => intro add i h; cases h
  | cons l b ih =>
    intro add i h
    rw [copyOutAll] at h
    rcases List.mem_append.1 h with h | h
    · split at h
      · dsimp only at h
        unfold copyIf at h
        split at h
        · cases h
        · rename_i hn
          rw [List.mem_singleton.1 h]
          refine ⟨⟨?_, trivial⟩, nofun⟩
          show (overlapp 0 len (moffset sz l.frac) (moffset sz (l.frac + 1))).1 +
            (overlapp 0 len (moffset sz l.frac) (moffset sz (l.frac + 1))).2 ≤ r
          unfold overlapp at hn ⊢
          dsimp only at hn ⊢
          split_ifs at hn ⊢ <;> omega
      · cases h
    · exact ih _ i h

theorem raw_outPart {s r ns : Nat} {cnt : Nat → Nat} {node rank : Nat} (hr : cnt (node * ns + rank) ≤ r) (b : Block) (i : Instr)
    (h : i ∈ copyOutPart ns cnt node rank b) : RawI s r i := by
  unfold copyOutPart copyIf at h
  split at h
  · cases h
  · rw [List.mem_singleton.1 h]
    refine ⟨⟨?_, trivial⟩, nofun⟩
    show 0 + _ ≤ _
    omega

/-! ## Copy-in -/

/-- The instruction writes to shared memory and reads from it or from the first `len` elements of the send buffer. -/
def InI (len : Nat) : OnNode.Instr → Prop
  | .copy _ d s n => (∃ b, d.reg = .shm b) ∧ ((∃ b, s.reg = .shm b) ∨ (∃ k, s.reg = .send k) ∧ s.off + n ≤ len)
  | _ => True

structure InL (len : Nat) (l : List OnNode.Instr) : Prop where
  all : ∀ i, i ∈ l → InI len i

theorem InL.append {len : Nat} {A B : List OnNode.Instr} (h : InL len A) (h' : InL len B) : InL len (A ++ B) := by
  constructor
  intro x hx
  rcases List.mem_append.1 hx with hx | hx
  · exact h.all x hx
  · exact h'.all x hx

theorem inL_nil (len : Nat) : InL len [] := ⟨fun i h => by cases h⟩

theorem inL_one {len : Nat} {i : OnNode.Instr} (h : InI len i) : InL len [i] :=
  ⟨fun y hy => by rw [List.mem_singleton.1 hy]; exact h⟩

theorem inL_setWait (len b : Nat) (ranks : List Int) (w : Int) : InL len (OnNode.setWait b ranks w) :=
  InL.append (A := [_]) (inL_one trivial) (inL_one trivial)

theorem inL_busy (len b busy : Nat) (ranks : List Int) : InL len (OnNode.busyRounds b busy ranks) := by
  refine ⟨fun i hi => ?_⟩
  obtain ⟨k, _, hi⟩ := List.mem_flatMap.1 hi
  exact (inL_setWait ..).all i hi

theorem inL_idle (len b num : Nat) (ranks : List Int) : InL len (OnNode.idleRounds b num ranks) := by
  refine ⟨fun i hi => ?_⟩
  obtain ⟨k, _, hi⟩ := List.mem_flatMap.1 hi
  exact (inL_setWait ..).all i hi

theorem inL_barrier (len b all busy : Nat) (ranks : List Int) : InL len (OnNode.localBarrier b all busy ranks) :=
  InL.append (inL_busy ..) (inL_idle ..)

theorem inL_final (len b : Nat) (busy : Int) (ranks : List Int) : InL len (OnNode.localBarrierFinal b busy ranks) := by
  unfold OnNode.localBarrierFinal
  split
  · exact inL_busy ..
  · exact inL_idle ..

theorem inL_slice {sz : Nat → Nat} {N len : Nat} (hlen : len = moffset sz N) (start : Nat) (red : Bool) (al sl : Nat)
    (b : Block) (hb : ∀ l, l ∈ b → l.frac < N) : ∀ add, InL len (OnNode.ringSlice 0 (.shm 0) start red sz len al sl add b) := by
  induction b with
  | nil => intro add; exact inL_nil _
  | cons l b ih =>
    intro add
    have hfr : moffset sz l.frac + sz l.frac ≤ len := by
      rw [hlen, moffset_eq, moffset_eq]
      exact lo_end sz (hb l List.mem_cons_self)
    rw [OnNode.ringSlice]
    refine InL.append ?_ (ih (fun l' hl' => hb l' (List.mem_cons_of_mem _ hl')) _)
    dsimp only
    split
    · exact inL_nil _
    · rename_i h1
      obtain ⟨a, ha⟩ : ∃ a, a = if add > al then add else al := ⟨_, rfl⟩
      obtain ⟨s1, hs1⟩ : ∃ s1, s1 = if add > al then sl - (add - al) else sl := ⟨_, rfl⟩
      rw [← ha, ← hs1]
      obtain ⟨s2, hs2⟩ : ∃ s2, s2 = if add + sz l.frac < a + s1 then add + sz l.frac - a else s1 := ⟨_, rfl⟩
      rw [← hs2]
      split
      · exact inL_nil _
      · rename_i h2
        refine inL_one ⟨⟨0, rfl⟩, .inr ⟨⟨0, rfl⟩, ?_⟩⟩
        dsimp only
        have e1 : add ≤ a := by split at ha <;> omega
        have e2 : a + s2 ≤ add + sz l.frac := by split at hs2 <;> omega
        rw [show len + a - add + moffset sz l.frac = len + (moffset sz l.frac + (a - add)) by omega, Nat.add_mod_left,
          Nat.mod_eq_of_lt (by omega)]
        omega

theorem inL_copyin {sz : Nat → Nat} {N len : Nat} (hlen : len = moffset sz N) (stride base u gb nr : Nat) (ranks : List Int)
    (b : Block) (hb : ∀ l, l ∈ b → l.frac < N) (own : Nat) :
    InL len (OnNode.reduceCopyin 0 0 ⟨.shm 0, stride, base⟩ sz len u gb nr ranks b own) := by
  unfold OnNode.reduceCopyin
  refine InL.append ⟨fun i hi => ?_⟩ (inL_final ..)
  obtain ⟨k, _, hi⟩ := List.mem_flatMap.1 hi
  refine (InL.append (inL_slice hlen _ _ _ _ b hb 0) ?_).all i hi
  split
  · exact inL_setWait ..
  · exact inL_nil _

theorem inL_tree (len b : Nat) (fast : Bool) (stride base ts u v s f0 own : Nat) (fs : List Nat) :
    ∀ gb lay, InL len (OnNode.treeSteps b fast ⟨.shm 0, stride, base⟩ ts u v s len f0 own gb lay fs).1 := by
  induction fs with
  | nil => intro gb lay; exact inL_nil _
  | cons f fs ih =>
    intro gb lay
    rw [OnNode.treeSteps]
    refine InL.append (InL.append (inL_barrier ..) ?_) (ih _ _)
    unfold OnNode.stepReduce
    split
    · exact inL_nil _
    · refine ⟨fun i hi => ?_⟩
      obtain ⟨k, _, rfl⟩ := List.mem_map.1 hi
      exact ⟨⟨0, rfl⟩, .inl ⟨0, rfl⟩⟩

theorem inL_copies {len b : Nat} {fast : Bool} {stride base ts u s : Nat} {factors : List Nat} {subset : Bool} {own : Nat}
    {l : List OnNode.Instr} (h : OnNode.reduceCopies b fast ⟨.shm 0, stride, base⟩ ts u s len factors subset own = some l) :
    InL len l := by
  cases factors with
  | nil => cases h
  | cons f0 fs =>
    unfold OnNode.reduceCopies at h
    dsimp only at h
    split at h
    · cases h
    · injection h with h
      subst h
      refine InL.append (inL_tree ..) ?_
      unfold OnNode.finalBarrier
      split
      · split
        · exact inL_one trivial
        · exact InL.append (inL_final ..) (InL.append (A := [_]) (inL_one trivial) (inL_one trivial))
      · exact InL.append (inL_final ..) (InL.append (A := [_]) (inL_one trivial) (inL_one trivial))

theorem inL_half (len b n h u own : Nat) : InL len (OnNode.almostHalf b (.shm 0) n h len u own) := by
  unfold OnNode.almostHalf
  split
  · exact InL.append (InL.append (inL_final ..) (inL_one ⟨⟨0, rfl⟩, .inl ⟨0, rfl⟩⟩)) (inL_final ..)
  · exact InL.append (inL_final ..) (inL_final ..)

theorem inL_copyInC {P : OnNode.Par} {sz : Nat → Nat} {N : Nat} (hlen : P.len = moffset sz N) {b : Block}
    (hb : ∀ l, l ∈ b → l.frac < N) {rank : Nat} {c : List OnNode.Instr} (h : copyInC P sz b rank = some c) : InL P.len c := by
  unfold copyInC at h
  obtain ⟨c', g, rfl⟩ := Option.map_eq_some_iff.1 h
  refine InL.append (A := [_, _]) (InL.append (A := [_]) (inL_one trivial) (inL_one trivial)) ?_
  unfold OnNode.copyInWith at g
  split at g
  · cases g
  · split at g
    · cases g
    · dsimp only at g
      split at g
      · obtain ⟨t, ht, rfl⟩ := Option.map_eq_some_iff.1 g
        exact InL.append (InL.append (inL_copyin hlen _ _ _ _ _ _ b hb _) (inL_half ..)) (inL_copies ht)
      · obtain ⟨t, ht, rfl⟩ := Option.map_eq_some_iff.1 g
        exact InL.append (inL_copyin hlen _ _ _ _ _ _ b hb _) (inL_copies ht)

theorem own_act {ns : Nat} {u : Users} {S R : Nat → Nat} {node rank len : Nat} (hS : len ≤ S (node * ns + rank)) {i : OnNode.Instr}
    (hi : InI len i) {j : Instr} (hj : .op j ∈ (OnNode.Instr.acts ns rank i).map (fromAct ns u node)) : OwnI u S R (node * ns + rank) j := by
  obtain ⟨a, ha, he⟩ := List.mem_map.1 hj
  clear hj
  rename' he => hj
  cases i with
  | copy red d s n =>
    obtain ⟨e, he, rfl⟩ := List.mem_map.1 ha
    have he := List.mem_range.1 he
    injection hj with hj
    subst hj
    obtain ⟨⟨b, hd⟩, hs⟩ := hi
    refine ⟨fun x hx => ?_, fun x hx => ?_⟩
    rotate_left
    · rw [List.mem_singleton.1 hx]
      unfold OnNode.Addr.cell
      rw [hd]
      exact nofun
    rcases List.mem_append.1 hx with hx | hx <;> rw [List.mem_singleton.1 hx]
    · left
      refine ⟨b, ?_⟩
      unfold OnNode.Addr.cell
      rw [hd]
      rfl
    · rcases hs with ⟨b', hs⟩ | ⟨⟨k, hs⟩, hb⟩
      · left
        refine ⟨b', ?_⟩
        unfold OnNode.Addr.cell
        rw [hs]
        rfl
      · right; left
        unfold OnNode.Addr.cell
        rw [hs]
        refine ⟨rfl, Nat.le_add_right _ _, ?_⟩
        show u.send (node * ns + rank) + (s.off + e) + 1 ≤ _
        omega
  | set b r =>
    rw [List.mem_singleton.1 ha] at hj
    cases hj
  | wait b r =>
    rw [List.mem_singleton.1 ha] at hj
    cases hj
  | barrier b =>
    obtain ⟨k, _, ha⟩ := List.mem_flatMap.1 ha
    rcases List.mem_cons.1 ha with rfl | ha
    · cases hj
    · rw [List.mem_singleton.1 ha] at hj
      cases hj

/-! ## The programs -/

theorem own_reduce {N ns : Nat} {P : OnNode.Par} {sz : Nat → Nat} {out : Block → List Instr} {perm : List Nat} {u : Users}
    {sched : List Block} {node rank : Nat} {l : List CInstr} {S R : Nat → Nat} (hlen : P.len = moffset sz N)
    (hS : P.len ≤ S (node * ns + rank)) (hout : ∀ b i, i ∈ out b → RawI (S (node * ns + rank)) (R (node * ns + rank)) i)
    (h : reduceProgram N ns P sz out perm u sched node rank = some l) {j : Instr} (hj : .op j ∈ l) :
    OwnI u S R (node * ns + rank) j := by
  unfold reduceProgram at h
  obtain ⟨a, _, h⟩ := Option.bind_eq_some_iff.1 h
  split at h
  · rename_i b0 bs bl _ _
    split at h
    · rename_i hc
      rw [Bool.and_eq_true, List.all_eq_true, List.all_eq_true] at hc
      obtain ⟨c, h1, rfl⟩ := Option.map_eq_some_iff.1 h
      rcases List.mem_append.1 hj with hj | hj
      · rw [List.map_flatMap] at hj
        obtain ⟨i, hi, hj⟩ := List.mem_flatMap.1 hj
        exact own_act hS ((inL_copyInC hlen (fun l hl => by
          have := hc.2 l (List.mem_append_left _ hl)
          simpa using this) h1).all i hi) hj
      · obtain ⟨i, hi, hj⟩ := List.mem_flatMap.1 hj
        refine own_expand ?_ hj
        rcases List.mem_append.1 hi with hi | hi
        · exact raw_code _ _ _ _ _ _ _ hi
        · exact hout _ i hi
    · cases h
  · cases h

theorem own_gather {N ns : Nat} {cnt : Nat → Nat} {perm : List Nat} {u : Users} {sched : List Block} {node rank : Nat}
    {l : List CInstr} {S R : Nat → Nat} (hS : cnt (node * ns + rank) ≤ S (node * ns + rank))
    (hR : moffset (coarse ns cnt) N ≤ R (node * ns + rank))
    (h : allgatherProgram N ns cnt perm u sched node rank = some l) {j : Instr} (hj : .op j ∈ l) :
    OwnI u S R (node * ns + rank) j := by
  unfold allgatherProgram at h
  obtain ⟨g, h0, rfl⟩ := Option.map_eq_some_iff.1 h
  obtain ⟨i, hi, hj⟩ := List.mem_flatMap.1 hj
  refine own_expand ?_ hj
  unfold gatherProgram at h0
  obtain ⟨a, _, h⟩ := Option.bind_eq_some_iff.1 h0
  split at h
  · split at h
    · injection h with h
      subst h
      rcases List.mem_append.1 hi with hi | hi
      · rcases List.mem_append.1 hi with hi | hi
        · rcases List.mem_cons.1 hi with rfl | hi
          · trivial
          · rcases List.mem_append.1 hi with hi | hi
            · unfold copyIf at hi
              split at hi
              · cases hi
              · rw [List.mem_singleton.1 hi]
                refine ⟨⟨trivial, ?_⟩, nofun⟩
                show 0 + _ ≤ _
                omega
            · rw [List.mem_singleton.1 hi]; trivial
        · exact raw_code _ _ _ _ _ _ _ hi
      · exact raw_outAll hR _ _ _ hi
    · cases h
  · cases h

/-- Changes of own data do not disturb the processes. -/
theorem private_of_own {ns : Nat} {u : Users} {S R : Nat → Nat} {fills : Nat → Nat → List Change} {prog : Nat → List CInstr}
    (h : OwnData ns u S R fills) (hp : ∀ p j, .op j ∈ prog p → OwnI u S R p j) : Private ns fills prog where
  ne := h.ne
  own := fun i p x hx i' p' x' hx' hne hd hc => by
    have h1 := h.own i p x hx i' p' x' hx' hne hd
    have h2 := h.own i' p' x' hx' i p x hx (Ne.symm hne) hd.symm
    have key : ∀ a b : Addr, overlap a 1 b 1 → a = b := by
      intro a b hab
      obtain ⟨e1, e2, e3⟩ := hab
      obtain ⟨r, o⟩ := a
      obtain ⟨r', o'⟩ := b
      dsimp only at *
      rw [e1, show o = o' by omega]
    rcases hc with ⟨a, b, ha, hb, ho⟩ | ⟨a, b, ha, hb, ho⟩
    · obtain rfl := List.mem_singleton.1 ha
      rcases List.mem_append.1 hb with hb | hb <;> obtain rfl := List.mem_singleton.1 hb
      · exact h1.1 (key _ _ ho)
      · exact h1.2 (key _ _ ho)
    · obtain rfl := List.mem_singleton.1 ha
      obtain rfl := List.mem_singleton.1 hb
      exact h2.2 (key _ _ ho).symm
  used := fun i p x hx p' j hj hne hd hc => by
    have h1 := h.buffers i p x hx p' hne hd
    have h2 := h.shm i p x hx
    have key : ∀ (a : Addr) (y : Addr × Nat), (∀ k, a.reg ≠ .shm k) → ¬InBuffers u S R p' a → y ∈ writes j ++ reads j →
        ¬overlap a 1 y.1 y.2 := by
      rintro a y ha hb hy ⟨e1, e2, e3⟩
      rcases (hp p' j hj).1 y hy with ⟨k, g⟩ | ⟨g1, g2, g3⟩ | ⟨g1, g2, g3⟩
      · exact ha k (e1.trans g)
      · exact hb (.inl ⟨e1.trans g1, by omega, by omega⟩)
      · exact hb (.inr ⟨e1.trans g1, by omega, by omega⟩)
    rcases hc with ⟨a, b, ha, hb, ho⟩ | ⟨a, b, ha, hb, ho⟩
    · obtain rfl := List.mem_singleton.1 ha
      exact key x.1 b (fun k => (h2 k).1) h1.1 hb ho
    · obtain rfl := List.mem_singleton.1 ha
      exact key x.2 b (fun k => (h2 k).2) h1.2 (List.mem_append_left _ hb) ho

end ExtMpi.Cluster
