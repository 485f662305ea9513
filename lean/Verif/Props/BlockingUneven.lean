import Verif.Props.Blocking
/-! # A unit that does not divide the pieces (C47) makes a blocking allreduce wrong (C49) -/
namespace ExtMpi.Blocking

/-- Steps that copy nothing to receive buffers leave them as they are. -/
theorem recv_kept {α : Type} [Add α] (ts : Nat) (acts : List (Option Act))
    (h : ∀ a, some a ∈ acts → a.dr = Region.recv → a.n / ts = 0) (m m' : Loc → α) (he : exec ts acts m = some m') (q i : Nat) :
    m' (q, .recv, i) = m (q, .recv, i) := by
  induction acts generalizing m with
  | nil => cases he; rfl
  | cons a as ih =>
    cases a with
    | none => cases he
    | some a =>
      rw [exec] at he
      split at he
      · rw [ih (fun b hb => h b (List.mem_cons_of_mem _ hb)) _ he]
        have hu : a.upd ts (q, .recv, i) = none := by
          unfold Act.upd
          rw [if_neg]
          rintro ⟨_, h2, h3, h4⟩
          have := h a List.mem_cons_self h2.symm
          dsimp only at h3 h4
          omega
        unfold apply
        rw [hu]
      · cases he

/-- Allreduce of 8 elements on two processes. Each of them adds the vector of the other one to its own. The first element of the
result is copied out separately. -/
def unevenPair : List Item :=
  [ .message 0 64 64 1 (8 * seg) 64 true, .message 1 64 64 0 (8 * seg) 64 true,
    .copy 0 0 (8 * seg) 64, .copy 1 0 (8 * seg) 64,
    .reduce 0 0 64 8, .reduce 1 0 64 8,
    .copy 0 (9 * seg) 0 8, .copy 0 (9 * seg + 8) 8 56, .copy 1 (9 * seg) 0 8, .copy 1 (9 * seg + 8) 8 56 ]

def unevenActs : List Act :=
  [ ⟨false, 0, .shm 0, 64, 1, .send, 0, 64⟩, ⟨false, 1, .shm 0, 64, 0, .send, 0, 64⟩,
    ⟨false, 0, .shm 0, 0, 0, .send, 0, 64⟩, ⟨false, 1, .shm 0, 0, 1, .send, 0, 64⟩,
    ⟨true, 0, .shm 0, 0, 0, .shm 0, 64, 64⟩, ⟨true, 1, .shm 0, 0, 1, .shm 0, 64, 64⟩,
    ⟨false, 0, .recv, 0, 0, .shm 0, 0, 8⟩, ⟨false, 0, .recv, 8, 0, .shm 0, 8, 56⟩,
    ⟨false, 1, .recv, 0, 1, .shm 0, 0, 8⟩, ⟨false, 1, .recv, 8, 1, .shm 0, 8, 56⟩ ]

theorem recalc_fst (count sizeIo p size : Nat) : (recalc count sizeIo p size).1 = regionOf (p / seg) := by
  simp only [recalc]

theorem recalc_zero (u w x : Nat) : (recalc u w x 0).2.2 = 0 := by
  unfold recalc
  dsimp only
  generalize regionOf (x / seg) = r
  generalize x % seg * u = o
  cases r with
  | shm _ => rfl
  | _ =>
    dsimp only
    split
    · omega
    · rfl

theorem recalc_twice (u w x y : Nat) : (recalc u w y (recalc u w x 0).2.2).2.2 = 0 := by
  rw [recalc_zero, recalc_zero]

/-- The relocated step copies to the buffer of the prepared one, and nothing if the unit exceeds its size. -/
theorem blockAct_copy (ts u w p d s n : Nat) (a : Act) (h : blockAct ts u w (.copy p d s n) = some a) :
    a.dr = regionOf (d / seg) ∧ (n = 0 → a.n = 0) := by
  unfold blockAct at h
  injection h with h
  subst h
  refine ⟨recalc_fst u w d (n * u), ?_⟩
  intro hn
  subst hn
  dsimp only
  rw [Nat.zero_mul]
  exact recalc_twice u w d s

theorem blockAct_reduce (ts u w p d s n : Nat) (a : Act) (h : blockAct ts u w (.reduce p d s n) = some a) :
    a.dr = regionOf (d / seg) := by
  unfold blockAct at h
  injection h with h
  subst h
  exact recalc_fst u w d (n * u)

theorem blockAct_message (ts u w p d rn q s sn : Nat) (b : Bool) (a : Act)
    (h : blockAct ts u w (.message p d rn q s sn b) = some a) : a.dr = regionOf (d / seg) := by
  unfold blockAct at h
  dsimp only at h
  generalize (if b = true then _ else _ : Nat) = len at h
  split at h
  · cases h
  · injection h with h
    subst h
    exact recalc_fst u w d (rn * u)

/-- The normalised step writes to no receive buffer, or it is a copy of size 0. -/
def idle : Item → Bool
  | .copy _ d _ n => n == 0 || regionOf (d / seg) != .recv
  | .reduce _ d _ _ => regionOf (d / seg) != .recv
  | .message _ d _ _ _ _ _ => regionOf (d / seg) != .recv

theorem idle_step (ts u w : Nat) (it : Item) (hi : idle it = true) (a : Act) (h : blockAct ts u w it = some a)
    (hr : a.dr = .recv) : a.n = 0 := by
  cases it with
  | copy p d s n =>
    obtain ⟨h1, h2⟩ := blockAct_copy ts u w p d s n a h
    rw [idle, Bool.or_eq_true] at hi
    rcases hi with hi | hi
    · exact h2 (beq_iff_eq.mp hi)
    · exact absurd (h1.symm.trans hr) (bne_iff_ne.mp hi)
  | reduce p d s n =>
    exact absurd ((blockAct_reduce ts u w p d s n a h).symm.trans hr) (bne_iff_ne.mp hi)
  | message p d rn q s sn b =>
    exact absurd ((blockAct_message ts u w p d rn q s sn b a h).symm.trans hr) (bne_iff_ne.mp hi)

theorem uneven_idle : (unevenPair.all fun it => idle (normItem (8 * 8) it)) = true := by decide +kernel

theorem uneven_acts : unevenPair.map prepAct = unevenActs.map some := rfl

/-- **C49**, negation for programs that fail C47: this program is a correct allreduce that meets all other conditions, and all
senders know their receive buffers. With the unit the library computes for it the relocated program copies nothing to the receive
buffers, whatever the count and the size of an element. -/
theorem uneven_violated : ∃ pf, paddingOf unevenPair = some pf ∧ 0 < pf ∧ pf ≤ 8 ∧
    Allreduces Nat [0, 1] 8 8 (unevenPair.map prepAct) ∧ SendKept (unevenPair.map prepAct) ∧
    InPosition [0, 1] 8 8 (unevenPair.map prepAct) ∧ (∀ it ∈ unevenPair, Seen it) ∧
    seenFlags [normAddr (8 * pf) 64] 0 1 = [true] ∧
    ∀ c ts, 0 < c → 0 < ts → ¬Allreduces Nat [0, 1] c ts (unevenPair.map fun it =>
      blockAct ts (unitOf c (8 / pf) ts) (c * ts) (normItem (8 * pf) it)) := by
  refine ⟨8, by decide +kernel, by decide, by decide, ?_, ?_, ?_, ?_, by decide, ?_⟩
  · rw [uneven_acts]
    exact allreduces_of_flow Nat _ _ _ _ (by decide) (by decide +kernel)
  · rw [uneven_acts]
    intro a ha
    obtain ⟨b, hb, he⟩ := List.mem_map.mp ha
    rw [Option.some.injEq] at he
    subst he
    have : ∀ b ∈ unevenActs, b.dr ≠ Region.send := by decide
    exact this b hb
  · rw [uneven_acts]
    exact inPosition_of_flow _ _ _ _ (by decide) (by decide +kernel)
  · intro it hit
    simp only [unevenPair, List.mem_cons, List.not_mem_nil, or_false] at hit
    rcases hit with rfl | rfl | rfl | rfl | rfl | rfl | rfl | rfl | rfl | rfl <;> simp [Seen]
  · intro c ts hc hts h
    obtain ⟨m', h1, h2⟩ := h fun l => if l.2.1 = .send then 1 else 0
    have h3 := h2 0 (by simp) 0 hc
    rw [recv_kept ts _ ?_ _ _ h1] at h3
    · simp at h3
    · intro a ha hr
      obtain ⟨it, hit, he⟩ := List.mem_map.mp ha
      rw [idle_step ts _ _ _ (List.all_eq_true.mp uneven_idle it hit) a he hr, Nat.zero_div]

end ExtMpi.Blocking
