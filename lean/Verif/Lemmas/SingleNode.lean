import Verif.Lemmas.TwoPhase
import Verif.Model.SingleNode
/-! The accesses of the collectives on a single node. -/
namespace ExtMpi.SingleNode
open OnNode Schedule
open RawCode (moffset)

variable {X : Type} [AddCommMonoid X]

theorem moffset_before (cnt : Nat → Nat) (p : Nat) : moffset cnt p = before cnt p := by
  unfold moffset before
  induction p with
  | zero => rfl
  | succ p ih => rw [List.range_succ, List.map_append, List.sum_append, ih, Finset.sum_range_succ]; simp

theorem before_succ (cnt : Nat → Nat) (p : Nat) : before cnt (p + 1) = before cnt p + cnt p := by
  unfold before; rw [Finset.sum_range_succ]

theorem before_mono (cnt : Nat → Nat) {p q : Nat} (h : p ≤ q) : before cnt p ≤ before cnt q := by
  induction q with
  | zero => have : p = 0 := by omega
            subst this; exact Nat.le_refl _
  | succ q ih =>
    by_cases hc : p ≤ q
    · have := ih hc; rw [before_succ]; omega
    · have : p = q + 1 := by omega
      subst this; exact Nat.le_refl _

theorem before_lt (cnt : Nat → Nat) {p n : Nat} (h : p < n) : before cnt p + cnt p ≤ before cnt n := by
  have := before_mono cnt (show p + 1 ≤ n from h)
  rwa [before_succ] at this

theorem before_apart (cnt : Nat → Nat) {p q x y : Nat} (hpq : p ≠ q) (hx : x < cnt p) (hy : y < cnt q) :
    before cnt p + x ≠ before cnt q + y := by
  rcases Nat.lt_or_gt_of_ne hpq with h | h
  · have := before_lt cnt h; omega
  · have := before_lt cnt h; omega

/-! ### Programs -/

theorem acts_copyIf (n p : Nat) (dst src : Addr) (c : Nat) : (copyIf dst src c).flatMap (Instr.acts n p) =
    (copies false (dst.cell p) (src.cell p) c).map Elem.act := by
  unfold copyIf
  split
  · rename_i h; subst h; rfl
  · simp [Instr.acts, copies, Elem.act]

theorem acts_copy (n p : Nat) (red : Bool) (dst src : Addr) (c : Nat) : Instr.acts n p (.copy red dst src c) =
    (copies red (dst.cell p) (src.cell p) c).map Elem.act := by
  simp [Instr.acts, copies, Elem.act]

/-- Source of the copy-out. -/
def outAddr (ts len b : Nat) : Addr :=
  if len * ts ≤ 56 then ⟨.fast b, 8 / ts⟩ else ⟨.shm b, 0⟩

theorem acts_copyOut (n p ts len b k : Nat) : (copyOutAll ts len b k).flatMap (Instr.acts n p) =
    (copies false (Addr.cell ⟨.recv k, 0⟩ p) ((outAddr ts len b).cell p) len).map Elem.act := by
  unfold copyOutAll OnNode.copyOut outAddr
  split
  · rename_i h
    have h : len = 0 := h
    subst h; rfl
  · simp only [List.flatMap_cons, List.flatMap_nil, List.append_nil, acts_copy, Par.isFast, Par.place, cacheLine, offsetFast]
    by_cases h : len * ts ≤ 56
    · simp [h]
    · simp [h]

theorem out_bank (ts len b p i : Nat) : ((outAddr ts len b).cell p i).bank = some b := by
  unfold outAddr; split <;> rfl

theorem recv_inj (p k : Nat) (a : Nat) : ∀ i j, Addr.cell ⟨.recv k, a⟩ p i = Addr.cell ⟨.recv k, a⟩ p j → i = j := by
  intro i j h
  simp only [Addr.cell, Cell.recv.injEq] at h
  omega

theorem shm_inj (p b : Nat) (a : Nat) : ∀ i j, Addr.cell ⟨.shm b, a⟩ p i = Addr.cell ⟨.shm b, a⟩ p j → i = j := by
  intro i j h
  simp only [Addr.cell, Cell.shm.injEq] at h
  omega

/-- Copy-out: what the receive buffer gets. -/
theorem run_out (p k c : Nat) (src : Nat → Cell) (hsrc : ∀ i, (src i).bank ≠ none) (m : Cell → X) (y : Nat) :
    runElems (copies false (Addr.cell ⟨.recv k, 0⟩ p) src c) m (.recv p k y) = if y < c then m (src y) else m (.recv p k y) := by
  have hsep : ∀ i j, src i ≠ Addr.cell ⟨.recv k, 0⟩ p j := by
    intro i j h
    apply hsrc i
    rw [h]; rfl
  by_cases hy : y < c
  · have := run_copies (recv_inj p k 0) hsep c m hy false
    rw [if_pos hy]
    simpa [Addr.cell] using this
  · rw [if_neg hy]
    apply run_copies_other
    intro e he h
    simp only [Addr.cell, Cell.recv.injEq, true_and] at h
    omega

theorem mem_copies {red : Bool} {dst src : Nat → Cell} {c : Nat} {e : Elem} (h : e ∈ copies red dst src c) :
    ∃ i, i < c ∧ e.dst = dst i ∧ e.src = src i := by
  simp only [copies, List.mem_map, List.mem_range] at h
  obtain ⟨i, hi, rfl⟩ := h
  exact ⟨i, hi, rfl, rfl⟩

/-! ### Data of a root -/

/-- The root writes its data. -/
def rootW (b k root len : Nat) (p : Nat) : List Elem :=
  if p = root then copies false (Addr.cell ⟨.shm b, 0⟩ p) (Addr.cell ⟨.send k, 0⟩ p) len else []

theorem run_rootW {n b k root len : Nat} (hr : root < n) (m : Cell → X) :
    (∀ y, y < len → runElems ((List.range n).flatMap (rootW b k root len)) m (.shm b y) = m (.send root k y)) ∧
    ∀ c, c.bank ≠ some b ∨ (∃ y, c = .fast b y) → runElems ((List.range n).flatMap (rootW b k root len)) m c = m c := by
  rw [flatMap_single hr _ (by intro q _ hq; simp [rootW, hq])]
  simp only [rootW, if_true]
  constructor
  · intro y hy
    have := run_copies (shm_inj root b 0) (src := Addr.cell ⟨.send k, 0⟩ root) (by intro i j h; simp [Addr.cell] at h) len m hy false
    simpa [Addr.cell] using this
  · intro c hc
    apply run_copies_other
    rintro e _ rfl
    rcases hc with hc | ⟨y, hc⟩
    · exact hc rfl
    · simp [Addr.cell] at hc

theorem phases_root {n b k root len : Nat} {Rd : Nat → List Elem}
    (hrd : ∀ p, ∀ e ∈ Rd p, (∃ y, e.dst = .recv p k y) ∧ e.src.bank = some b) : Phases n b k (rootW b k root len) Rd := by
  refine ⟨?_, hrd, ?_⟩
  · intro p e he
    unfold rootW at he
    split at he
    · obtain ⟨i, _, h1, h2⟩ := mem_copies he
      exact ⟨⟨_, h1⟩, _, h2⟩
    · cases he
  · intro p q _ _ hpq e he f hf
    unfold rootW at he hf
    split at he
    · split at hf
      · omega
      · cases hf
    · cases he

/-! ### Parts of all processes -/

/-- Every process writes its part. -/
def partW (cnt : Nat → Nat) (o b k : Nat) (p : Nat) : List Elem :=
  copies false (Addr.cell ⟨.shm b, before cnt p + o⟩ p) (Addr.cell ⟨.send k, 0⟩ p) (cnt p)

theorem together_succ (n : Nat) (cnt : Nat → Nat) (s : Nat → Nat → X) : together (n + 1) cnt s =
    together n cnt s ++ (List.range (cnt n)).map fun e => s n e := by
  simp [together, List.range_succ]

theorem together_length (n : Nat) (cnt : Nat → Nat) (s : Nat → Nat → X) : (together n cnt s).length = before cnt n := by
  induction n with
  | zero => rfl
  | succ n ih => rw [together_succ, List.length_append, ih, before_succ]; simp

theorem run_partW (n : Nat) (cnt : Nat → Nat) (o b k : Nat) (m : Cell → X) :
    (∀ y, runElems ((List.range n).flatMap (partW cnt o b k)) m (.shm b (y + o)) =
      ((together n cnt fun q e => m (.send q k e))[y]?).getD (m (.shm b (y + o)))) ∧
    ∀ c, (∀ y, c ≠ .shm b (y + o)) → runElems ((List.range n).flatMap (partW cnt o b k)) m c = m c := by
  have hother : ∀ (n : Nat) c, (∀ y, c ≠ .shm b (y + o)) → runElems ((List.range n).flatMap (partW cnt o b k)) m c = m c := by
    intro n c hc
    apply runElems_other
    intro e he hd
    obtain ⟨p, _, he⟩ := List.mem_flatMap.1 he
    obtain ⟨i, _, h1, _⟩ := mem_copies he
    apply hc (before cnt p + i)
    rw [← hd, h1]
    simp only [Addr.cell, Cell.shm.injEq, true_and]
    omega
  refine ⟨?_, hother n⟩
  induction n with
  | zero => intro y; simp [together, runElems]
  | succ n ih =>
    intro y
    rw [List.range_succ, List.flatMap_append, runElems_append]
    simp only [List.flatMap_cons, List.flatMap_nil, List.append_nil]
    rw [together_succ]
    by_cases h : before cnt n ≤ y ∧ y < before cnt n + cnt n
    · obtain ⟨d, rfl⟩ := Nat.exists_eq_add_of_le h.1
      have hd : d < cnt n := by omega
      have := run_copies (shm_inj n b (before cnt n + o)) (src := Addr.cell ⟨.send k, 0⟩ n)
        (by intro i j h; simp [Addr.cell] at h) (cnt n) (runElems ((List.range n).flatMap (partW cnt o b k)) m) hd false
      have e1 : Addr.cell ⟨.shm b, before cnt n + o⟩ n d = .shm b (before cnt n + d + o) := by
        simp only [Addr.cell, Cell.shm.injEq, true_and]; omega
      rw [e1] at this
      unfold partW at this ⊢
      rw [this]
      have e2 : Addr.cell ⟨.send k, 0⟩ n d = .send n k d := by simp [Addr.cell]
      have h3 := hother n (.send n k d) (by intro y; simp)
      unfold partW at h3
      rw [if_neg (by simp), e2, h3, List.getElem?_append_right (by rw [together_length]; omega), together_length,
        Nat.add_sub_cancel_left, List.getElem?_map, List.getElem?_range hd]
      rfl
    · have hsame : runElems (partW cnt o b k n) (runElems ((List.range n).flatMap (partW cnt o b k)) m) (.shm b (y + o)) =
          runElems ((List.range n).flatMap (partW cnt o b k)) m (.shm b (y + o)) := by
        apply run_copies_other
        intro e he hc
        simp only [Addr.cell, Cell.shm.injEq, true_and] at hc
        omega
      rw [hsame, ih]
      by_cases hlt : y < before cnt n
      · rw [List.getElem?_append_left (by rw [together_length]; exact hlt)]
      · rw [List.getElem?_eq_none (by rw [together_length]; omega),
          List.getElem?_eq_none (by rw [List.length_append, together_length]; simp; omega)]

theorem phases_part {n b k o : Nat} {cnt : Nat → Nat} {Rd : Nat → List Elem}
    (hrd : ∀ p, ∀ e ∈ Rd p, (∃ y, e.dst = .recv p k y) ∧ e.src.bank = some b) : Phases n b k (partW cnt o b k) Rd := by
  refine ⟨?_, hrd, ?_⟩
  · intro p e he
    obtain ⟨i, _, h1, h2⟩ := mem_copies he
    exact ⟨⟨_, h1⟩, _, h2⟩
  · intro p q _ _ hpq e he f hf hc
    obtain ⟨i, hi, h1, _⟩ := mem_copies he
    obtain ⟨j, hj, h2, _⟩ := mem_copies hf
    rw [h1, h2] at hc
    simp only [Addr.cell, Cell.shm.injEq, true_and] at hc
    exact before_apart cnt hpq hi hj (by omega)

/-! ### Block 0 of a gather -/

theorem tail_cons (steps : Nat) : ∃ r rs, tailRows steps = r :: rs := by
  cases steps with
  | zero => exact ⟨_, _, rfl⟩
  | succ s => exact ⟨_, _, rfl⟩

theorem prune_tail (root steps : Nat) :
    ∃ rs v, Rooted.prune 1 root false (tailRows steps) = some (rs, v) ∧ v 0 = [decide (0 = root)] := by
  induction steps with
  | zero =>
    refine ⟨_, _, rfl, ?_⟩
    by_cases h : 0 = root
    · subst h; decide
    · simp [Rooted.descend, Rooted.seed, lastBlock, h, Rooted.markLine, Rooted.need]
  | succ s ih =>
    obtain ⟨rs, v, h1, h2⟩ := ih
    obtain ⟨r1, r2, hr⟩ := tail_cons s
    have hs : tailRows (s + 1) = (fun _ => stepBlock) :: tailRows s := by
      simp [tailRows, List.replicate_succ]
    rw [hs, hr]
    rw [hr] at h1
    unfold Rooted.prune
    rw [h1]
    simp only
    rw [if_neg (by simp), if_pos (by decide)]
    refine ⟨_, _, rfl, ?_⟩
    by_cases h : 0 = root
    · subst h
      simp [Rooted.exchange, Rooted.descend, Rooted.inherit, Rooted.markLine, Rooted.need, h2, stepBlock]
    · simp [Rooted.exchange, Rooted.descend, Rooted.inherit, Rooted.markLine, Rooted.need, h2, h, stepBlock]

theorem block0_zero (steps : Nat) : block0 steps (some 0) = singleBlock := by
  obtain ⟨rs, v, h1, h2⟩ := prune_tail 0 steps
  obtain ⟨r1, r2, hr⟩ := tail_cons steps
  rw [hr] at h1
  unfold block0 rows
  rw [hr]
  unfold Rooted.prune
  simp only
  rw [h1]
  simp [Rooted.endBlock, Rooted.dropLine, Rooted.descend, Rooted.inherit, Rooted.markLine, Rooted.need, h2, singleBlock]

theorem block0_other (steps : Nat) {root : Nat} (h0 : root ≠ 0) :
    block0 steps (some root) = [{ frac := 0, recvfrom := [(-9, 0)] }] := by
  obtain ⟨rs, v, h1, h2⟩ := prune_tail root steps
  obtain ⟨r1, r2, hr⟩ := tail_cons steps
  rw [hr] at h1
  unfold block0 rows
  rw [hr]
  unfold Rooted.prune
  simp only
  rw [h1]
  simp [Rooted.endBlock, Rooted.dropLine, Rooted.descend, Rooted.inherit, Rooted.markLine, Rooted.need, h2, singleBlock, Ne.symm h0]

end ExtMpi.SingleNode
