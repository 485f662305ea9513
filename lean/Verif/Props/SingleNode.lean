import Verif.Lemmas.SingleNode
import Verif.Lemmas.OnlyRoot
import Verif.Props.OnNode
/-! # Properties C80 to C84: collectives on a single node -/
namespace ExtMpi.SingleNode
open OnNode Schedule
open RawCode (moffset)

variable {X : Type} [AddCommMonoid X]

theorem first_pos (alternate : Bool) : alternate = false → 0 < firstBarriers alternate := by
  rintro rfl; decide

/-! ### C80: reduce_scatter -/

/-- What process `p` writes. -/
def rsW (n : Nat) (cnt : Nat → Nat) (b k p : Nat) : List Elem :=
  copies false (Addr.cell ⟨.shm b, moffset cnt n * p⟩ p) (Addr.cell ⟨.send k, 0⟩ p) (moffset cnt n)

theorem run_rsW (n : Nat) (cnt : Nat → Nat) (b k : Nat) (m : Cell → X) {q e : Nat} (hq : q < n) (he : e < moffset cnt n) :
    runElems ((List.range n).flatMap (rsW n cnt b k)) m (.shm b (moffset cnt n * q + e)) = m (.send q k e) := by
  have hT : 0 < moffset cnt n := by omega
  have key : ∀ j, q < j → runElems ((List.range j).flatMap (rsW n cnt b k)) m (.shm b (moffset cnt n * q + e)) = m (.send q k e) := by
    intro j hj
    induction j with
    | zero => omega
    | succ j ih =>
      rw [List.range_succ, List.flatMap_append, runElems_append]
      simp only [List.flatMap_cons, List.flatMap_nil, List.append_nil]
      by_cases hqj : q = j
      · subst hqj
        have h := run_copies (shm_inj q b (moffset cnt n * q)) (src := Addr.cell ⟨.send k, 0⟩ q)
          (by intro i j h; simp [Addr.cell] at h) (moffset cnt n) (runElems ((List.range q).flatMap (rsW n cnt b k)) m) he false
        have e2 : Addr.cell ⟨.send k, 0⟩ q e = .send q k e := by simp [Addr.cell]
        have h3 : runElems ((List.range q).flatMap (rsW n cnt b k)) m (.send q k e) = m (.send q k e) := by
          apply runElems_other
          intro f hf hd
          obtain ⟨p, _, hf⟩ := List.mem_flatMap.1 hf
          obtain ⟨i, _, h1, _⟩ := mem_copies hf
          rw [h1] at hd; cases hd
        rw [if_neg (by simp), e2, h3] at h
        exact h
      · have : runElems (rsW n cnt b k j) (runElems ((List.range j).flatMap (rsW n cnt b k)) m)
            (.shm b (moffset cnt n * q + e)) = runElems ((List.range j).flatMap (rsW n cnt b k)) m (.shm b (moffset cnt n * q + e)) := by
          apply run_copies_other
          intro i hi hc
          simp only [Addr.cell, Cell.shm.injEq, true_and] at hc
          have h1 : (moffset cnt n * q + e) / moffset cnt n = q := by
            rw [Nat.mul_add_div hT, Nat.div_eq_of_lt he, Nat.add_zero]
          have h2 : (moffset cnt n * j + i) / moffset cnt n = j := by
            rw [Nat.mul_add_div hT, Nat.div_eq_of_lt hi, Nat.add_zero]
          rw [hc, h2] at h1
          exact hqj h1.symm
        rw [this]
        exact ih (by omega)
  exact key n hq

/-- What process `p` reads. -/
def rsR (n : Nat) (cnt : Nat → Nat) (b k p : Nat) : List Elem :=
  copies false (Addr.cell ⟨.recv k, 0⟩ p) (Addr.cell ⟨.shm b, moffset cnt p⟩ p) (cnt p) ++
    (List.range (n - 1)).flatMap fun i =>
      copies true (Addr.cell ⟨.recv k, 0⟩ p) (Addr.cell ⟨.shm b, moffset cnt n * (i + 1) + moffset cnt p⟩ p) (cnt p)

theorem run_rsR (n : Nat) (cnt : Nat → Nat) (b k p : Nat) (m : Cell → X) (y : Nat) (hn : 0 < n) :
    runElems (rsR n cnt b k p) m (.recv p k y) =
      if y < cnt p then ∑ q ∈ Finset.range n, m (.shm b (moffset cnt n * q + moffset cnt p + y)) else m (.recv p k y) := by
  by_cases hy : y < cnt p
  · rw [if_pos hy]
    obtain ⟨j, rfl⟩ : ∃ j, n = j + 1 := ⟨n - 1, by omega⟩
    have hsep : ∀ a i j, Addr.cell ⟨.shm b, a⟩ p i ≠ Addr.cell ⟨.recv k, 0⟩ p j := by intro a i j h; simp [Addr.cell] at h
    unfold rsR
    generalize moffset cnt (j + 1) = T
    rw [Nat.add_sub_cancel, runElems_append]
    have hshm : ∀ (i z : Nat) (m' : Cell → X), runElems ((List.range i).flatMap fun i =>
        copies true (Addr.cell ⟨.recv k, 0⟩ p) (Addr.cell ⟨.shm b, T * (i + 1) + moffset cnt p⟩ p) (cnt p)) m' (.shm b z) = m' (.shm b z) := by
      intro i z m'
      apply runElems_other
      intro f hf hd
      obtain ⟨_, _, hf⟩ := List.mem_flatMap.1 hf
      obtain ⟨_, _, h1, _⟩ := mem_copies hf
      rw [h1] at hd; cases hd
    induction j with
    | zero =>
      have h := run_copies (recv_inj p k 0) (hsep (moffset cnt p)) (cnt p) m hy false
      simp only [List.range_zero, List.flatMap_nil, Finset.sum_range_one]
      simpa [Addr.cell, runElems] using h
    | succ j ih =>
      have ih := ih (by omega)
      rw [List.range_succ, List.flatMap_append, runElems_append, Finset.sum_range_succ, ← ih]
      simp only [List.flatMap_cons, List.flatMap_nil, List.append_nil]
      have h := run_copies (recv_inj p k 0) (hsep (T * (j + 1) + moffset cnt p)) (cnt p)
        (runElems ((List.range j).flatMap fun i => copies true (Addr.cell ⟨.recv k, 0⟩ p)
          (Addr.cell ⟨.shm b, T * (i + 1) + moffset cnt p⟩ p) (cnt p))
          (runElems (copies false (Addr.cell ⟨.recv k, 0⟩ p) (Addr.cell ⟨.shm b, moffset cnt p⟩ p) (cnt p)) m)) hy true
      have e1 : Addr.cell ⟨.recv k, 0⟩ p y = .recv p k y := by simp [Addr.cell]
      have e2 : Addr.cell ⟨.shm b, T * (j + 1) + moffset cnt p⟩ p y = .shm b (T * (j + 1) + moffset cnt p + y) := rfl
      rw [e1, e2, if_pos rfl, hshm] at h
      rw [h]
      congr 1
      apply run_copies_other
      intro e _ hc
      simp [Addr.cell] at hc
  · rw [if_neg hy]
    apply runElems_other
    intro f hf hd
    unfold rsR at hf
    rcases List.mem_append.1 hf with hf | hf
    · obtain ⟨i, hi, h1, _⟩ := mem_copies hf
      rw [h1] at hd
      simp only [Addr.cell, Cell.recv.injEq, true_and] at hd
      omega
    · obtain ⟨_, _, hf⟩ := List.mem_flatMap.1 hf
      obtain ⟨i, hi, h1, _⟩ := mem_copies hf
      rw [h1] at hd
      simp only [Addr.cell, Cell.recv.injEq, true_and] at hd
      omega

theorem rs_phases (n : Nat) (cnt : Nat → Nat) (b k : Nat) : Phases n b k (rsW n cnt b k) (rsR n cnt b k) := by
  refine ⟨?_, ?_, ?_⟩
  · intro p e he
    obtain ⟨i, _, h1, h2⟩ := mem_copies he
    exact ⟨⟨_, h1⟩, _, h2⟩
  · intro p e he
    rcases List.mem_append.1 he with he | he
    · obtain ⟨i, _, h1, h2⟩ := mem_copies he
      exact ⟨⟨_, h1⟩, by rw [h2]; rfl⟩
    · obtain ⟨_, _, he⟩ := List.mem_flatMap.1 he
      obtain ⟨i, _, h1, h2⟩ := mem_copies he
      exact ⟨⟨_, h1⟩, by rw [h2]; rfl⟩
  · intro p q _ _ hpq e he f hf hc
    obtain ⟨i, hi, h1, _⟩ := mem_copies he
    obtain ⟨j, hj, h2, _⟩ := mem_copies hf
    rw [h1, h2] at hc
    simp only [Addr.cell, Cell.shm.injEq, true_and] at hc
    have hT : 0 < moffset cnt n := by omega
    have e1 : (moffset cnt n * p + i) / moffset cnt n = p := by
      rw [Nat.mul_add_div hT, Nat.div_eq_of_lt hi, Nat.add_zero]
    have e2 : (moffset cnt n * q + j) / moffset cnt n = q := by
      rw [Nat.mul_add_div hT, Nat.div_eq_of_lt hj, Nat.add_zero]
    rw [hc, e2] at e1
    exact hpq e1.symm

/-- **C80.** Reduce_scatter on a single node. -/
theorem reduceScatter_correct {n : Nat} (hn : 0 < n) (cnt : Nat → Nat) (alternate : Bool) (N : Nat) (m : Cell → X) :
    Correct n (fun p => (List.range N).flatMap fun j =>
        reduceScatter n cnt (firstBarriers alternate) (bankOf alternate j) j p) m
      fun mem => ∀ k, k < N → Delivered n k (ReduceScatter n cnt) m mem := by
  refine correct_seq (S := fun b k => phaseSk n b (firstBarriers alternate) 1 (rsW n cnt b k) (rsR n cnt b k)) ?_ (first_pos alternate)
    (prog := fun b k p => reduceScatter n cnt (firstBarriers alternate) b k p) ?_ m N
  · intro b k
    refine (rs_phases n cnt b k).exec hn Nat.one_pos ?_
    intro m p y hp
    rw [run_rsR n cnt b k p _ y hn]
    unfold ReduceScatter
    by_cases hy : y < cnt p
    · rw [if_pos hy, if_pos hy, Option.getD_some]
      apply Finset.sum_congr rfl
      intro q hq
      have hlt : moffset cnt p + y < moffset cnt n := by
        have := before_lt cnt hp
        rw [moffset_before, moffset_before]; omega
      rw [Nat.add_assoc, run_rsW n cnt b k m (Finset.mem_range.1 hq) hlt, moffset_before]
    · rw [if_neg hy, if_neg hy, Option.getD_none]
      apply runElems_other
      intro f hf hd
      obtain ⟨_, _, hf⟩ := List.mem_flatMap.1 hf
      obtain ⟨_, _, h1, _⟩ := mem_copies hf
      rw [h1] at hd; cases hd
  · intro b k p _
    rw [code_phase]
    unfold reduceScatter barriers
    simp only [List.flatMap_append, List.flatMap_cons, List.flatMap_nil, List.append_nil, acts_copy, List.flatMap_map, rsW, rsR,
      List.map_append, List.map_flatMap, List.replicate_one, List.append_assoc]

/-- Three processes with different counts. -/
example (m : Cell → Int) : Correct 3 (fun p => (List.range 4).flatMap fun j =>
      reduceScatter 3 (fun q => 2 * q) (firstBarriers true) (bankOf true j) j p) m
    fun mem => ∀ k, k < 4 → Delivered 3 k (ReduceScatter 3 fun q => 2 * q) m mem :=
  reduceScatter_correct (by decide) _ true 4 m

/-! ### C81: broadcast -/

/-- What process `p` reads. -/
def bcR (ts len root b k p : Nat) : List Elem :=
  if p = root then [] else copies false (Addr.cell ⟨.recv k, 0⟩ p) ((outAddr ts len b).cell p) len

theorem bc_phases (n ts len root b k : Nat) : Phases n b k (rootW b k root len) (bcR ts len root b k) := by
  apply phases_root
  intro p e he
  unfold bcR at he
  split at he
  · cases he
  · obtain ⟨i, _, h1, h2⟩ := mem_copies he
    exact ⟨⟨_, h1⟩, by rw [h2]; exact out_bank _ _ _ _ _⟩

theorem bc_code (n ts len root lead b k p : Nat) : (bcast ts len root lead b k p).flatMap (Instr.acts n p) =
    code (phaseSk n b lead 1 (rootW b k root len) (bcR ts len root b k)) p := by
  rw [code_phase]
  unfold bcast barriers rootW bcR
  by_cases hp : p = root
  · simp only [hp, if_true, List.flatMap_append, List.flatMap_cons, List.flatMap_nil, List.append_nil, acts_copy, List.map_nil,
      List.replicate_one]
  · simp only [hp, if_false, List.flatMap_append, List.flatMap_cons, List.flatMap_nil, List.append_nil, acts_copyOut, List.map_nil,
      List.replicate_one]

/-- C81, part: broadcast on a single node of more than 56 bytes. Missing: smaller messages, which are not broadcast
(`bcast_violated`). -/
theorem bcast_partial {n ts len root : Nat} (hr : root < n) (hbig : 56 < len * ts) (alternate : Bool) (N : Nat) (m : Cell → X) :
    Correct n (fun p => (List.range N).flatMap fun j =>
        bcast ts len root (firstBarriers alternate) (bankOf alternate j) j p) m
      fun mem => ∀ k, k < N → Delivered n k (Bcast len root) m mem := by
  refine correct_seq (S := fun b k => phaseSk n b (firstBarriers alternate) 1 (rootW b k root len) (bcR ts len root b k)) ?_
    (first_pos alternate) (prog := fun b k p => bcast ts len root (firstBarriers alternate) b k p) ?_ m N
  · intro b k
    refine (bc_phases n ts len root b k).exec (by omega) Nat.one_pos ?_
    intro m p y hp
    obtain ⟨h1, h2⟩ := run_rootW (b := b) (k := k) (len := len) hr m
    unfold bcR Bcast
    by_cases hpr : p = root
    · rw [if_pos hpr, if_neg (by simp [hpr])]
      exact h2 _ (Or.inl (by simp [Cell.bank]))
    · rw [if_neg hpr, run_out p k len _ (by intro i; rw [out_bank]; simp)]
      by_cases hy : y < len
      · rw [if_pos hy, if_pos ⟨hpr, hy⟩, Option.getD_some]
        refine Eq.trans ?_ (h1 y hy)
        unfold outAddr
        rw [if_neg (by omega)]
        simp [Addr.cell]
      · rw [if_neg hy, if_neg (by simp [hy]), Option.getD_none]
        exact h2 _ (Or.inl (by simp [Cell.bank]))
  · intro b k p _
    exact bc_code n ts len root _ b k p

/-- A hundred doubles from the last of five processes. -/
example (m : Cell → Int) : Correct 5 (fun p => (List.range 3).flatMap fun j =>
      bcast 8 100 4 (firstBarriers false) (bankOf false j) j p) m
    fun mem => ∀ k, k < 3 → Delivered 5 k (Bcast 100 4) m mem :=
  bcast_partial (by decide) (by decide) false 3 m

/-- Send buffers full of ones, nothing else. -/
def ones : Cell → Nat
  | .send _ _ _ => 1
  | _ => 0

/-- C81 is violated for every message of at most 56 bytes: the processes get what happens to be behind the flags, to which
nobody writes. -/
theorem bcast_violated {n ts len root : Nat} (hn : 2 ≤ n) (hr : root < n) (hl : 0 < len) (hsmall : len * ts ≤ 56) (alternate : Bool) :
    ¬ Correct n (fun p => bcast ts len root (firstBarriers alternate) (bankOf alternate 0) 0 p) ones
      fun mem => Delivered n 0 (Bcast len root) ones mem := by
  intro hc
  have ho := (bc_phases n ts len root (bankOf alternate 0) 0).once (lead := firstBarriers alternate) (mid := 1) (by omega) Nat.one_pos
    (fun p _ => bc_code n ts len root (firstBarriers alternate) (bankOf alternate 0) 0 p) ones
  obtain ⟨mem, h1, h2⟩ := correct_both hc ho
  obtain ⟨p, hp, hpr⟩ : ∃ p, p < n ∧ p ≠ root := by
    by_cases h : root = 0
    · exact ⟨1, by omega, by omega⟩
    · exact ⟨0, by omega, by omega⟩
  have a := (h1 p hp 0).1
  rw [h2 p hp 0] at a
  unfold bcR Bcast at a
  rw [if_neg hpr, run_out p 0 len _ (by intro i; rw [out_bank]; simp), if_pos hl, if_pos ⟨hpr, hl⟩, Option.getD_some] at a
  unfold outAddr at a
  rw [if_pos hsmall] at a
  have := (run_rootW (b := bankOf alternate 0) (k := 0) (len := len) hr ones).2 (Addr.cell ⟨.fast (bankOf alternate 0), 8 / ts⟩ p 0) (Or.inr ⟨_, rfl⟩)
  rw [this] at a
  simp [ones, Addr.cell] at a

/-! ### C82: scatter -/

/-- What process `p` reads. -/
def scR (cnt : Nat → Nat) (b k p : Nat) : List Elem :=
  copies false (Addr.cell ⟨.recv k, 0⟩ p) (Addr.cell ⟨.shm b, moffset cnt p⟩ p) (cnt p)

/-- **C82.** Scatter on a single node, whatever the number of barriers that are left between copy-in and copy-out. -/
theorem scatter_correct {n root : Nat} (hr : root < n) (cnt : Nat → Nat) {mid : Nat} (hm : 0 < mid) (alternate : Bool) (N : Nat)
    (m : Cell → X) :
    Correct n (fun p => (List.range N).flatMap fun j =>
        scatter n cnt root (firstBarriers alternate) mid (bankOf alternate j) j p) m
      fun mem => ∀ k, k < N → Delivered n k (Scatter cnt root) m mem := by
  refine correct_seq (S := fun b k => phaseSk n b (firstBarriers alternate) mid (rootW b k root (moffset cnt n)) (scR cnt b k)) ?_
    (first_pos alternate) (prog := fun b k p => scatter n cnt root (firstBarriers alternate) mid b k p) ?_ m N
  · intro b k
    refine (phases_root ?_).exec (by omega) hm ?_
    · intro p e he
      obtain ⟨i, _, h1, h2⟩ := mem_copies he
      exact ⟨⟨_, h1⟩, by rw [h2]; rfl⟩
    · intro m p y hp
      obtain ⟨h1, h2⟩ := run_rootW (b := b) (k := k) (len := moffset cnt n) hr m
      unfold scR Scatter
      rw [run_out p k (cnt p) _ (by intro i; simp [Addr.cell, Cell.bank])]
      by_cases hy : y < cnt p
      · have hlt : moffset cnt p + y < moffset cnt n := by
          have := before_lt cnt hp
          rw [moffset_before, moffset_before]; omega
        rw [if_pos hy, if_pos hy, Option.getD_some, ← moffset_before]
        exact h1 _ hlt
      · rw [if_neg hy, if_neg hy, Option.getD_none]
        exact h2 _ (Or.inl (by simp [Cell.bank]))
  · intro b k p _
    show (scatter n cnt root (firstBarriers alternate) mid b k p).flatMap _ = _
    rw [code_phase]
    unfold scatter barriers rootW scR
    by_cases hp : p = root
    · simp only [hp, if_true, List.flatMap_append, List.flatMap_cons, List.flatMap_nil, List.append_nil, acts_copy, acts_copyIf]
    · simp only [hp, if_false, List.flatMap_append, List.flatMap_nil, List.append_nil, acts_copyIf, List.map_nil]

/-- Seven processes, the third is the root. -/
example (m : Cell → Int) : Correct 7 (fun p => (List.range 5).flatMap fun j =>
      scatter 7 (fun q => q * q) 2 (firstBarriers true) 2 (bankOf true j) j p) m
    fun mem => ∀ k, k < 5 → Delivered 7 k (Scatter (fun q => q * q) 2) m mem :=
  scatter_correct (by decide) _ (by decide) true 5 m

/-! ### C83: gather and allgather -/

/-- Start of the parts: the root is process 0 or nobody. -/
theorem start_good (n : Nat) (cnt : Nat → Nat) (steps : Nat) {root : Option Nat} (h : root = none ∨ root = some 0) (p : Nat) :
    gatherStart n cnt (block0 steps root) p = before cnt p + 0 := by
  have hb : block0 steps root = singleBlock := by
    rcases h with rfl | rfl
    · rfl
    · exact block0_zero steps
  rw [hb, ← moffset_before]
  simp [gatherStart, singleBlock, RawCode.off]

/-- Start of the parts for another root. -/
theorem start_bad (n : Nat) (cnt : Nat → Nat) (steps : Nat) {root : Nat} (h : root ≠ 0) (p : Nat) :
    gatherStart n cnt (block0 steps (some root)) p = before cnt p + before cnt n := by
  rw [block0_other steps h, ← moffset_before, ← moffset_before]
  simp [gatherStart, RawCode.off, RawCode.lineSize]

/-- What process `p` reads. -/
def gaR (ts total : Nat) (root : Option Nat) (b k p : Nat) : List Elem :=
  if root = none ∨ root = some p then copies false (Addr.cell ⟨.recv k, 0⟩ p) ((outAddr ts total b).cell p) total else []

theorem ga_phases (n ts : Nat) (cnt : Nat → Nat) (o total : Nat) (root : Option Nat) (b k : Nat) :
    Phases n b k (partW cnt o b k) (gaR ts total root b k) := by
  apply phases_part
  intro p e he
  unfold gaR at he
  split at he
  · obtain ⟨i, _, h1, h2⟩ := mem_copies he
    exact ⟨⟨_, h1⟩, by rw [h2]; exact out_bank _ _ _ _ _⟩
  · cases he

theorem ga_code (n ts : Nat) (cnt : Nat → Nat) (steps : Nat) (root : Option Nat) (o lead mid b k p : Nat)
    (ho : gatherStart n cnt (block0 steps root) p = before cnt p + o) :
    (gather n ts cnt steps root lead mid b k p).flatMap (Instr.acts n p) =
      code (phaseSk n b lead mid (partW cnt o b k) (gaR ts (moffset cnt n) root b k)) p := by
  rw [code_phase]
  unfold gather barriers partW gaR
  by_cases hp : root = none ∨ root = some p
  · simp only [hp, if_true, List.flatMap_append, acts_copyIf, acts_copyOut, ho]
  · simp only [hp, if_false, List.flatMap_append, List.flatMap_nil, acts_copyIf, List.map_nil, ho]

/-- Gather to `root`, or to all. -/
def GatherTo (n : Nat) (cnt : Nat → Nat) : Option Nat → Nat → Nat → (Nat → Nat → X) → Option X
  | none => Allgather n cnt
  | some root => Gather n cnt root

theorem gather_good {n ts : Nat} (hn : 0 < n) (cnt : Nat → Nat) (steps : Nat) {root : Option Nat} (hroot : root = none ∨ root = some 0)
    (hbig : 56 < before cnt n * ts) {mid : Nat} (hm : 0 < mid) (alternate : Bool) (N : Nat) (m : Cell → X) :
    Correct n (fun p => (List.range N).flatMap fun j =>
        gather n ts cnt steps root (firstBarriers alternate) mid (bankOf alternate j) j p) m
      fun mem => ∀ k, k < N → Delivered n k (GatherTo n cnt root) m mem := by
  refine correct_seq (S := fun b k => phaseSk n b (firstBarriers alternate) mid (partW cnt 0 b k) (gaR ts (moffset cnt n) root b k)) ?_
    (first_pos alternate) (prog := fun b k p => gather n ts cnt steps root (firstBarriers alternate) mid b k p) ?_ m N
  · intro b k
    refine (ga_phases n ts cnt 0 _ root b k).exec hn hm ?_
    intro m p y hp
    obtain ⟨h1, h2⟩ := run_partW n cnt 0 b k m
    have hsame : runElems ((List.range n).flatMap (partW cnt 0 b k)) m (.recv p k y) = m (.recv p k y) := h2 _ (by intro y; simp)
    have hgo : runElems (copies false (Addr.cell ⟨.recv k, 0⟩ p) ((outAddr ts (moffset cnt n) b).cell p) (moffset cnt n))
        (runElems ((List.range n).flatMap (partW cnt 0 b k)) m) (.recv p k y) =
        ((together n cnt fun q e => m (.send q k e))[y]?).getD (m (.recv p k y)) := by
      rw [run_out p k _ _ (by intro i; rw [out_bank]; simp), moffset_before]
      by_cases hy : y < before cnt n
      · have h3 := h1 y
        rw [if_pos hy]
        rw [← together_length n cnt (fun q e => m (.send q k e))] at hy
        rw [List.getElem?_eq_getElem hy, Option.getD_some] at h3 ⊢
        rw [← h3]
        unfold outAddr
        rw [if_neg (by omega)]
        simp [Addr.cell]
      · rw [if_neg hy, List.getElem?_eq_none (by rw [together_length]; omega), Option.getD_none]
        exact hsame
    unfold gaR
    rcases hroot with rfl | rfl
    · rw [if_pos (Or.inl rfl)]
      exact hgo
    · simp only [GatherTo, Gather]
      by_cases hp0 : p = 0
      · subst hp0
        rw [if_pos (Or.inr rfl), if_pos rfl]
        exact hgo
      · rw [if_neg (by simp [Ne.symm hp0]), if_neg hp0, Option.getD_none]
        exact hsame
  · intro b k p _
    exact ga_code n ts cnt steps root 0 _ mid b k p (start_good n cnt steps hroot p)

/-- C83, part: allgather on a single node of more than 56 bytes in total. Missing: less data, which is not gathered
(`allgather_violated`). -/
theorem allgather_partial {n ts : Nat} (hn : 0 < n) (cnt : Nat → Nat) (steps : Nat) (hbig : 56 < before cnt n * ts) {mid : Nat}
    (hm : 0 < mid) (alternate : Bool) (N : Nat) (m : Cell → X) :
    Correct n (fun p => (List.range N).flatMap fun j =>
        gather n ts cnt steps none (firstBarriers alternate) mid (bankOf alternate j) j p) m
      fun mem => ∀ k, k < N → Delivered n k (Allgather n cnt) m mem :=
  gather_good hn cnt steps (Or.inl rfl) hbig hm alternate N m

/-- C83, part: gather to process 0 on a single node of more than 56 bytes in total. Missing: less data and other roots
(`gather_violated`). -/
theorem gather_partial {n ts : Nat} (hn : 0 < n) (cnt : Nat → Nat) (steps : Nat) (hbig : 56 < before cnt n * ts) {mid : Nat}
    (hm : 0 < mid) (alternate : Bool) (N : Nat) (m : Cell → X) :
    Correct n (fun p => (List.range N).flatMap fun j =>
        gather n ts cnt steps (some 0) (firstBarriers alternate) mid (bankOf alternate j) j p) m
      fun mem => ∀ k, k < N → Delivered n k (Gather n cnt 0) m mem :=
  gather_good hn cnt steps (Or.inr rfl) hbig hm alternate N m

/-- Four processes with 0, 10, 20 and 30 doubles. -/
example (m : Cell → Int) : Correct 4 (fun p => (List.range 3).flatMap fun j =>
      gather 4 8 (fun q => 10 * q) 2 none (firstBarriers true) 4 (bankOf true j) j p) m
    fun mem => ∀ k, k < 3 → Delivered 4 k (Allgather 4 fun q => 10 * q) m mem :=
  allgather_partial (by decide) _ 2 (by decide) (by decide) true 3 m

example (m : Cell → Int) : Correct 4 (fun p => (List.range 3).flatMap fun j =>
      gather 4 8 (fun q => 10 * q) 0 (some 0) (firstBarriers false) 1 (bankOf false j) j p) m
    fun mem => ∀ k, k < 3 → Delivered 4 k (Gather 4 (fun q => 10 * q) 0) m mem :=
  gather_partial (by decide) _ 0 (by decide) (by decide) false 3 m

/-- The process that reads gets something that nobody wrote. -/
theorem gather_bad {n ts : Nat} (cnt : Nat → Nat) (steps : Nat) {root : Option Nat} {p o : Nat} (hp : p < n)
    (hroot : root = none ∨ root = some p) (htot : 0 < before cnt n)
    (ho : ∀ p, gatherStart n cnt (block0 steps root) p = before cnt p + o) (hbad : before cnt n * ts ≤ 56 ∨ 0 < o)
    {mid : Nat} (hm : 0 < mid) (alternate : Bool) :
    ¬ Correct n (fun p => gather n ts cnt steps root (firstBarriers alternate) mid (bankOf alternate 0) 0 p) ones
      fun mem => Delivered n 0 (GatherTo n cnt root) ones mem := by
  intro hc
  have hcon := (ga_phases n ts cnt o (moffset cnt n) root (bankOf alternate 0) 0).once (lead := firstBarriers alternate) (mid := mid)
    (by omega) hm (fun p _ => ga_code n ts cnt steps root o (firstBarriers alternate) mid (bankOf alternate 0) 0 p (ho p)) ones
  obtain ⟨mem, h1, h2⟩ := correct_both hc hcon
  have a := (h1 p hp 0).1
  rw [h2 p hp 0] at a
  have hlen : 0 < (together n cnt fun q e => ones (.send q 0 e)).length := by rw [together_length]; exact htot
  have hone : ∀ x ∈ together n cnt fun q e => ones (.send q 0 e), x = 1 := by
    intro x hx
    simp only [together, List.mem_flatMap, List.mem_map] at hx
    obtain ⟨_, _, _, _, rfl⟩ := hx
    rfl
  have hwant : (GatherTo n cnt root p 0 fun q e => ones (.send q 0 e)) = some 1 := by
    have : (together n cnt fun q e => ones (.send q 0 e))[0]? = some 1 := by
      rw [List.getElem?_eq_getElem hlen, hone _ (List.getElem_mem _)]
    rcases hroot with rfl | rfl
    · exact this
    · simp only [GatherTo, Gather, if_true]
      exact this
  rw [hwant, Option.getD_some] at a
  unfold gaR at a
  rw [if_pos hroot, run_out p 0 _ _ (by intro i; rw [out_bank]; simp), moffset_before, if_pos htot] at a
  have hz : ∀ (b : Nat), runElems ((List.range n).flatMap (partW cnt o b 0)) ones ((outAddr ts (before cnt n) b).cell p 0) = 0 := by
    intro b
    rw [(run_partW n cnt o b 0 ones).2]
    · unfold outAddr; split <;> rfl
    · intro y hy
      unfold outAddr at hy
      split at hy
      · simp [Addr.cell] at hy
      · simp only [Addr.cell, Cell.shm.injEq, true_and] at hy
        omega
  rw [hz] at a
  cases a

/-- C83 is violated: an allgather of at most 56 bytes in total does not gather anything. -/
theorem allgather_violated {n ts : Nat} (cnt : Nat → Nat) (steps : Nat) (htot : 0 < before cnt n) (hsmall : before cnt n * ts ≤ 56)
    {mid : Nat} (hm : 0 < mid) (alternate : Bool) :
    ¬ Correct n (fun p => gather n ts cnt steps none (firstBarriers alternate) mid (bankOf alternate 0) 0 p) ones
      fun mem => Delivered n 0 (Allgather n cnt) ones mem := by
  have hn : 0 < n := by
    by_contra hc
    have : n = 0 := by omega
    subst this
    simp [before] at htot
  exact gather_bad cnt steps hn (Or.inl rfl) htot (start_good n cnt steps (Or.inl rfl)) (Or.inl hsmall) hm alternate

/-- C83 is violated: a gather to another process than 0, or of at most 56 bytes in total, does not gather anything. -/
theorem gather_violated {n ts root : Nat} (cnt : Nat → Nat) (steps : Nat) (hr : root < n) (htot : 0 < before cnt n)
    (hbad : root ≠ 0 ∨ before cnt n * ts ≤ 56) {mid : Nat} (hm : 0 < mid) (alternate : Bool) :
    ¬ Correct n (fun p => gather n ts cnt steps (some root) (firstBarriers alternate) mid (bankOf alternate 0) 0 p) ones
      fun mem => Delivered n 0 (Gather n cnt root) ones mem := by
  by_cases h0 : root = 0
  · subst h0
    exact gather_bad cnt steps hr (Or.inr rfl) htot (start_good n cnt steps (Or.inr rfl)) (by omega) hm alternate
  · exact gather_bad cnt steps hr (Or.inr rfl) htot (start_bad n cnt steps h0) (Or.inr htot) hm alternate

/-! ### C84: reduce -/

/-- **C84 (general form).** Reduce on a single node with parameters for which an allreduce is correct. -/
theorem reduce_sound {P : Par} (h : P.Sound) (root : Nat) (alternate : Bool) (N : Nat) {m : Cell → X} (hz : ZeroPadding P m) :
    ∃ progs : Nat → Nat → List Instr,
      (∀ j, j < N → ∀ p, p < P.n →
        reduce P root (leadBarriers alternate) (bankOf alternate j) j p = some (progs j p)) ∧
      Correct P.n (fun p => (List.range N).flatMap fun j => progs j p) m fun mem =>
        ∀ k, k < N → Delivered P.n k (Reduce P.n P.len root) m mem := by
  obtain ⟨f0, fs, hg, hpad⟩ := h.good
  have hprog : ∀ j p, ∃ pr pr', p < P.n → allreduce P (leadBarriers alternate) (bankOf alternate j) j p = some pr ∧
      reduce P root (leadBarriers alternate) (bankOf alternate j) j p = some pr' ∧
      pr'.flatMap (Instr.acts P.n p) = (pr.flatMap (Instr.acts P.n p)).filter (keptAct root) := by
    intro j p
    by_cases hp : p < P.n
    · obtain ⟨pr, h1, _⟩ := hg.program (leadBarriers alternate) (bankOf alternate j) j hp
      obtain ⟨pr', h2, h3⟩ := reduce_acts (root := root) h1
      exact ⟨pr, pr', fun _ => ⟨h1, h2, h3⟩⟩
    · exact ⟨[], [], fun h => absurd h hp⟩
  choose progs progs' hprogs using hprog
  refine ⟨progs', fun j _ p hp => (hprogs j p hp).2.1, ?_⟩
  have hinv := seqInv hg (lead := leadBarriers alternate) (alternate := alternate)
    (by intro h; subst h; decide) (by intro h; subst h; rfl) (m := m) (fun hlt => hz (hpad hlt).1) N
  have hsrc : ∀ I ∈ P.seq f0 fs (leadBarriers alternate) alternate N, ∀ p, p < P.n → ∀ e ∈ I.elems p, kept root e.src = true := by
    intro I hI p hp e he
    obtain ⟨i, hi⟩ := List.getElem?_of_mem hI
    obtain ⟨L, hL, _⟩ := hinv.order
    obtain ⟨b', hb', _⟩ := hL p hp i I e hi he
    rcases hb'.2 with hc | ⟨k, y, hc⟩
    · revert hc
      cases e.src <;> simp [Cell.bank, kept]
    · rw [hc]; rfl
  refine correct_of_raceFree (sk := only root (P.seq f0 fs (leadBarriers alternate) alternate N)) ?_ (only_partners hinv.partners)
    (only_race hinv.race) _ ?_
  · intro p hp
    rw [only_code, ← seq_program hg _ alternate N progs (fun j _ p hp => (hprogs j p hp).1) hp, List.flatMap_assoc,
      List.flatMap_assoc, List.filter_flatMap]
    apply List.flatMap_congr
    intro j _
    exact (hprogs j p hp).2.2
  · intro k hk p hp y
    rw [only_lockstep hsrc, only_lockstep hsrc]
    refine ⟨?_, ?_⟩
    · unfold Reduce kept
      by_cases hpr : p = root
      · by_cases hy : y < P.len
        · rw [if_pos (by simpa using hpr), if_pos ⟨hpr, hy⟩, Option.getD_some]
          exact hinv.sum p k y hp hk hy
        · rw [if_pos (by simpa using hpr), if_neg (by simp [hy]), Option.getD_none]
          exact hinv.recv p k y (Or.inr (by omega))
      · rw [if_neg (by simpa using hpr), if_neg (by simp [hpr]), Option.getD_none]
    · rw [if_pos (show kept root (.send p k y) = true from rfl)]
      exact hinv.send p k y

/-- **C84.** Reduce to any process of a single node, of any number of elements, with any of the choices that the library makes by
itself. -/
theorem reduce_correct {n ts len : Nat} (hn : 0 < n) (hl : 0 < len) (hts : ts ∣ 8) {P : Par} (hP : P ∈ measuredChoices n ts len)
    (root : Nat) (alternate : Bool) (N : Nat) (m : Cell → X) (hz : ∀ b x, m (.fast b x) = 0) :
    ∃ progs : Nat → Nat → List Instr,
      (∀ j, j < N → ∀ p, p < n →
        reduce P root (leadBarriers alternate) (bankOf alternate j) j p = some (progs j p)) ∧
      Correct n (fun p => (List.range N).flatMap fun j => progs j p) m fun mem =>
        ∀ k, k < N → Delivered n k (Reduce n len root) m mem := by
  obtain ⟨hs, rfl, rfl⟩ := measured_sound hn hl hts hP
  exact reduce_sound hs root alternate N (fun _ => hz)

example (m : Cell → Int) (hz : ∀ b x, m (.fast b x) = 0) := reduce_correct (n := 6) (ts := 8) (len := 100)
  (by omega) (by omega) (by omega) (P := ⟨6, 8, 100, [1, 2, 2, 2], 1⟩) (by decide +kernel) 4 true 1000 m hz

example (m : Cell → Int) (hz : ∀ b x, m (.fast b x) = 0) := reduce_correct (n := 5) (ts := 8) (len := 7)
  (by omega) (by omega) (by omega) (P := ⟨5, 8, 7, [1, 2, 2, 2], 0⟩) (by decide +kernel) 4 false 3 m hz

end ExtMpi.SingleNode
