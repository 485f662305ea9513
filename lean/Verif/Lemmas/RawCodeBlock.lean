import Verif.Lemmas.RawCodeLocal
import Verif.Lemmas.Matched
/-! # Execution of the code of one block -/
namespace ExtMpi.RawCode
open Schedule

variable {X : Type} [Add X]

theorem LRun.sep {p p' : Proc X} (h : LRun p p') (hs : Sep p) : Sep p' := by
  induction h with
  | refl => exact hs
  | step h _ ih => exact ih (h.sep hs)

/-! ## The parts as lists -/

/-- A message is received from `q`. -/
def ract (sz : Nat → Nat) (b : Block) (t q : Nat) : Bool := decide (q ≠ t ∧ total sz b (recvIdx b q) ≠ 0)

/-- A message is sent to `q`. -/
def sact (sz : Nat → Nat) (b : Block) (t q : Nat) : Bool := decide (q ≠ t ∧ total sz b (sendIdx b q) ≠ 0)

theorem posts_eq (sz : Nat → Nat) (b : Block) (t k : Nat) (qs : List Nat) :
    posts sz b t k qs = ((qs.filter (ract sz b t)).zipIdx k).map fun x =>
      .irecv ⟨.shm x.2, 0⟩ (total sz b (recvIdx b x.1)) x.1 := by
  induction qs generalizing k with
  | nil => rfl
  | cons q qs ih =>
    rw [posts]
    by_cases h : q ≠ t ∧ total sz b (recvIdx b q) ≠ 0
    · rw [if_pos h, List.filter_cons_of_pos (by simpa [ract] using h), List.zipIdx_cons, List.map_cons, ih]
    · rw [if_neg h, List.filter_cons_of_neg (by simpa [ract] using h), ih]

theorem postsEnd_eq (sz : Nat → Nat) (b : Block) (t k : Nat) (qs : List Nat) :
    postsEnd sz b t k qs = k + (qs.filter (ract sz b t)).length := by
  induction qs generalizing k with
  | nil => rfl
  | cons q qs ih =>
    rw [postsEnd]
    by_cases h : q ≠ t ∧ total sz b (recvIdx b q) ≠ 0
    · rw [if_pos h, List.filter_cons_of_pos (by simpa [ract] using h), ih, List.length_cons]
      omega
    · rw [if_neg h, List.filter_cons_of_neg (by simpa [ract] using h), ih]

/-- Packing and sending of one message. -/
def sendCode (sz : Nat → Nat) (b : Block) (x : Nat × Nat) : List Instr :=
  pack sz b x.2 0 (sendIdx b x.1) ++ [.barrier, .isend ⟨.shm x.2, 0⟩ (total sz b (sendIdx b x.1)) x.1]

theorem sends_eq (sz : Nat → Nat) (b : Block) (t k : Nat) (qs : List Nat) :
    sends sz b t k qs = ((qs.filter (sact sz b t)).zipIdx k).flatMap (sendCode sz b) := by
  induction qs generalizing k with
  | nil => rfl
  | cons q qs ih =>
    rw [sends]
    by_cases h : q ≠ t ∧ total sz b (sendIdx b q) ≠ 0
    · rw [if_pos h, List.filter_cons_of_pos (by simpa [sact] using h), List.zipIdx_cons, List.flatMap_cons, ih]
      rfl
    · rw [if_neg h, List.filter_cons_of_neg (by simpa [sact] using h), ih]

/-! ## Posting, packing and sending -/

/-- The buffers of the pending messages have numbers below `k`, but not 0. -/
def Below (p : Proc X) (k : Nat) : Prop :=
  ∀ q x, x ∈ p.recvs q ∨ x ∈ p.sends q → ∃ j, 0 < j ∧ j < k ∧ x.1.reg = .shm j

theorem Below.clearRecv {p : Proc X} {k : Nat} (h : Below p k) (r : Reg) (o n : Nat)
    (hr : ∀ j, 0 < j → j < k → r ≠ .shm j) : p.clearRecv ⟨r, o⟩ n := by
  intro q x hx ho
  obtain ⟨j, h1, h2, h3⟩ := h q x (.inl hx)
  exact hr j h1 h2 (ho.1.symm.trans h3)

theorem Below.clearSend {p : Proc X} {k : Nat} (h : Below p k) (r : Reg) (o n : Nat)
    (hr : ∀ j, 0 < j → j < k → r ≠ .shm j) : p.clearSend ⟨r, o⟩ n := by
  intro q x hx ho
  obtain ⟨j, h1, h2, h3⟩ := h q x (.inr hx)
  exact hr j h1 h2 (ho.1.symm.trans h3)

theorem shm_ne_of_lt {j k : Nat} (h : j < k) : Reg.shm k ≠ .shm j := by
  intro e
  cases e
  omega

theorem shm_zero_ne {j : Nat} (h : 0 < j) : Reg.shm 0 ≠ .shm j := by
  intro e
  cases e
  omega

theorem run_posts (tot : Nat → Nat) (L : List Nat) (hL : L.Nodup) :
    ∀ (k : Nat) (p : Proc X) (R : List Instr), 0 < k →
      p.rest = ((L.zipIdx k).map fun x => .irecv ⟨.shm x.2, 0⟩ (tot x.1) x.1) ++ R → Below p k →
      LRun p { p with
        rest := R
        recvs := fun q => if q ∈ L then p.recvs q ++ [(⟨.shm (k + L.idxOf q), 0⟩, tot q)] else p.recvs q } := by
  induction L with
  | nil =>
    intro k p R _ hr _
    have : p.rest = R := by simpa using hr
    subst this
    simp only [List.not_mem_nil, if_false]
    exact .refl
  | cons q0 L ih =>
    intro k p R hk hr hb
    rw [List.nodup_cons] at hL
    rw [List.zipIdx_cons, List.map_cons, List.cons_append] at hr
    refine .step (.irecv hr ?_ ?_) ?_
    · exact hb.clearRecv _ _ _ fun j _ hj => shm_ne_of_lt hj
    · exact hb.clearSend _ _ _ fun j _ hj => shm_ne_of_lt hj
    · have hb' : Below { p with
          rest := ((L.zipIdx (k + 1)).map fun x => Instr.irecv ⟨.shm x.2, 0⟩ (tot x.1) x.1) ++ R
          recvs := push p.recvs q0 (⟨.shm k, 0⟩, tot q0) } (k + 1) := by
        intro q x hx
        rcases hx with hx | hx
        · rcases mem_push hx with hx | ⟨_, rfl⟩
          · obtain ⟨j, h1, h2, h3⟩ := hb q x (.inl hx)
            exact ⟨j, h1, by omega, h3⟩
          · exact ⟨k, hk, by omega, rfl⟩
        · obtain ⟨j, h1, h2, h3⟩ := hb q x (.inr hx)
          exact ⟨j, h1, by omega, h3⟩
      have h1 := ih hL.2 (k + 1) _ R (by omega) rfl hb'
      convert h1 using 2
      funext q
      dsimp only
      unfold push
      by_cases e : q = q0
      · subst e
        rw [if_pos List.mem_cons_self, if_neg hL.1, if_pos rfl, List.idxOf_cons_self, Nat.add_zero]
      · rw [if_neg e]
        have : (q ∈ q0 :: L) ↔ q ∈ L := by
          rw [List.mem_cons]
          exact ⟨fun h => h.resolve_left e, .inr⟩
        simp only [this]
        rw [List.idxOf_cons_ne _ (Ne.symm e), Nat.succ_eq_add_one, Nat.add_right_comm k 1, Nat.add_assoc k]

theorem copyMem_zero (red : Bool) (dst src : Addr) (m : Mem X) : copyMem red dst src 0 m = m := by
  funext r i
  apply copyMem_out
  rintro ⟨_, h1, h2⟩
  omega

theorem run_copyIf (red : Bool) (dst src : Addr) (n : Nat) (p : Proc X) (R : List Instr)
    (hr : p.rest = copyIf red dst src n ++ R) (h1 : ¬overlap dst n src n)
    (h2 : p.clearRecv dst n) (h3 : p.clearSend dst n) (h4 : p.clearRecv src n) :
    LRun p { p with rest := R, mem := copyMem red dst src n p.mem } := by
  unfold copyIf at hr
  by_cases hn : n = 0
  · subst hn
    rw [copyMem_zero]
    have : p.rest = R := by simpa using hr
    subst this
    exact .refl
  · rw [if_neg hn] at hr
    exact .step (.copy hr h1 h2 h3 h4) .refl

theorem copyMem_in (red : Bool) (dst src : Addr) (n : Nat) (m : Mem X) (i : Nat) (h : i < n) :
    copyMem red dst src n m dst.reg (dst.off + i) =
      if red then m dst.reg (dst.off + i) + m src.reg (src.off + i) else m src.reg (src.off + i) := by
  unfold copyMem
  rw [if_pos ⟨rfl, by omega, by omega⟩, Nat.add_sub_cancel_left]

theorem total_cons (sz : Nat → Nat) (b : Block) (n : Nat) (ns : List Nat) :
    total sz b (n :: ns) = lineSize sz b n + total sz b ns := by
  simp [total]

theorem run_pack (sz : Nat → Nat) (b : Block) (k : Nat) (hk : 0 < k) (ns : List Nat) :
    ∀ (add : Nat) (p : Proc X) (R : List Instr), p.rest = pack sz b k add ns ++ R → Below p k →
      ∃ m', LRun p { p with rest := R, mem := m' } ∧
        (∀ r i, ¬(r = .shm k ∧ add ≤ i) → m' r i = p.mem r i) ∧
        (∀ i, i < add → m' (.shm k) i = p.mem (.shm k) i) ∧
        ∀ (j : Nat) (h : j < ns.length) (i : Nat), i < lineSize sz b ns[j] →
          m' (.shm k) (add + total sz b (ns.take j) + i) = p.mem (.shm 0) (off sz b ns[j] + i) := by
  induction ns with
  | nil =>
    intro add p R hr _
    have : p.rest = R := by simpa [pack] using hr
    subst this
    exact ⟨p.mem, .refl, fun _ _ _ => rfl, fun _ _ => rfl, fun j h => absurd h (by simp)⟩
  | cons n ns ih =>
    intro add p R hr hb
    rw [pack, List.append_assoc] at hr
    have h1 := run_copyIf false ⟨.shm k, add⟩ ⟨.shm 0, off sz b n⟩ (lineSize sz b n) p _ hr
      (fun h => shm_zero_ne hk h.1.symm)
      (hb.clearRecv _ _ _ fun j _ hj => shm_ne_of_lt hj) (hb.clearSend _ _ _ fun j _ hj => shm_ne_of_lt hj)
      (hb.clearRecv _ _ _ fun j hj _ => shm_zero_ne hj)
    obtain ⟨m', g1, g2, g3, g4⟩ := ih (add + lineSize sz b n) _ R rfl
      (show Below { p with
          rest := pack sz b k (add + lineSize sz b n) ns ++ R
          mem := copyMem false ⟨.shm k, add⟩ ⟨.shm 0, off sz b n⟩ (lineSize sz b n) p.mem } k from hb)
    dsimp only at g1 g2 g3 g4
    refine ⟨m', h1.trans g1, ?_, ?_, ?_⟩
    · intro r i h
      rw [g2 r i (fun g => h ⟨g.1, by omega⟩), copyMem_out]
      rintro ⟨w1, w2, w3⟩
      exact h ⟨w1, w2⟩
    · intro i hi
      rw [g3 i (by omega), copyMem_out]
      rintro ⟨w1, w2, w3⟩
      dsimp only at w2
      omega
    · intro j hj i hi
      cases j with
      | zero =>
        simp only [List.getElem_cons_zero] at hi ⊢
        rw [List.take_zero]
        have e : add + total sz b [] + i = add + i := by simp [total]
        rw [e, g3 _ (by omega)]
        have := copyMem_in false ⟨.shm k, add⟩ ⟨.shm 0, off sz b n⟩ (lineSize sz b n) p.mem i hi
        simpa using this
      | succ j =>
        simp only [List.getElem_cons_succ] at hi ⊢
        rw [List.take_succ_cons, total_cons]
        have := g4 j (by simpa using hj) i hi
        rw [show add + (lineSize sz b n + total sz b (ns.take j)) + i =
          add + lineSize sz b n + total sz b (ns.take j) + i by omega, this, copyMem_out]
        rintro ⟨w1, _, _⟩
        exact shm_zero_ne hk w1

theorem run_sends (sz : Nat → Nat) (b : Block) (L : List Nat) (hL : L.Nodup) :
    ∀ (k : Nat) (p : Proc X) (R : List Instr), 0 < k →
      p.rest = ((L.zipIdx k).flatMap (sendCode sz b)) ++ R → Below p k →
      ∃ m', LRun p { p with
          rest := R
          mem := m'
          sends := fun q =>
            if q ∈ L then p.sends q ++ [(⟨.shm (k + L.idxOf q), 0⟩, total sz b (sendIdx b q))] else p.sends q } ∧
        (∀ r, (∀ j, k ≤ j → r ≠ .shm j) → m' r = p.mem r) ∧
        ∀ q, q ∈ L → ∀ (j : Nat) (h : j < (sendIdx b q).length) (i : Nat), i < lineSize sz b (sendIdx b q)[j] →
          m' (.shm (k + L.idxOf q)) (total sz b ((sendIdx b q).take j) + i) =
            p.mem (.shm 0) (off sz b (sendIdx b q)[j] + i) := by
  induction L with
  | nil =>
    intro k p R _ hr _
    have : p.rest = R := by simpa using hr
    subst this
    refine ⟨p.mem, ?_, fun _ _ => rfl, fun q h => absurd h List.not_mem_nil⟩
    simp only [List.not_mem_nil, if_false]
    exact .refl
  | cons q0 L ih =>
    intro k p R hk hr hb
    rw [List.nodup_cons] at hL
    rw [List.zipIdx_cons, List.flatMap_cons, sendCode, List.append_assoc, List.append_assoc] at hr
    obtain ⟨m1, a1, a2, _, a4⟩ := run_pack sz b k hk (sendIdx b q0) 0 p _ hr hb
    have hb1 : Below { p with
        rest := ((L.zipIdx (k + 1)).flatMap (sendCode sz b)) ++ R
        mem := m1
        sends := push p.sends q0 (⟨.shm k, 0⟩, total sz b (sendIdx b q0)) } (k + 1) := by
      intro q x hx
      rcases hx with hx | hx
      · obtain ⟨j, h1, h2, h3⟩ := hb q x (.inl hx)
        exact ⟨j, h1, by omega, h3⟩
      · rcases mem_push hx with hx | ⟨_, rfl⟩
        · obtain ⟨j, h1, h2, h3⟩ := hb q x (.inr hx)
          exact ⟨j, h1, by omega, h3⟩
        · exact ⟨k, hk, by omega, rfl⟩
    obtain ⟨m', g1, g2, g3⟩ := ih hL.2 (k + 1) _ R (by omega) rfl hb1
    dsimp only at g1 g2 g3
    refine ⟨m', ?_, ?_, ?_⟩
    · refine a1.trans (.step (.barrier rfl) (.step (.isend rfl ?_) ?_))
      · exact (show Below { p with mem := m1 } k from hb).clearRecv _ _ _ fun j _ hj => shm_ne_of_lt hj
      · convert g1 using 2
        · rfl
        funext q
        unfold push
        by_cases e : q = q0
        · subst e
          rw [if_pos List.mem_cons_self, if_neg hL.1, if_pos rfl, List.idxOf_cons_self, Nat.add_zero]
        · rw [if_neg e]
          have : (q ∈ q0 :: L) ↔ q ∈ L := by
            rw [List.mem_cons]
            exact ⟨fun h => h.resolve_left e, .inr⟩
          simp only [this]
          rw [List.idxOf_cons_ne _ (Ne.symm e), Nat.succ_eq_add_one, Nat.add_right_comm k 1, Nat.add_assoc k]
    · intro r h
      rw [g2 r fun j hj => h j (by omega)]
      funext i
      exact a2 r i fun g => h k (Nat.le_refl k) g.1
    · intro q hq j hj i hi
      by_cases e : q = q0
      · subst e
        rw [List.idxOf_cons_self, Nat.add_zero, g2 _ (fun j hj e => by cases e; omega)]
        have := a4 j hj i hi
        rw [Nat.zero_add] at this
        exact this
      · rw [List.idxOf_cons_ne _ (Ne.symm e), Nat.succ_eq_add_one,
          show k + (L.idxOf q + 1) = k + 1 + L.idxOf q by omega,
          g3 q ((List.mem_cons.1 hq).resolve_left e) j hj i hi]
        exact a2 _ _ fun g => shm_zero_ne hk g.1

/-! ## Copies without pending messages -/

/-- Effect of an instruction on the memory. -/
def exec1 (m : Mem X) : Instr → Mem X
  | .copy red dst src n => copyMem red dst src n m
  | _ => m

/-- Possible without pending messages. -/
def okI : Instr → Prop
  | .copy _ dst src n => ¬overlap dst n src n
  | .barrier => True
  | _ => False

theorem run_copies (is : List Instr) (hi : ∀ i, i ∈ is → okI i) :
    ∀ (m : Mem X) (R : List Instr),
      LRun ⟨is ++ R, m, fun _ => [], fun _ => []⟩ ⟨R, is.foldl exec1 m, fun _ => [], fun _ => []⟩ := by
  induction is with
  | nil => intro m R; exact .refl
  | cons i is ih =>
    intro m R
    have h1 := hi i List.mem_cons_self
    have h2 := ih fun j hj => hi j (List.mem_cons_of_mem _ hj)
    rw [List.foldl_cons]
    cases i with
    | copy red dst src n =>
      refine .step (.copy rfl h1 ?_ ?_ ?_) (h2 _ R)
      all_goals intro q x hx; exact absurd hx List.not_mem_nil
    | barrier => exact .step (.barrier rfl) (h2 _ R)
    | irecv _ _ _ => exact h1.elim
    | isend _ _ _ => exact h1.elim
    | waitall => exact h1.elim

/-! ## Lines in memory -/

/-- Start of line `n` when line `k` has `f k` elements. -/
def lo (f : Nat → Nat) (n : Nat) : Nat := ((List.range n).map f).sum

theorem lo_succ (f : Nat → Nat) (n : Nat) : lo f (n + 1) = lo f n + f n := by
  unfold lo
  rw [List.range_succ, List.map_append, List.sum_append]
  simp

theorem lo_mono (f : Nat → Nat) {a b : Nat} (h : a ≤ b) : lo f a ≤ lo f b := by
  induction h with
  | refl => exact Nat.le_refl _
  | step _ ih => rw [lo_succ]; omega

theorem lo_end (f : Nat → Nat) {a b : Nat} (h : a < b) : lo f a + f a ≤ lo f b := by
  rw [← lo_succ]
  exact lo_mono f h

theorem lo_congr (f g : Nat → Nat) (n : Nat) (h : ∀ k, k < n → f k = g k) : lo f n = lo g n := by
  unfold lo
  rw [List.map_congr_left fun k hk => h k (List.mem_range.1 hk)]

theorem sum_range' (f : Nat → Nat) (a n : Nat) : ((List.range' a n).map f).sum + lo f a = lo f (a + n) := by
  induction n with
  | zero => simp
  | succ n ih =>
    rw [List.range'_1_concat, List.map_append, List.sum_append, ← Nat.add_assoc, lo_succ]
    simp
    omega

theorem off_eq (sz : Nat → Nat) (b : Block) (n : Nat) : off sz b n = lo (lineSize sz b) n := rfl

/-- The lines of the block have the sizes of the layout. -/
def Lay (sz : Nat → Nat) (b : Block) (f : Nat → Nat) : Prop := ∀ n, n < b.length → lineSize sz b n = f n

theorem Lay.off {sz : Nat → Nat} {b : Block} {f : Nat → Nat} (h : Lay sz b f) {n : Nat} (hn : n ≤ b.length) :
    off sz b n = lo f n := by
  rw [off_eq]
  exact lo_congr _ _ _ fun k hk => h k (by omega)

/-- Scratch buffer 0 holds the values of the lines. -/
def Rep (f : Nat → Nat) (m : Mem X) (v : Nat → Nat → X) : Prop :=
  ∀ n i, i < f n → m (.shm 0) (lo f n + i) = v n i

/-- Copy or reduction of contiguous lines. -/
theorem rep_copy (f : Nat → Nat) (m : Mem X) (v : Nat → Nat → X) (h : Rep f m v) (red : Bool) (n0 len : Nat)
    (src : Addr) (x : Nat → Nat → X)
    (hx : ∀ n, n0 ≤ n → n < n0 + len → ∀ i, i < f n → m src.reg (src.off + (lo f n - lo f n0 + i)) = x n i) :
    Rep f (copyMem red ⟨.shm 0, lo f n0⟩ src (lo f (n0 + len) - lo f n0) m) fun n =>
      if n0 ≤ n ∧ n < n0 + len then (if red then v n + x n else x n) else v n := by
  intro n i hi
  dsimp only
  by_cases hn : n0 ≤ n ∧ n < n0 + len
  · rw [if_pos hn]
    have h1 := lo_mono f hn.1
    have h2 := lo_end f hn.2
    have e := copyMem_in red ⟨.shm 0, lo f n0⟩ src (lo f (n0 + len) - lo f n0) m (lo f n - lo f n0 + i) (by omega)
    dsimp only at e
    rw [show lo f n0 + (lo f n - lo f n0 + i) = lo f n + i by omega, hx n hn.1 hn.2 i hi, h n i hi] at e
    rw [e]
    cases red <;> simp
  · rw [if_neg hn, copyMem_out]
    · exact h n i hi
    · rintro ⟨_, w1, w2⟩
      dsimp only at w1 w2
      by_cases g : n < n0
      · have := lo_end f g
        omega
      · have := lo_mono f (show n0 + len ≤ n by omega)
        omega

/-- Copy or reduction of one line. -/
theorem rep_copy_line (f : Nat → Nat) (m : Mem X) (v : Nat → Nat → X) (h : Rep f m v) (red : Bool) (n : Nat)
    (src : Addr) (x : Nat → X) (hx : ∀ i, i < f n → m src.reg (src.off + i) = x i) :
    Rep f (copyMem red ⟨.shm 0, lo f n⟩ src (f n) m) (upd v n (if red then v n + x else x)) := by
  have h1 := rep_copy f m v h red n 1 src (fun _ => x) (by
    intro k k1 k2 i hi
    have : k = n := by omega
    subst this
    rw [Nat.sub_self, Nat.zero_add]
    exact hx i hi)
  rw [lo_succ, Nat.add_sub_cancel_left] at h1
  intro k i hi
  rw [h1 k i hi]
  unfold upd
  dsimp only
  by_cases hk : k = n
  · subst hk
    rw [if_pos ⟨Nat.le_refl k, Nat.lt_succ_self k⟩, if_pos rfl]
  · rw [if_neg (by omega), if_neg hk]

theorem exec_copyIf (red : Bool) (dst src : Addr) (n : Nat) (m : Mem X) :
    (copyIf red dst src n).foldl exec1 m = copyMem red dst src n m := by
  unfold copyIf
  by_cases hn : n = 0
  · rw [if_pos hn, hn, copyMem_zero]; rfl
  · rw [if_neg hn]; rfl

theorem mem_copyIf {red : Bool} {dst src : Addr} {n : Nat} {i : Instr} (h : i ∈ copyIf red dst src n) :
    i = .copy red dst src n ∧ n ≠ 0 := by
  unfold copyIf at h
  by_cases hn : n = 0
  · rw [if_pos hn] at h; cases h
  · rw [if_neg hn] at h; exact ⟨List.mem_singleton.1 h, hn⟩

/-! ## Local reductions -/

/-- Memory other than scratch buffer 0 is not changed. -/
def Same0 (m m' : Mem X) : Prop := ∀ r, r ≠ .shm 0 → m' r = m r

theorem Same0.refl (m : Mem X) : Same0 m m := fun _ _ => rfl

theorem Same0.trans {m m1 m2 : Mem X} (h1 : Same0 m m1) (h2 : Same0 m1 m2) : Same0 m m2 :=
  fun r hr => (h2 r hr).trans (h1 r hr)

theorem same0_copy (red : Bool) (o : Nat) (src : Addr) (n : Nat) (m : Mem X) :
    Same0 m (copyMem red ⟨.shm 0, o⟩ src n m) := by
  intro r hr
  funext i
  apply copyMem_out
  rintro ⟨h, _, _⟩
  exact hr h

/-- Reductions into line `n`, the first one is a copy if `c`. -/
theorem rep_reduce_line (sz : Nat → Nat) (b : Block) (f : Nat → Nat) (hl : Lay sz b f) (n : Nat) (l : LineD)
    (hn : b[n]? = some l) (red : Nat → Bool) (rs : List Nat) (hr : ∀ r, r ∈ rs → r ≠ n ∧ fracOf b r = some l.frac) :
    ∀ (k : Nat) (m : Mem X) (v : Nat → Nat → X), Rep f m v →
      ∃ m', ((rs.zipIdx k).flatMap fun r => copyIf (red r.2) ⟨.shm 0, off sz b n⟩ ⟨.shm 0, off sz b r.1⟩
          (sz l.frac)).foldl exec1 m = m' ∧ Same0 m m' ∧
        Rep f m' ((rs.zipIdx k).foldl (fun v r => upd v n (if red r.2 then v n + v r.1 else v r.1)) v) := by
  have hnl : n < b.length := (List.getElem?_eq_some_iff.1 hn).1
  have hsz : sz l.frac = f n := by
    rw [← hl n hnl, lineSize, hn]
  induction rs with
  | nil => intro k m v h; exact ⟨m, rfl, .refl m, h⟩
  | cons r rs ih =>
    intro k m v h
    obtain ⟨h1, h2⟩ := hr r List.mem_cons_self
    have hrl : r < b.length := by
      by_contra hc
      unfold fracOf at h2
      rw [List.getElem?_eq_none (by omega)] at h2
      cases h2
    have hfr : f r = f n := by
      rw [← hl r hrl, ← hsz, lineSize]
      unfold fracOf at h2
      cases hb : b[r]? with
      | none => rw [hb] at h2; cases h2
      | some l' => rw [hb] at h2; simpa using congrArg sz (Option.some.inj h2)
    rw [List.zipIdx_cons, List.flatMap_cons, List.foldl_append, exec_copyIf, List.foldl_cons, hsz,
      hl.off (Nat.le_of_lt hnl), hl.off (Nat.le_of_lt hrl)]
    have h3 := rep_copy_line f m v h (red k) n ⟨.shm 0, lo f r⟩ (v r) (fun i hi => h r i (by omega))
    obtain ⟨m', g1, g2, g3⟩ := ih (fun r hr' => hr r (List.mem_cons_of_mem _ hr')) (k + 1) _ _ h3
    rw [hsz, hl.off (Nat.le_of_lt hnl)] at g1
    exact ⟨m', g1, (same0_copy _ _ _ _ _).trans g2, g3⟩

theorem ok_reduce_line (sz : Nat → Nat) (b : Block) (f : Nat → Nat) (hl : Lay sz b f) (n : Nat) (l : LineD)
    (hn : b[n]? = some l) (red : Bool) (r : Nat) (hr : r ≠ n ∧ fracOf b r = some l.frac) :
    ∀ i, i ∈ copyIf red ⟨.shm 0, off sz b n⟩ ⟨.shm 0, off sz b r⟩ (sz l.frac) → okI i := by
  intro i hi
  rw [(mem_copyIf hi).1]
  have hnl : n < b.length := (List.getElem?_eq_some_iff.1 hn).1
  have hsz : sz l.frac = f n := by
    rw [← hl n hnl, lineSize, hn]
  obtain ⟨h1, h2⟩ := hr
  have hrl : r < b.length := by
    by_contra hc
    unfold fracOf at h2
    rw [List.getElem?_eq_none (by omega)] at h2
    cases h2
  have hfr : f r = f n := by
    rw [← hl r hrl, ← hsz, lineSize]
    unfold fracOf at h2
    cases hb : b[r]? with
    | none => rw [hb] at h2; cases h2
    | some l' => rw [hb] at h2; simpa using congrArg sz (Option.some.inj h2)
  rw [hsz, hl.off (Nat.le_of_lt hnl), hl.off (Nat.le_of_lt hrl)]
  rintro ⟨_, w1, w2⟩
  dsimp only at w1 w2
  by_cases g : n < r
  · have := lo_end f g; omega
  · have := lo_end f (show r < n by omega); omega

/-- Reductions of all lines, each with its own list of sources. -/
theorem rep_reduce_all (sz : Nat → Nat) (b : Block) (f : Nat → Nat) (hl : Lay sz b f) (red : Nat → Bool)
    (src : LineD → List Nat) (xs : List (LineD × Nat))
    (hx : ∀ x, x ∈ xs → b[x.2]? = some x.1 ∧ ∀ r, r ∈ src x.1 → r ≠ x.2 ∧ fracOf b r = some x.1.frac) :
    ∀ (m : Mem X) (v : Nat → Nat → X), Rep f m v →
      ∃ m', (xs.flatMap fun x => (src x.1).zipIdx.flatMap fun r =>
          copyIf (red r.2) ⟨.shm 0, off sz b x.2⟩ ⟨.shm 0, off sz b r.1⟩ (sz x.1.frac)).foldl exec1 m = m' ∧
        Same0 m m' ∧
        Rep f m' (xs.foldl (fun v x => (src x.1).zipIdx.foldl
          (fun v r => upd v x.2 (if red r.2 then v x.2 + v r.1 else v r.1)) v) v) := by
  induction xs with
  | nil => intro m v h; exact ⟨m, rfl, .refl m, h⟩
  | cons x xs ih =>
    intro m v h
    obtain ⟨h1, h2⟩ := hx x List.mem_cons_self
    obtain ⟨m1, a1, a2, a3⟩ := rep_reduce_line sz b f hl x.2 x.1 h1 red (src x.1) h2 0 m v h
    obtain ⟨m', g1, g2, g3⟩ := ih (fun y hy => hx y (List.mem_cons_of_mem _ hy)) m1 _ a3
    refine ⟨m', ?_, a2.trans g2, g3⟩
    rw [List.flatMap_cons, List.foldl_append, a1, g1]

theorem foldl_zipIdx_fst {α β : Type} (g : β → α → β) (l : List α) (k : Nat) (v : β) :
    (l.zipIdx k).foldl (fun v r => g v r.1) v = l.foldl g v := by
  induction l generalizing k v with
  | nil => rfl
  | cons a l ih => rw [List.zipIdx_cons, List.foldl_cons, List.foldl_cons, ih]

theorem flatMap_zipIdx_fst {α β : Type} (g : α → List β) (l : List α) (k : Nat) :
    (l.zipIdx k).flatMap (fun r => g r.1) = l.flatMap g := by
  induction l generalizing k with
  | nil => rfl
  | cons a l ih => rw [List.zipIdx_cons, List.flatMap_cons, List.flatMap_cons, ih]

theorem reduceOk_mem (b : Block) (h : reduceOk b = true) (x : LineD × Nat) (hx : x ∈ b.zipIdx) :
    b[x.2]? = some x.1 ∧ ∀ r, r ∈ x.1.reducefrom ++ x.1.copyreducefrom → r ≠ x.2 ∧ fracOf b r = some x.1.frac := by
  have h1 : b[x.2]? = some x.1 := List.mk_mem_zipIdx_iff_getElem?.1 hx
  exact ⟨h1, (reduceOk_iff b).1 h x.2 x.1 h1⟩

theorem rep_reductions (sz : Nat → Nat) (b : Block) (f : Nat → Nat) (hl : Lay sz b f) (hok : reduceOk b = true)
    (m : Mem X) (v : Nat → Nat → X) (h : Rep f m v) :
    ∃ m', (reductions sz b ++ copyReductions sz b).foldl exec1 m = m' ∧ Same0 m m' ∧
      Rep f m' (copyReduceAll b (reduceAll b v)) := by
  obtain ⟨m1, a1, a2, a3⟩ := rep_reduce_all sz b f hl (fun _ => true) LineD.reducefrom b.zipIdx (fun x hx => by
    obtain ⟨h1, h2⟩ := reduceOk_mem b hok x hx
    exact ⟨h1, fun r hr => h2 r (List.mem_append_left _ hr)⟩) m v h
  obtain ⟨m2, b1, b2, b3⟩ := rep_reduce_all sz b f hl (fun k => k != 0) LineD.copyreducefrom b.zipIdx (fun x hx => by
    obtain ⟨h1, h2⟩ := reduceOk_mem b hok x hx
    exact ⟨h1, fun r hr => h2 r (List.mem_append_right _ hr)⟩) m1 _ a3
  refine ⟨m2, ?_, a2.trans b2, ?_⟩
  · rw [List.foldl_append]
    have e : reductions sz b = b.zipIdx.flatMap fun x => x.1.reducefrom.zipIdx.flatMap fun r =>
        copyIf true ⟨.shm 0, off sz b x.2⟩ ⟨.shm 0, off sz b r.1⟩ (sz x.1.frac) := by
      unfold reductions
      congr 1
      funext x
      exact (flatMap_zipIdx_fst (fun r => copyIf true ⟨.shm 0, off sz b x.2⟩ ⟨.shm 0, off sz b r⟩ (sz x.1.frac))
        x.1.reducefrom 0).symm
    rw [e, a1]
    exact b1
  · have e1 : (b.zipIdx.foldl (fun v x => x.1.reducefrom.zipIdx.foldl
        (fun v r => upd v x.2 (if true then v x.2 + v r.1 else v r.1)) v) v) = reduceAll b v := by
      unfold reduceAll
      congr 1
      funext v x
      simp only [if_true]
      exact foldl_zipIdx_fst (fun v r => upd v x.2 (v x.2 + v r)) _ 0 v
    rw [e1] at b3
    have e2 : ∀ v : Nat → Nat → X, (b.zipIdx.foldl (fun v x => x.1.copyreducefrom.zipIdx.foldl
        (fun v r => upd v x.2 (if r.2 != 0 then v x.2 + v r.1 else v r.1)) v) v) = copyReduceAll b v := by
      intro v
      unfold copyReduceAll
      congr 1
      funext v x
      cases x.1.copyreducefrom with
      | nil => rfl
      | cons r0 rs =>
        rw [List.zipIdx_cons, List.foldl_cons]
        dsimp only
        have : ∀ (rs : List Nat) (k : Nat) (w : Nat → Nat → X), 0 < k →
            (rs.zipIdx k).foldl (fun v r => upd v x.2 (if r.2 != 0 then v x.2 + v r.1 else v r.1)) w =
              rs.foldl (fun v r => upd v x.2 (v x.2 + v r)) w := by
          intro rs
          induction rs with
          | nil => intro k w _; rfl
          | cons r rs ih =>
            intro k w hk
            rw [List.zipIdx_cons, List.foldl_cons, List.foldl_cons, ih (k + 1) _ (by omega)]
            have : (k != 0) = true := by simp; omega
            dsimp only
            rw [this, if_pos rfl]
        rw [this rs (0 + 1) _ (by omega)]
        rfl
    rw [e2] at b3
    exact b3

/-! ## Unpacking -/

theorem recvIdx_lt (b : Block) (q n : Nat) (h : n ∈ recvIdx b q) : n < b.length := by
  unfold recvIdx at h
  obtain ⟨x, hx, rfl⟩ := List.mem_map.1 h
  have := List.mk_mem_zipIdx_iff_getElem?.1 (List.mem_filter.1 hx).1
  exact (List.getElem?_eq_some_iff.1 this).1

theorem sendIdx_lt (b : Block) (q n : Nat) (h : n ∈ sendIdx b q) : n < b.length := by
  unfold sendIdx at h
  obtain ⟨x, hx, h⟩ := List.mem_flatMap.1 h
  obtain ⟨_, _, rfl⟩ := List.mem_map.1 h
  have := List.mk_mem_zipIdx_iff_getElem?.1 hx
  exact (List.getElem?_eq_some_iff.1 this).1

theorem deliver_some {V : Type} [Add V] (b : Block) (t q : Nat) (msg : List (Option Nat × V)) (v v' : Nat → V)
    (h : deliver b t q msg v = some v') :
    (recvIdx b q = [] ∧ msg = [] ∧ v' = v) ∨
    ∃ n0 len, 0 < len ∧ recvIdx b q = List.range' n0 len ∧
      msg.map Prod.fst = (List.range' n0 len).map (fracOf b) ∧
      v' = fun n =>
        match (if n0 ≤ n then msg[n - n0]? else none) with
        | some (_, x) => if reduces b t q then v n + x else x
        | none => v n := by
  unfold deliver at h
  cases hr : recvIdx b q with
  | nil =>
    rw [hr] at h
    left
    by_cases hm : msg.isEmpty = true
    · dsimp only at h
      rw [if_pos hm] at h
      exact ⟨rfl, by simpa using hm, (Option.some.inj h).symm⟩
    · dsimp only at h
      rw [if_neg hm] at h; cases h
  | cons n0 ns =>
    rw [hr] at h
    right
    dsimp only at h
    by_cases hm : n0 :: ns = List.range' n0 (ns.length + 1) ∧
        msg.map Prod.fst = (List.range' n0 (ns.length + 1)).map (fracOf b)
    · rw [if_pos hm] at h
      exact ⟨n0, ns.length + 1, by omega, hm.1, hm.2, (Option.some.inj h).symm⟩
    · rw [if_neg hm] at h; cases h

theorem Lay.total {sz : Nat → Nat} {b : Block} {f : Nat → Nat} (h : Lay sz b f) (n0 len : Nat)
    (hn : ∀ n, n ∈ List.range' n0 len → n < b.length) :
    total sz b (List.range' n0 len) = lo f (n0 + len) - lo f n0 := by
  unfold RawCode.total
  rw [List.map_congr_left fun n hm => h n (hn n hm)]
  have := sum_range' f n0 len
  omega

/-- Scratch buffer `k` holds a message for the lines from `n0` on. -/
def Buf (f : Nat → Nat) (m : Mem X) (k n0 : Nat) (msg : List (Option Nat × (Nat → X))) : Prop :=
  ∀ (j : Nat) (h : j < msg.length) (i : Nat), i < f (n0 + j) →
    m (.shm k) (lo f (n0 + j) - lo f n0 + i) = (msg[j]).2 i

theorem unpack_rep (sz : Nat → Nat) (b : Block) (f : Nat → Nat) (hl : Lay sz b f) (t : Nat)
    (msgs : Nat → List (Option Nat × (Nat → X))) (qs : List Nat) (hqs : qs.Nodup) :
    ∀ (k : Nat) (m : Mem X) (v v' : Nat → Nat → X), 0 < k →
      qs.foldlM (fun v q => if q = t then some v else deliver b t q (msgs q) v) v = some v' → Rep f m v →
      (∀ q, q ∈ qs → ract sz b t q = true → ∀ n0 ns, recvIdx b q = n0 :: ns →
        Buf f m (k + (qs.filter (ract sz b t)).idxOf q) n0 (msgs q)) →
      ∃ m', (unpack sz b t k qs).foldl exec1 m = m' ∧ Same0 m m' ∧ Rep f m' v' := by
  induction qs with
  | nil =>
    intro k m v v' _ h hrep _
    cases Option.some.inj h
    exact ⟨m, rfl, .refl m, hrep⟩
  | cons q qs ih =>
    intro k m v v' hk h hrep hbuf
    rw [List.nodup_cons] at hqs
    rw [List.foldlM_cons] at h
    rw [unpack]
    by_cases hqt : q = t
    · rw [if_pos hqt] at h
      rw [if_neg (fun g => g.1 hqt)]
      have hra : ract sz b t q = false := by simp [ract, hqt]
      refine ih hqs.2 k m v v' hk h hrep fun q' hq' ha n0 ns hn => ?_
      have := hbuf q' (List.mem_cons_of_mem _ hq') ha n0 ns hn
      rwa [List.filter_cons_of_neg (by simp [hra])] at this
    · rw [if_neg hqt] at h
      cases hd : deliver b t q (msgs q) v with
      | none => rw [hd] at h; cases h
      | some v1 =>
        rw [hd] at h
        have h : qs.foldlM (fun v q => if q = t then some v else deliver b t q (msgs q) v) v1 = some v' := h
        rcases deliver_some b t q (msgs q) v v1 hd with ⟨e1, e2, e3⟩ | ⟨n0, len, hlen, e1, e2, e3⟩
        · have ht : total sz b (recvIdx b q) = 0 := by rw [e1]; rfl
          rw [if_neg (fun g => g.2 ht)]
          have hra : ract sz b t q = false := by simp [ract, ht]
          rw [e3] at h
          refine ih hqs.2 k m v v' hk h hrep fun q' hq' ha n0 ns hn => ?_
          have := hbuf q' (List.mem_cons_of_mem _ hq') ha n0 ns hn
          rwa [List.filter_cons_of_neg (by simp [hra])] at this
        · have hmem : ∀ n, n ∈ List.range' n0 len → n < b.length := fun n hn =>
            recvIdx_lt b q n (by rw [e1]; exact hn)
          have htot : total sz b (recvIdx b q) = lo f (n0 + len) - lo f n0 := by
            rw [e1]; exact hl.total n0 len hmem
          have hmsg : (msgs q).length = len := by
            have := congrArg List.length e2
            simpa using this
          by_cases ht : total sz b (recvIdx b q) = 0
          · rw [if_neg (fun g => g.2 ht)]
            have hra : ract sz b t q = false := by simp [ract, ht]
            refine ih hqs.2 k m v1 v' hk h ?_ fun q' hq' ha n0 ns hn => ?_
            · intro n i hi
              rw [hrep n i hi, e3]
              dsimp only
              by_cases hn : n0 ≤ n ∧ n < n0 + len
              · have h1 := lo_mono f hn.1
                have h2 := lo_end f hn.2
                omega
              · by_cases g : n0 ≤ n
                · rw [if_pos g, List.getElem?_eq_none (by omega)]
                · rw [if_neg g]
            · have := hbuf q' (List.mem_cons_of_mem _ hq') ha n0 ns hn
              rwa [List.filter_cons_of_neg (by simp [hra])] at this
          · have hra : ract sz b t q = true := by simp [ract, ht, hqt]
            rw [if_pos ⟨hqt, ht⟩]
            obtain ⟨len', rfl⟩ : ∃ len', len = len' + 1 := ⟨len - 1, by omega⟩
            have e1' : recvIdx b q = n0 :: List.range' (n0 + 1) len' := by rw [e1, List.range'_succ]
            rw [htot]
            rw [e1']
            dsimp only
            rw [List.foldl_append, List.foldl_cons, List.foldl_nil, exec1]
            have hn0 : n0 < b.length := hmem n0 (by simp)
            rw [hl.off (Nat.le_of_lt hn0)]
            have hb := hbuf q List.mem_cons_self hra n0 _ e1'
            rw [List.filter_cons_of_pos hra, List.idxOf_cons_self, Nat.add_zero] at hb
            have h1 := rep_copy f m v hrep (reduces b t q) n0 (len' + 1) ⟨.shm k, 0⟩
              (fun n => match (msgs q)[n - n0]? with | some y => y.2 | none => v n) (by
                intro n g1 g2 i hi
                have hj : n - n0 < (msgs q).length := by omega
                have := hb (n - n0) hj i (by rw [show n0 + (n - n0) = n by omega]; exact hi)
                rw [show n0 + (n - n0) = n by omega] at this
                dsimp only
                rw [Nat.zero_add, this, List.getElem?_eq_getElem hj])
            have e4 : (fun n => if n0 ≤ n ∧ n < n0 + (len' + 1) then
                (if reduces b t q then v n + (match (msgs q)[n - n0]? with | some y => y.2 | none => v n)
                  else (match (msgs q)[n - n0]? with | some y => y.2 | none => v n)) else v n) = v1 := by
              rw [e3]
              funext n
              by_cases hn : n0 ≤ n ∧ n < n0 + (len' + 1)
              · have hj : n - n0 < (msgs q).length := by omega
                rw [if_pos hn, if_pos hn.1, List.getElem?_eq_getElem hj]
              · rw [if_neg hn]
                by_cases g : n0 ≤ n
                · rw [if_pos g, List.getElem?_eq_none (by omega)]
                · rw [if_neg g]
            rw [e4] at h1
            obtain ⟨m', g1, g2, g3⟩ := ih hqs.2 (k + 1) _ v1 v' (by omega) h h1 (by
              intro q' hq' ha n1 ns hn j hj i hi
              have hne : q' ≠ q := fun e => hqs.1 (e ▸ hq')
              have := hbuf q' (List.mem_cons_of_mem _ hq') ha n1 ns hn j hj i hi
              rw [List.filter_cons_of_pos hra, List.idxOf_cons_ne _ (Ne.symm hne), Nat.succ_eq_add_one,
                show ∀ a, k + (a + 1) = k + 1 + a by omega] at this
              rw [same0_copy _ _ _ _ _ _ (by intro e; have := Reg.shm.inj e; omega), this])
            exact ⟨m', g1, (same0_copy _ _ _ _ _).trans g2, g3⟩

theorem ok_unpack (sz : Nat → Nat) (b : Block) (t : Nat) (qs : List Nat) :
    ∀ k, 0 < k → ∀ i, i ∈ unpack sz b t k qs → okI i := by
  induction qs with
  | nil => intro k _ i hi; cases hi
  | cons q qs ih =>
    intro k hk i hi
    rw [unpack] at hi
    by_cases h : q ≠ t ∧ total sz b (recvIdx b q) ≠ 0
    · rw [if_pos h] at hi
      rcases List.mem_append.1 hi with hi | hi
      · cases hr : recvIdx b q with
        | nil => rw [hr] at hi; cases hi
        | cons n0 ns =>
          rw [hr] at hi
          rw [List.mem_singleton.1 hi]
          exact fun h => shm_zero_ne hk h.1
      · exact ih (k + 1) (by omega) i hi
    · rw [if_neg h] at hi
      exact ih k hk i hi

theorem ok_reductions (sz : Nat → Nat) (b : Block) (f : Nat → Nat) (hl : Lay sz b f) (hok : reduceOk b = true) :
    ∀ i, i ∈ reductions sz b ++ copyReductions sz b → okI i := by
  intro i hi
  rcases List.mem_append.1 hi with hi | hi
  · unfold reductions at hi
    obtain ⟨x, hx, hi⟩ := List.mem_flatMap.1 hi
    obtain ⟨r, hr, hi⟩ := List.mem_flatMap.1 hi
    obtain ⟨h1, h2⟩ := reduceOk_mem b hok x hx
    exact ok_reduce_line sz b f hl x.2 x.1 h1 _ r (h2 r (List.mem_append_left _ hr)) i hi
  · unfold copyReductions at hi
    obtain ⟨x, hx, hi⟩ := List.mem_flatMap.1 hi
    obtain ⟨r, hr, hi⟩ := List.mem_flatMap.1 hi
    obtain ⟨h1, h2⟩ := reduceOk_mem b hok x hx
    refine ok_reduce_line sz b f hl x.2 x.1 h1 _ r.1 (h2 r.1 (List.mem_append_right _ ?_)) i hi
    have : (r.1, r.2) ∈ x.1.copyreducefrom.zipIdx := hr
    exact List.mem_of_getElem? (List.mk_mem_zipIdx_iff_getElem?.1 this)

end ExtMpi.RawCode
