import Verif.Lemmas.ClusterCopy
/-! Where the copy-in has barriers of the node. -/
namespace ExtMpi.OnNode
open Schedule

/-- No barrier of the node. -/
def NoBar (l : List Instr) : Prop := ∀ x, x ∈ l → ∀ b, x ≠ .barrier b

theorem NoBar.append {l l' : List Instr} (h : NoBar l) (h' : NoBar l') : NoBar (l ++ l') := fun x hx => (List.mem_append.1 hx).elim (h x) (h' x)

theorem noBar_nil : NoBar [] := fun _ hx => absurd hx List.not_mem_nil

theorem noBar_flatMap {α : Type} (L : List α) (f : α → List Instr) (h : ∀ a, a ∈ L → NoBar (f a)) : NoBar (L.flatMap f) := by
  intro x hx
  obtain ⟨a, ha, hx⟩ := List.mem_flatMap.1 hx
  exact h a ha x hx

theorem noBar_setWait (b : Nat) (ranks : List Int) (w : Int) : NoBar (setWait b ranks w) := by
  intro x hx
  rcases List.mem_cons.1 hx with rfl | hx
  · intro _ h; cases h
  · rw [List.mem_singleton.1 hx]; intro _ h; cases h

theorem noBar_busy (b busy : Nat) (ranks : List Int) : NoBar (busyRounds b busy ranks) := noBar_flatMap _ _ fun _ _ => noBar_setWait _ _ _

theorem noBar_idle (b num : Nat) (ranks : List Int) : NoBar (idleRounds b num ranks) := noBar_flatMap _ _ fun _ _ => noBar_setWait _ _ _

theorem noBar_final (b : Nat) (busy : Int) (ranks : List Int) : NoBar (localBarrierFinal b busy ranks) := by
  unfold localBarrierFinal
  split
  · exact noBar_busy _ _ _
  · exact noBar_idle _ _ _

theorem noBar_slice (k : Nat) (reg : Reg) (start : Nat) (red : Bool) (sz : Nat → Nat) (len al sl : Nat) (blk : Block) :
    ∀ add, NoBar (ringSlice k reg start red sz len al sl add blk) := by
  induction blk with
  | nil => intro add; exact noBar_nil
  | cons l ls ih =>
    intro add
    unfold ringSlice
    refine NoBar.append ?_ (ih _)
    dsimp only
    repeat' split
    all_goals first
      | exact noBar_nil
      | intro x hx
        rw [List.mem_singleton.1 hx]
        intro _ h; cases h

theorem noBar_copyin (b k : Nat) (pl : Place) (sz : Nat → Nat) (len u gb nr : Nat) (ranks : List Int) (blk : Block) (own : Nat) :
    NoBar (reduceCopyin b k pl sz len u gb nr ranks blk own) := by
  unfold reduceCopyin
  refine NoBar.append (noBar_flatMap _ _ fun i _ => ?_) (noBar_final _ _ _)
  dsimp only
  refine NoBar.append (noBar_slice _ _ _ _ _ _ _ _ _ _) ?_
  split
  · exact noBar_setWait _ _ _
  · exact noBar_nil

theorem noBar_half (b : Nat) (reg : Reg) (n h len u own : Nat) : NoBar (almostHalf b reg n h len u own) := by
  unfold almostHalf
  split
  · dsimp only
    refine NoBar.append (NoBar.append (noBar_final _ _ _) fun x hx => ?_) (noBar_final _ _ _)
    rw [List.mem_singleton.1 hx]
    intro _ h; cases h
  · exact NoBar.append (noBar_final _ _ _) (noBar_final _ _ _)

theorem noBar_tree (b : Nat) (fast : Bool) (pl : Place) (ts u v s len f0 own : Nat) (fs : List Nat) :
    ∀ gb lay, NoBar (treeSteps b fast pl ts u v s len f0 own gb lay fs).1 := by
  induction fs with
  | nil => intro gb lay; exact noBar_nil
  | cons f fs ih =>
    intro gb lay
    unfold treeSteps
    dsimp only
    refine NoBar.append (NoBar.append (NoBar.append (noBar_busy _ _ _) (noBar_idle _ _ _)) ?_) (ih _ _)
    unfold stepReduce
    split
    · exact noBar_nil
    · intro x hx
      obtain ⟨_, _, rfl⟩ := List.mem_map.1 hx
      intro _ h; cases h

/-- The end of the reduction of the instances. -/
theorem reduceCopies_fin {b : Nat} {fast : Bool} {pl : Place} {ts u s len f0 own : Nat} {fs : List Nat} {sub : Bool} {t : List Instr}
    (h : reduceCopies b fast pl ts u s len (f0 :: fs) sub own = some t) :
    ∃ c, NoBar c ∧ t = c ++ finalBarrier b s sub (finalBusy (f0 :: fs).prod
      (treeSteps b fast pl ts u (f0 :: fs).prod s len f0 own f0 (layout1 ts u s len f0) fs).2) own := by
  unfold reduceCopies at h
  dsimp only at h
  split at h
  · cases h
  · exact ⟨_, noBar_tree _ _ _ _ _ _ _ _ _ _ _ _ _, (Option.some.inj h).symm⟩

section
variable {P : Par} {f0 : Nat} {fs : List Nat} {sz : Nat → Nat} {blk : Block} {σ : Nat → Nat}

/-- Processes with a part of the result of the copy-in. -/
def Par.multiBusy (P : Par) (f0 : Nat) (fs : List Nat) (sz : Nat → Nat) (blk : Block) (σ : Nat → Nat) : List Int :=
  let C := P.multi f0 sz blk σ
  finalBusy P.s (C.treeSk P.s (if P.method = 1 then C.halfSk (C.copyinSk (leadSk P.n 0 2)) else C.copyinSk (leadSk P.n 0 2))
    C.f0 (layout1 C.ts C.u C.s C.len C.f0) fs).2

theorem Par.Multi.busy (h : P.Multi f0 fs) (hl : LineOk sz P.len blk σ) : Busy P.n (P.multiBusy f0 fs sz blk σ) := by
  have hC := h.ctx_ok hl
  obtain ⟨_, _, hS⟩ := h.start hl Nat
  obtain ⟨_, _, hS⟩ := hS (fun _ => 0) (fun _ _ _ _ _ => rfl)
  obtain ⟨sl, idx, g⟩ := hS.all h.zero_fs h.prod (Nat.le_refl _) (Or.inl rfl)
  exact (finalBusy_ok g.lay g.slices hC.s_pos hC.len_pos (Or.inl rfl)).mono h.s_le

/-- The end of the copy-in. -/
theorem Par.Multi.program_fin (h : P.Multi f0 fs) (hl : LineOk sz P.len blk σ) {p : Nat} (hp : p < P.n) {pr : List Instr}
    (hpr : copyInWith false 1 ⟨.shm 0, P.len, 0⟩ P sz blk 0 0 p = some pr) :
    ∃ c, NoBar c ∧ pr = c ++ finalBarrier 0 P.s (P.method = 1) (P.multiBusy f0 fs sz blk σ) p := by
  have hC := h.ctx_ok hl
  have hd : (P.multi f0 sz blk σ).f0 ∣ P.s := ⟨_, h.prod.symm⟩
  have hl1 := Lay.next (lay_zero P.s P.s P.ts P.len (Nat.le_refl _)) (slices_one P.ts P.len) (u := 1) Nat.one_pos h.f0_pos
    (by rw [Nat.one_mul]; exact hd) (Or.inl rfl)
  have hs1 := Slices.next (slices_one P.ts P.len) (u := 1) h.f0_pos hC.unit
  rw [Nat.one_mul] at hl1 hs1
  obtain ⟨_, h2⟩ := code_tree hC (A := if P.method = 1 then (P.multi f0 sz blk σ).halfSk ((P.multi f0 sz blk σ).copyinSk (leadSk P.n 0 2))
        else (P.multi f0 sz blk σ).copyinSk (leadSk P.n 0 2)) h.f0_pos hp hl1 hs1 h.zero_fs h.prod (Or.inl rfl)
  have hF : P.multiBusy f0 fs sz blk σ = finalBusy (f0 :: fs).prod
      (treeSteps 0 false ⟨.shm 0, P.len, 0⟩ P.ts 1 (f0 :: fs).prod P.s P.len f0 p f0 (layout1 P.ts 1 P.s P.len f0) fs).2 := by
    rw [List.prod_cons, h.prod]
    unfold Par.multiBusy
    exact congrArg (finalBusy P.s) h2
  unfold copyInWith at hpr
  rcases h.kind with ⟨hm, hf⟩ | ⟨hm, hf, h2, hlt, l, hl'⟩
  · have hs : P.s = P.n := by unfold Par.s; rw [if_neg hm]
    rw [hf] at hpr
    simp only at hpr
    rw [if_neg (by rintro (hc | hc); exact absurd hc Nat.one_ne_zero; exact h.pos (by rw [hf]; exact hc)), if_neg hm] at hpr
    obtain ⟨t, ht, rfl⟩ := Option.map_eq_some_iff.1 hpr
    obtain ⟨c, hc, rfl⟩ := reduceCopies_fin ht
    rw [hF, hs]
    simp only [hm, decide_false]
    refine ⟨_, ?_, (List.append_assoc _ _ _).symm⟩
    exact NoBar.append (noBar_copyin _ _ _ _ _ _ _ _ _ _ _) hc
  · have hs : P.s = 2 ^ Nat.clog 2 P.n / 2 := by unfold Par.s; rw [if_pos hm]
    have hdl : P.factors.dropLast = f0 :: fs := by rw [hl', List.dropLast_concat]
    have hl2 : P.factors = f0 :: (fs ++ [l]) := by rw [hl']; rfl
    rw [hl2] at hdl hpr
    simp only at hpr
    rw [if_neg (by rintro (hc | hc); exact absurd hc Nat.one_ne_zero; exact h.pos (by rw [hl2]; exact hc)), if_pos hm, hdl, ← hs] at hpr
    obtain ⟨t, ht, rfl⟩ := Option.map_eq_some_iff.1 hpr
    obtain ⟨c, hc, rfl⟩ := reduceCopies_fin ht
    rw [hF]
    simp only [hm, decide_true]
    refine ⟨_, ?_, (List.append_assoc _ _ _).symm⟩
    exact NoBar.append (NoBar.append (noBar_copyin _ _ _ _ _ _ _ _ _ _ _) (noBar_half _ _ _ _ _ _ _)) hc

/-- The lines of the copy-in: a barrier of the node can be the last one. -/
theorem Par.Multi.lines (h : P.Multi f0 fs) (hl : LineOk sz P.len blk σ) :
    ∃ (T : Skel) (full : Bool), P.multiSk f0 fs sz blk σ = leadSk P.n 0 2 ++ (T ++ if full then dis 0 (Nat.clog 2 P.n) (nodeW P.n) else []) ∧
      ∀ p, p < P.n → ∃ c, copyInWith false 1 ⟨.shm 0, P.len, 0⟩ P sz blk 0 0 p = some (c ++ if full then [.barrier 0] else []) ∧
        NoBar c ∧ c.flatMap (Instr.acts P.n p) = code T p := by
  have hB := h.busy hl
  obtain ⟨F, hF⟩ : ∃ F, F = P.multiBusy f0 fs sz blk σ := ⟨_, rfl⟩
  have hB' : Busy P.n F := by rw [hF]; exact hB
  -- the skeleton
  obtain ⟨T0, hT0⟩ : ∃ T0, P.multiSk f0 fs sz blk σ = leadSk P.n 0 2 ++ T0 ++ finSk (P.method = 1) P.n 0 F := by
    obtain ⟨B1, e1⟩ := copyinSk_prefix (P.multi f0 sz blk σ) (leadSk P.n 0 2)
    obtain ⟨B2, e2⟩ := halfSk_prefix (P.multi f0 sz blk σ) (leadSk P.n 0 2 ++ B1)
    have : ∃ T0, ((P.multi f0 sz blk σ).treeSk P.s (if P.method = 1 then (P.multi f0 sz blk σ).halfSk ((P.multi f0 sz blk σ).copyinSk (leadSk P.n 0 2))
        else (P.multi f0 sz blk σ).copyinSk (leadSk P.n 0 2)) (P.multi f0 sz blk σ).f0 (layout1 (P.multi f0 sz blk σ).ts (P.multi f0 sz blk σ).u
        (P.multi f0 sz blk σ).s (P.multi f0 sz blk σ).len (P.multi f0 sz blk σ).f0) fs).1 = leadSk P.n 0 2 ++ T0 := by
      obtain ⟨B3, e3⟩ := treeSk_prefix (P.multi f0 sz blk σ) P.s fs (if P.method = 1 then (P.multi f0 sz blk σ).halfSk ((P.multi f0 sz blk σ).copyinSk (leadSk P.n 0 2))
        else (P.multi f0 sz blk σ).copyinSk (leadSk P.n 0 2)) (P.multi f0 sz blk σ).f0 (layout1 (P.multi f0 sz blk σ).ts (P.multi f0 sz blk σ).u
        (P.multi f0 sz blk σ).s (P.multi f0 sz blk σ).len (P.multi f0 sz blk σ).f0)
      rw [e3, e1, e2]
      split
      · exact ⟨B1 ++ B2 ++ B3, by simp only [List.append_assoc]⟩
      · exact ⟨B1 ++ B3, by simp only [List.append_assoc]⟩
    obtain ⟨T0, e⟩ := this
    refine ⟨T0, ?_⟩
    rw [← e, hF]
    rfl
  have hlead : ∀ p, code (leadSk P.n 0 2) p = [Instr.barrier 0, .barrier 0].flatMap (Instr.acts P.n p) := fun p => by
    rw [← code_lead]
    rfl
  have hprog : ∀ p, p < P.n → ∃ c, copyInWith false 1 ⟨.shm 0, P.len, 0⟩ P sz blk 0 0 p = some (c ++ finalBarrier 0 P.s (P.method = 1) F p) ∧
      NoBar c ∧ c.flatMap (Instr.acts P.n p) = code T0 p := fun p hp => by
    obtain ⟨pr, h1, h2⟩ := h.program hl hp
    obtain ⟨c, hc, rfl⟩ := h.program_fin hl hp h1
    rw [← hF] at h1 h2
    refine ⟨c, h1, hc, ?_⟩
    rw [hT0, code_append, code_append, hlead, List.flatMap_cons, List.flatMap_cons, List.flatMap_append,
      hB'.code (P.method = 1) (s := P.s) (fun hm => by
        have : P.method ≠ 1 := by simpa using hm
        unfold Par.s; rw [if_neg this]) 0 hp] at h2
    simp only [List.flatMap_cons, List.flatMap_nil, List.append_assoc, List.append_nil] at h2
    have h2 := List.append_cancel_left (List.append_cancel_left h2)
    exact List.append_cancel_right h2
  by_cases hfull : F.length = P.n ∧ (decide (P.method = 1)) = false
  · refine ⟨T0, true, ?_, fun p hp => ?_⟩
    · rw [hT0, List.append_assoc]
      congr 2
      unfold finSk
      rw [if_pos hfull]
      rfl
    · obtain ⟨c, h1, h2, h3⟩ := hprog p hp
      refine ⟨c, ?_, h2, h3⟩
      rw [h1]
      congr 2
      have hs : P.s = P.n := by
        have : P.method ≠ 1 := by simpa using hfull.2
        unfold Par.s; rw [if_neg this]
      unfold finalBarrier
      rw [if_pos (hB'.all hfull.1 hp), if_pos ⟨by rw [hs, hfull.1], by rw [hfull.2]; rfl⟩]
      rfl
  · refine ⟨T0 ++ finSk (P.method = 1) P.n 0 F, false, ?_, fun p hp => ?_⟩
    · rw [hT0, List.append_assoc]
      congr 1
      exact (List.append_nil _).symm
    · obtain ⟨c, h1, h2, h3⟩ := hprog p hp
      have hs : (decide (P.method = 1)) = false → P.s = P.n := fun hm => by
        have : P.method ≠ 1 := by simpa using hm
        unfold Par.s; rw [if_neg this]
      refine ⟨c ++ finalBarrier 0 P.s (P.method = 1) F p, ?_, h2.append ?_, ?_⟩
      · rw [h1]
        congr 1
        exact (List.append_nil _).symm
      · have hsw : NoBar [Instr.set 0 p, .wait 0 0] := by
          intro x hx
          rcases List.mem_cons.1 hx with rfl | hx
          · intro _ h; cases h
          · rw [List.mem_singleton.1 hx]; intro _ h; cases h
        unfold finalBarrier
        split
        · split
          · rename_i hx
            have hm : (decide (P.method = 1)) = false := by
              have := hx.2
              simpa using this
            exact absurd ⟨by rw [← hx.1, hs hm], hm⟩ hfull
          · exact (noBar_final _ _ _).append hsw
        · exact (noBar_final _ _ _).append hsw
      · rw [List.flatMap_append, h3, hB'.code (P.method = 1) hs 0 hp, code_append]

end

end ExtMpi.OnNode
