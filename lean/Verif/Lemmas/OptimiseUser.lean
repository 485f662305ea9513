import Verif.Lemmas.OptimiseGood
/-! # Programs that work in the buffers of the user -/
namespace ExtMpi.Optimise
open RawCode Schedule

/-! ## Copies from and to the user -/

theorem barriers_copies {α : Type} {f : α → List Instr} (P : Instr → Prop) (ls : List α) (h : ∀ a, a ∈ ls → ∀ c, c ∈ f a → P c) :
    ∀ c, c ∈ ls.flatMap f → P c := by
  intro c hc
  obtain ⟨a, h1, h2⟩ := List.mem_flatMap.1 hc
  exact h a h1 c h2

theorem copyIns_if (d s n : Nat) : CopyIns (copyIf false ⟨.shm 0, d⟩ ⟨.send, s⟩ n) := by
  intro c hc
  unfold copyIf at hc
  split at hc
  · cases hc
  · exact ⟨d, s, n, List.mem_singleton.1 hc⟩

theorem copyOuts_if (d s n : Nat) : CopyOuts (copyIf false ⟨.recv, d⟩ ⟨.shm 0, s⟩ n) := by
  intro c hc
  unfold copyIf at hc
  split at hc
  · cases hc
  · exact ⟨d, s, n, List.mem_singleton.1 hc⟩

theorem copyIns_reduce (sz : Nat → Nat) (len : Nat) (b : Block) : ∀ add, CopyIns (copyInReduce sz len add b) := by
  induction b with
  | nil => intro add c hc; cases hc
  | cons l b ih =>
    intro add c hc
    rw [copyInReduce] at hc
    rcases List.mem_append.1 hc with h | h
    · exact copyIns_if _ _ _ c h
    · exact ih _ c h

theorem copyOuts_all (sz : Nat → Nat) (len : Nat) (b : Block) : ∀ add, CopyOuts (copyOutAll sz len add b) := by
  induction b with
  | nil => intro add c hc; cases hc
  | cons l b ih =>
    intro add c hc
    rw [copyOutAll] at hc
    rcases List.mem_append.1 hc with h | h
    · split at h
      · exact copyOuts_if _ _ _ c h
      · cases h
    · exact ih _ c h

theorem copyOuts_code (N : Nat) (sz : Nat → Nat) (kind : Kind) (b : Block) (t : Nat) : CopyOuts (copyOutCode N sz kind b t) := by
  cases kind with
  | reduceScatter => exact copyOuts_if _ _ _
  | allreduce => exact copyOuts_all _ _ _ _
  | allgather => exact copyOuts_all _ _ _ _

/-- Copy-in split into the parts seen by the passes. -/
theorem copyInCode_parts (N : Nat) (sz : Nat → Nat) (kind : Kind) (b : Block) (t : Nat) :
    ∃ head ci, Barriers head ∧ CopyIns ci ∧ copyInCode N sz kind b t = head ++ ci ++ [.barrier] := by
  cases kind with
  | allgather => exact ⟨[.barrier], _, fun l hl => List.mem_singleton.1 hl, copyIns_if _ _ _, rfl⟩
  | allreduce =>
    exact ⟨[.barrier, .barrier], _, fun l hl => by simpa using hl, copyIns_reduce _ _ _ _, rfl⟩
  | reduceScatter =>
    exact ⟨[.barrier, .barrier], _, fun l hl => by simpa using hl, copyIns_reduce _ _ _ _, rfl⟩

theorem copyIns_join (cs : List Instr) (h : CopyIns cs) : CopyIns (join cs) := by
  intro c hc
  obtain ⟨r, d, s, n, e, h1, h2, h3⟩ := join_regs (fun r d s => r = false ∧ d = .shm 0 ∧ s = .send) cs (fun c hc => by
    obtain ⟨d, s, n, rfl⟩ := h c hc
    exact ⟨_, _, _, _, rfl, rfl, rfl, rfl⟩) c hc
  subst h1
  cases d; cases s
  dsimp only at h2 h3
  subst h2 h3
  exact ⟨_, _, _, e⟩

theorem copyOuts_join (cs : List Instr) (h : CopyOuts cs) : CopyOuts (join cs) := by
  intro c hc
  obtain ⟨r, d, s, n, e, h1, h2, h3⟩ := join_regs (fun r d s => r = false ∧ d = .recv ∧ s = .shm 0) cs (fun c hc => by
    obtain ⟨d, s, n, rfl⟩ := h c hc
    exact ⟨_, _, _, _, rfl, rfl, rfl, rfl⟩) c hc
  subst h1
  cases d; cases s
  dsimp only at h2 h3
  subst h2 h3
  exact ⟨_, _, _, e⟩

/-! ## The program of the generator -/

theorem program_eq (N : Nat) (sz : Nat → Nat) (kind : Kind) (sched : List Block) (t : Nat) (b0 last : Block) (bs : List Block)
    (hs : sched = b0 :: bs ∧ bs.getLast? = some last) (hcov : ∀ b, b ∈ bs → covered b = true)
    (hfrac0 : ∀ l, l ∈ b0 → l.frac < N) (hfrac1 : ∀ l, l ∈ last → l.frac < N) :
    program N sz kind sched t = some (copyInCode N sz kind b0 t ++ blocksCode N (mmsize N sz) t true bs ++
      copyOutCode N sz kind last t) := by
  obtain ⟨h1, h2⟩ := hs
  have h3 : sched.getLast? = some last := by rw [h1, List.getLast?_cons, h2]; rfl
  unfold program
  rw [h3, h1]
  dsimp only
  rw [if_pos]
  rw [Bool.and_eq_true]
  refine ⟨List.all_eq_true.2 fun b hb => hcov b hb, List.all_eq_true.2 fun l hl => decide_eq_true ?_⟩
  rcases List.mem_append.1 hl with hl | hl
  · exact hfrac0 l hl
  · exact hfrac1 l hl

/-! ## `use_sendbuf_recvbuf` -/

/-- Lines that `use_sendbuf_recvbuf` keeps. -/
def kept : Instr → Bool
  | .copy _ d s _ => isShm d.reg && isShm s.reg
  | _ => true

theorem useSendRecv_eq (L : Nat) (big : Bool) (ls : List Instr) :
    useSendRecv L big ls = (ls.filter kept).map (mapAddr (toUser L big)) := by
  unfold useSendRecv
  congr 1

theorem useSendRecv_clean (L : Nat) (big : Bool) (ls : List Instr) :
    useSendRecv L big (noBarriers ls) = clean (toUser L big) (ls.filter kept) := by
  rw [useSendRecv_eq]
  unfold clean noBarriers
  rw [List.filter_comm]

theorem kept_copyIns (cs : List Instr) (h : CopyIns cs) : cs.filter kept = [] :=
  List.filter_eq_nil_iff.2 fun c hc => by
    obtain ⟨d, s, n, rfl⟩ := h c hc
    exact Bool.false_ne_true

theorem kept_copyOuts (cs : List Instr) (h : CopyOuts cs) : cs.filter kept = [] :=
  List.filter_eq_nil_iff.2 fun c hc => by
    obtain ⟨d, s, n, rfl⟩ := h c hc
    exact Bool.false_ne_true

theorem reds_kept (sz : Nat → Nat) (st : Nat → Nat) (b : Block) : ∀ c, c ∈ join ((reductions sz b).map (fl st)) → kept c = true := by
  intro c hc
  obtain ⟨r, d, s, n, e, h1, h2⟩ := join_regs (fun _ d s => isShm d = true ∧ isShm s = true) ((reductions sz b).map (fl st)) (by
    intro c hc
    obtain ⟨c', hc', rfl⟩ := List.mem_map.1 hc
    unfold reductions at hc'
    obtain ⟨x, _, h1⟩ := List.mem_flatMap.1 hc'
    obtain ⟨y, _, h2⟩ := List.mem_flatMap.1 h1
    unfold copyIf at h2
    split at h2
    · cases h2
    · rw [List.mem_singleton.1 h2]
      exact ⟨_, _, _, _, rfl, rfl, rfl⟩) c hc
  rw [e]
  show (isShm d.reg && isShm s.reg) = true
  rw [h1, h2]
  rfl

theorem done_kept (N : Nat) (sz : Nat → Nat) (st : Nat → Nat) (t : Nat) (bs : List Block) : ∀ first : Bool, 
    ∀ c, c ∈ (segsOf N sz st t first bs).flatMap Seg.done → kept c = true := by
  induction bs with
  | nil => intro first c hc; cases hc
  | cons b bs ih =>
    intro first c hc
    rw [segsOf, List.flatMap_cons] at hc
    rcases List.mem_append.1 hc with h | h
    · unfold Seg.done at h
      simp only [List.mem_append] at h
      rcases h with (((h | h) | h) | h) | h
      · have : c = .barrier := by
          cases first with
          | true => cases h
          | false => exact List.mem_singleton.1 h
        rw [this]; rfl
      · obtain ⟨x, _, rfl⟩ := List.mem_map.1 h; rfl
      · obtain ⟨x, _, rfl⟩ := List.mem_map.1 h; rfl
      · simp at h
        rcases h with rfl | rfl <;> rfl
      · exact reds_kept sz st b c h
    · exact ih false c h

theorem kept_program (head ci co A : List Instr) (hh : Barriers head) (hci : CopyIns ci) (hco : CopyOuts co)
    (hA : ∀ c, c ∈ A → kept c = true) (L : Nat) (big : Bool) :
    useSendRecv L big (noBarriers (head ++ join ci ++ .barrier :: (A ++ .barrier :: join co))) = clean (toUser L big) A := by
  rw [useSendRecv_clean]
  simp only [List.filter_append, List.filter_cons, kept_copyIns _ (copyIns_join ci hci), kept_copyOuts _ (copyOuts_join co hco),
    List.filter_eq_self.2 hA, show kept .barrier = true from rfl, if_true]
  have h0 : clean (toUser L big) (head.filter kept) = [] :=
    clean_barriers _ _ fun l hl => hh l (List.mem_filter.1 hl).1
  rw [List.append_nil, clean_append, h0, List.nil_append, show Instr.barrier :: (A ++ [Instr.barrier]) = [Instr.barrier] ++ A ++ [Instr.barrier] from rfl,
    clean_append, clean_append, show clean (toUser L big) [Instr.barrier] = [] from rfl, List.nil_append, List.append_nil]

/-! ## The whole program -/

section
variable {X : Type} [Add X]

/-- Programs after `use_sendbuf_recvbuf`: the rows are placed by `ρ`. -/
theorem user_assemble (C N : Nat) (hC : 0 < C) (hN : 0 < N) (sz : Nat → Nat) (kind : Kind) (big : Bool)
    (sched : Nat → List Block) (m : Nat → Mem X) (b0 last : Nat → Block) (bs : Nat → List Block)
    (hs : ∀ t, t < N → sched t = b0 t :: bs t ∧ (bs t).getLast? = some (last t))
    (hplain : ∀ t, t < N → ∀ b, b ∈ bs t → Plain b)
    (hfrac0 : ∀ t, t < N → ∀ l, l ∈ b0 t → l.frac < N) (hfrac1 : ∀ t, t < N → ∀ l, l ∈ last t → l.frac < N)
    {Dl : Nat → Nat → Prop} {W : Nat → Prop} (ρ : Nat → Nat → Nat → Addr)
    (hρ : ∀ t, t < N → Place (cells N sz (Dl t)) (ρ t))
    (hG : ∀ t, t < N → Maps sz (lo sz N) (cells N sz (Dl t)) (ρ t) (toUser (moffset sz N) big))
    (hgood : AllGood N Dl W bs) {v v' : Nat → Nat → Nat → X} (hrun : Run N bs v v')
    (hv : ∀ t, t < N → RepC N sz (Dl t) (ρ t) (m t) (v t)) :
    ∃ prog : Nat → List Instr, (∀ t, t < N → userProgram C N sz kind big (sched t) t = some (prog t)) ∧
      Correct N prog m fun mem => ∀ t, t < N → RepC N sz (Dl t) (ρ t) (mem t) (v' t) ∧
        ∀ r i, (∀ row x, cells N sz (Dl t) row x → W row → ρ t row x ≠ ⟨r, i⟩) → mem t r i = m t r i := by
  have H : ∀ t, ∃ st, t < N → Starts st ∧ userProgram C N sz kind big (sched t) t = some (clean (toUser (moffset sz N) big)
      ((segsOf N (mmsize N sz) st t true (bs t)).flatMap Seg.done)) := by
    intro t
    by_cases ht : t < N
    · obtain ⟨head, ci, h1, h2, h3⟩ := copyInCode_parts N sz kind (b0 t) t
      obtain ⟨st, g1, g2⟩ := common_eq C N hC (mmsize N sz) t ht head ci (copyOutCode N sz kind (last t) t) (bs t) h1 h2
        (copyOuts_code _ _ _ _ _) (hgood.straight t ht)
      refine ⟨st, fun _ => ⟨g1, ?_⟩⟩
      unfold userProgram
      rw [program_eq N sz kind (sched t) t (b0 t) (last t) (bs t) (hs t ht)
        (fun b hb => covered_of b (hplain t ht b hb) (RawCode.Run.reduceOk hrun t ht b hb)) (hfrac0 t ht) (hfrac1 t ht), h3]
      show ((common C _).bind fun p => some (useSendRecv (moffset sz N) big (noBarriers p))) = _
      rw [g2]
      show some (useSendRecv _ _ (noBarriers _)) = _
      rw [kept_program head ci _ _ h1 h2 (copyOuts_code _ _ _ _ _) (done_kept N _ st t (bs t) true)]
    · exact ⟨fun _ => 0, fun h => absurd h ht⟩
  choose st hst using H
  refine ⟨fun t => clean (toUser (moffset sz N) big) ((segsOf N (mmsize N sz) (st t) t true (bs t)).flatMap Seg.done),
    fun t ht => (hst t ht).2, ?_⟩
  obtain ⟨S', m', a1, a2, a3⟩ := direct_blocks hN hρ (fun _ => toUser (moffset sz N) big) hG st (fun t ht => (hst t ht).1) hgood hrun
    true _ (fun _ => []) m ((quiet_initial N _ m).congr fun t _ => (List.append_nil _).symm) hv
  obtain ⟨n, hn⟩ := a1
  refine correct_of_run hn (fun t ht => ?_) fun t ht => ?_
  · rw [a2.proc t ht]
    exact ⟨rfl, fun q => ⟨rfl, rfl, a2.chan q t, a2.chan t q⟩⟩
  · dsimp only
    rw [a2.proc t ht]
    exact a3 t ht

end

/-! ## Placement of the rows -/

/-- Rows 0 and 1 in the buffers of the user. -/
def rowsAt (L s : Nat) (r x : Nat) : Addr :=
  if r = 0 then ⟨.send, x⟩ else if r = 1 then ⟨.recv, x - s⟩ else ⟨.shm 0, r * L + x⟩

theorem cells_le {N : Nat} {sz : Nat → Nat} {Dl : Nat → Prop} {r x : Nat} (h : cells N sz Dl r x) : x < lo sz N := by
  obtain ⟨k, h1, _, _, h3⟩ := h
  have := lo_end sz h1
  omega

theorem rowsAt_place (N : Nat) (sz : Nat → Nat) (Dl : Nat → Prop) (s : Nat) (h1 : ∀ x, cells N sz Dl 1 x → s ≤ x) :
    Place (cells N sz Dl) (rowsAt (lo sz N) s) where
  next r i hi hi' := by
    unfold rowsAt
    split
    · rfl
    · split
      · rename_i _ hr
        subst hr
        have := h1 i hi
        show Addr.mk .recv (i + 1 - s) = ⟨.recv, i - s + 1⟩
        congr 1
        omega
      · show Addr.mk (.shm 0) (r * lo sz N + (i + 1)) = ⟨.shm 0, r * lo sz N + i + 1⟩
        rfl
  inj r i r' i' hi hi' e := by
    have b1 := cells_le hi
    have b2 := cells_le hi'
    unfold rowsAt at e
    by_cases c0 : r = 0
    · subst c0
      by_cases c0' : r' = 0
      · subst c0'; simp at e; exact ⟨rfl, e⟩
      · by_cases c1' : r' = 1
        · subst c1'; simp at e
        · simp [c0', c1'] at e
    · by_cases c1 : r = 1
      · subst c1
        by_cases c0' : r' = 0
        · subst c0'; simp at e
        · by_cases c1' : r' = 1
          · subst c1'
            simp at e
            have := h1 i hi
            have := h1 i' hi'
            exact ⟨rfl, by omega⟩
          · simp [c0', c1'] at e
      · by_cases c0' : r' = 0
        · subst c0'; simp [c0, c1] at e
        · by_cases c1' : r' = 1
          · subst c1'; simp [c0, c1] at e
          · simp [c0, c1, c0', c1'] at e
            have hr : r = r' := by
              rcases Nat.lt_trichotomy r r' with h | h | h
              · have := Nat.mul_le_mul_right (lo sz N) (show r + 1 ≤ r' from h)
                rw [Nat.add_mul] at this
                omega
              · exact h
              · have := Nat.mul_le_mul_right (lo sz N) (show r' + 1 ≤ r from h)
                rw [Nat.add_mul] at this
                omega
            subst hr
            exact ⟨rfl, by omega⟩

theorem rowsAt_maps (N : Nat) (sz : Nat → Nat) (Dl : Nat → Prop) (s : Nat) (big : Bool)
    (h1 : ∀ k n, 0 < n → Cells (cells N sz Dl) 1 (lo sz k) n → lo sz k - s = if big then lo sz k else 0) :
    Maps sz (lo sz N) (cells N sz Dl) (rowsAt (lo sz N) s) (toUser (lo sz N) big) := by
  intro r k n hn hle hD
  unfold toUser rowsAt flat sh
  simp only [isShm, Bool.true_and, decide_eq_true_eq]
  by_cases c0 : r = 0
  · subst c0
    rw [if_pos (by omega), if_pos rfl, Nat.zero_mul, Nat.zero_add]
  · by_cases c1 : r = 1
    · subst c1
      rw [if_neg (by omega), if_pos (by omega), if_neg c0, if_pos rfl, h1 k n hn hD]
      cases big with
      | true => simp
      | false => simp
    · have : 2 * lo sz N ≤ r * lo sz N := Nat.mul_le_mul_right _ (by omega)
      rw [if_neg (by omega), if_neg (by omega), if_neg c0, if_neg c1]

/-- Initial lines read from the memory. -/
theorem rowsAt_initial {X : Type} (N : Nat) (sz : Nat → Nat) (Dl : Nat → Prop) (s : Nat) (m : Mem X) :
    RepC N sz Dl (rowsAt (lo sz N) s) m (copyIn (Recursive.reduceFirst N) (fun g i => m .send (lo sz g + i)) fun n i =>
      m (rowsAt (lo sz N) s (n / N) (lo sz (n % N) + i)).reg (rowsAt (lo sz N) s (n / N) (lo sz (n % N) + i)).off) := by
  intro n i _ hi
  by_cases hn : n < N
  · rw [Recursive.reduceFirst_copyIn N n _ _ hn, Nat.div_eq_of_lt hn, Nat.mod_eq_of_lt hn]
    rfl
  · have : copyIn (Recursive.reduceFirst N) (fun g i => m .send (lo sz g + i)) (fun n i =>
        m (rowsAt (lo sz N) s (n / N) (lo sz (n % N) + i)).reg (rowsAt (lo sz N) s (n / N) (lo sz (n % N) + i)).off) n i =
        m (rowsAt (lo sz N) s (n / N) (lo sz (n % N) + i)).reg (rowsAt (lo sz N) s (n / N) (lo sz (n % N) + i)).off := by
      unfold copyIn Recursive.reduceFirst Recursive.mk
      by_cases h2 : n < 2 * N
      · simp [h2, hn]
      · simp [h2]
    rw [this]

end ExtMpi.Optimise
