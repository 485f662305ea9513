import Verif.Lemmas.RawCodeBlocks
import Verif.Model.Recursive
/-! # Copy-in and copy-out -/
namespace ExtMpi.RawCode
open Schedule

variable {X : Type} [Add X]

theorem moffset_eq (sz : Nat → Nat) (f : Nat) : moffset sz f = lo sz f := rfl

theorem rep_congr {f : Nat → Nat} {m : Mem X} {v w : Nat → Nat → X} (h : Rep f m v)
    (e : ∀ n i, i < f n → v n i = w n i) : Rep f m w := fun n i hi => by rw [h n i hi, e n i hi]

/-- Contents of the scratch memory read as lines. -/
theorem rep_self (f : Nat → Nat) (m : Mem X) : Rep f m fun n i => m (.shm 0) (lo f n + i) := fun _ _ _ => rfl

/-- Position in the send buffer as computed by the copy-in. -/
theorem mod_len {len a : Nat} (h : a < len) : (len + a) % len = a := by
  rw [Nat.add_mod_left, Nat.mod_eq_of_lt h]

/-- Lines covered by the rest of block 0 during the copy-in. -/
def copiedIn (ls : Block) (k : Nat) (inp v : Nat → Nat → X) : Nat → Nat → X := fun n =>
  match (if k ≤ n then ls[n - k]? else none) with
  | some l => if l.recvfrom.any fun e => e.1 == -1 then inp l.frac else v n
  | none => v n

theorem copyInReduce_rep (N : Nat) (sz f : Nat → Nat) (c : Nat) (hc : lo f c = moffset sz N)
    (m0 : Mem X) (ls : Block) :
    ∀ (k : Nat) (m : Mem X) (v : Nat → Nat → X),
      (∀ j l, ls[j]? = some l → f (k + j) = sz l.frac ∧ l.frac < N ∧
        ((l.recvfrom.any fun e => e.1 == -1) = true ↔ k + j < c)) →
      Rep f m v → Same0 m0 m →
      Same0 m0 ((copyInReduce sz (moffset sz N) (lo f k) ls).foldl exec1 m) ∧
      Rep f ((copyInReduce sz (moffset sz N) (lo f k) ls).foldl exec1 m)
        (copiedIn ls k (fun f i => m0 .send (moffset sz f + i)) v) := by
  induction ls with
  | nil =>
    intro k m v _ hr hs
    refine ⟨hs, rep_congr hr fun n i _ => ?_⟩
    unfold copiedIn
    by_cases h : k ≤ n <;> simp [h]
  | cons l ls ih =>
    intro k m v hl hr hs
    obtain ⟨hf, hfr, hany⟩ := hl 0 l rfl
    rw [Nat.add_zero] at hf hany
    rw [copyInReduce]
    rw [List.foldl_append, exec_copyIf, ← hf, ← lo_succ]
    have hstep : ∀ j l', ls[j]? = some l' → f (k + 1 + j) = sz l'.frac ∧ l'.frac < N ∧
        ((l'.recvfrom.any fun e => e.1 == -1) = true ↔ k + 1 + j < c) := by
      intro j l' h
      have := hl (j + 1) l' (by rw [List.getElem?_cons_succ]; exact h)
      rwa [show k + (j + 1) = k + 1 + j by omega] at this
    obtain ⟨len, hlen⟩ : ∃ len, len = moffset sz N := ⟨_, rfl⟩
    rw [← hlen] at hc ⊢
    -- the first line
    have hcont : ∀ (w : Nat → Nat → X), (∀ n i, i < f n →
        copiedIn ls (k + 1) (fun f i => m0 .send (moffset sz f + i)) w n i =
          copiedIn (l :: ls) k (fun f i => m0 .send (moffset sz f + i)) v n i) →
        ∀ m1, Rep f m1 w → Same0 m0 m1 →
        Same0 m0 ((copyInReduce sz len (lo f (k + 1)) ls).foldl exec1 m1) ∧
        Rep f ((copyInReduce sz len (lo f (k + 1)) ls).foldl exec1 m1)
          (copiedIn (l :: ls) k (fun f i => m0 .send (moffset sz f + i)) v) := by
      intro w hw m1 h1 h2
      obtain ⟨h3, h4⟩ := ih (k + 1) m1 w hstep h1 h2
      rw [hlen]
      exact ⟨h3, rep_congr h4 hw⟩
    have hrest : ∀ (w : Nat → Nat → X) n, n ≠ k → w n = v n →
        copiedIn ls (k + 1) (fun f i => m0 .send (moffset sz f + i)) w n =
          copiedIn (l :: ls) k (fun f i => m0 .send (moffset sz f + i)) v n := by
      intro w n hn hw
      unfold copiedIn
      by_cases h : k + 1 ≤ n
      · rw [if_pos h, if_pos (by omega), show n - k = (n - (k + 1)) + 1 by omega, List.getElem?_cons_succ, hw]
      · rw [if_neg h, if_neg (by omega)]
        exact hw
    have hat : ∀ w : Nat → Nat → X, copiedIn ls (k + 1) (fun f i => m0 .send (moffset sz f + i)) w k = w k := by
      intro w
      unfold copiedIn
      rw [if_neg (by omega)]
    have hat' : copiedIn (l :: ls) k (fun f i => m0 .send (moffset sz f + i)) v k =
        if l.recvfrom.any fun e => e.1 == -1 then (fun i => m0 .send (moffset sz l.frac + i)) else v k := by
      unfold copiedIn
      rw [if_pos (Nat.le_refl k), Nat.sub_self, List.getElem?_cons_zero]
    by_cases hk : k < c
    · by_cases h0 : f k = 0
      · -- empty line
        have happl : (if len ≤ lo f k ∨ lo f k + f k ≤ 0 then 0 else
            if lo f k + f k < lo f k + (len - lo f k) then f k else len - lo f k) = 0 := by
          rw [h0]
          have := lo_end f hk
          by_cases g : len ≤ lo f k ∨ lo f k + 0 ≤ 0
          · rw [if_pos g]
          · rw [if_neg g, if_pos (by omega)]
        rw [← lo_succ] at happl
        rw [happl, copyMem_zero]
        refine hcont v (fun n i hi => ?_) m hr hs
        by_cases hn : n = k
        · subst hn; omega
        · rw [hrest v n hn rfl]
      · have hend := lo_end f hk
        have happl : (if len ≤ lo f k ∨ lo f k + f k ≤ 0 then 0 else
            if lo f k + f k < lo f k + (len - lo f k) then f k else len - lo f k) = f k := by
          rw [if_neg (by omega)]
          by_cases g : lo f k + f k < lo f k + (len - lo f k)
          · rw [if_pos g]
          · rw [if_neg g]; omega
        have hsrc : moffset sz l.frac < len := by
          have := lo_end sz hfr
          rw [hlen, moffset_eq, moffset_eq]
          omega
        rw [← lo_succ] at happl
        rw [happl, mod_len (show lo f k < len by omega), mod_len hsrc]
        have h1 := rep_copy_line f m v hr false k ⟨.send, moffset sz l.frac⟩
          (fun i => m0 .send (moffset sz l.frac + i)) (fun i hi => by
            rw [hs .send (by intro h; cases h)])
        refine hcont _ (fun n i hi => ?_) _ h1 (hs.trans (same0_copy _ _ _ _ _))
        by_cases hn : n = k
        · subst hn
          rw [hat, hat', if_pos (hany.2 hk)]
          unfold upd
          rw [if_pos rfl, if_neg (by simp)]
        · rw [hrest _ n hn (by unfold upd; rw [if_neg hn])]
    · have happl : (if len ≤ lo f k ∨ lo f k + f k ≤ 0 then 0 else
          if lo f k + f k < lo f k + (len - lo f k) then f k else len - lo f k) = 0 := by
        have := lo_mono f (show c ≤ k by omega)
        rw [if_pos (.inl (by omega))]
      rw [← lo_succ] at happl
      rw [happl, copyMem_zero]
      refine hcont v (fun n i hi => ?_) m hr hs
      by_cases hn : n = k
      · subst hn
        rw [hat, hat', if_neg (fun h => hk (hany.1 h))]
      · rw [hrest v n hn rfl]

theorem copiedIn_zero (b : Block) (inp v : Nat → Nat → X) : copiedIn b 0 inp v = copyIn b inp v := by
  funext n
  unfold copiedIn copyIn
  rw [if_pos (Nat.zero_le n), Nat.sub_zero]
  cases b[n]? <;> rfl

/-- Copies whose operands do not overlap because they are in different regions. -/
theorem ok_copyIf {red : Bool} {dst src : Addr} {n : Nat} (h : dst.reg ≠ src.reg) :
    ∀ i, i ∈ copyIf red dst src n → okI i := by
  intro i hi
  rw [(mem_copyIf hi).1]
  exact fun hov => h hov.1

theorem ok_copyInReduce (sz : Nat → Nat) (len : Nat) (ls : Block) :
    ∀ add i, i ∈ copyInReduce sz len add ls → okI i := by
  induction ls with
  | nil => intro _ i hi; cases hi
  | cons l ls ih =>
    intro add i hi
    rw [copyInReduce] at hi
    rcases List.mem_append.1 hi with hi | hi
    · exact ok_copyIf (by intro h; cases h) i hi
    · exact ih _ i hi

/-- Copy-in of a reduction. -/
theorem copyInCode_reduce (N : Nat) (sz f : Nat → Nat) (c : Nat) (hc : lo f c = moffset sz N) (kind : Kind)
    (hk : kind ≠ .allgather) (b : Block) (t : Nat) (m : Mem X)
    (hb : ∀ j l, b[j]? = some l → f j = sz l.frac ∧ l.frac < N ∧
      ((l.recvfrom.any fun e => e.1 == -1) = true ↔ j < c)) :
    (∀ i, i ∈ copyInCode N sz kind b t → okI i) ∧
    Rep f ((copyInCode N sz kind b t).foldl exec1 m)
      (copyIn b (fun g i => m .send (moffset sz g + i)) fun n i => m (.shm 0) (lo f n + i)) ∧
    Same0 m ((copyInCode N sz kind b t).foldl exec1 m) := by
  have e : copyInCode N sz kind b t = .barrier :: .barrier :: (copyInReduce sz (moffset sz N) 0 b ++ [.barrier]) := by
    cases kind with
    | allgather => exact absurd rfl hk
    | allreduce => rfl
    | reduceScatter => rfl
  have e2 : (copyInCode N sz kind b t).foldl exec1 m = (copyInReduce sz (moffset sz N) (lo f 0) b).foldl exec1 m := by
    rw [e, List.foldl_cons, List.foldl_cons, List.foldl_append]
    rfl
  obtain ⟨h1, h2⟩ := copyInReduce_rep N sz f c hc m b 0 m _ (fun j l h => by rw [Nat.zero_add]; exact hb j l h)
    (rep_self f m) (Same0.refl m)
  rw [e2]
  rw [copiedIn_zero] at h2
  refine ⟨fun i hi => ?_, h2, h1⟩
  rw [e] at hi
  rcases List.mem_cons.1 hi with rfl | hi
  · exact trivial
  rcases List.mem_cons.1 hi with rfl | hi
  · exact trivial
  rcases List.mem_append.1 hi with hi | hi
  · exact ok_copyInReduce _ _ _ _ i hi
  · rw [List.mem_singleton.1 hi]; exact trivial

/-- Copy-in of a gather operation: line `n0` is the only one that receives from the user. -/
theorem copyInCode_gather (N : Nat) (sz f : Nat → Nat) (b : Block) (t n0 : Nat) (m : Mem X) (l0 : LineD)
    (hl : Lay (mmsize N sz) b f) (ht : t < N) (h0 : b[n0]? = some l0) (hf : l0.frac = t)
    (hb : ∀ j l, b[j]? = some l → ((l.recvfrom.any fun e => e.1 == -1) = true ↔ j = n0)) (hfr : ∀ l, l ∈ b → l.frac < N) :
    (∀ i, i ∈ copyInCode N sz .allgather b t → okI i) ∧
    Rep f ((copyInCode N sz .allgather b t).foldl exec1 m)
      (copyIn b (fun _ i => m .send i) fun n i => m (.shm 0) (lo f n + i)) ∧
    Same0 m ((copyInCode N sz .allgather b t).foldl exec1 m) := by
  have hn : n0 < b.length := (List.getElem?_eq_some_iff.1 h0).1
  have hfi : (b.findIdx fun l => l.recvfrom.any fun e => e.1 == -1) = n0 := by
    rw [List.findIdx_eq hn]
    refine ⟨?_, fun j hj => ?_⟩
    · exact (hb n0 _ (List.getElem?_eq_getElem hn)).2 rfl
    · rw [Bool.eq_false_iff]
      intro h
      have := (hb j _ (List.getElem?_eq_getElem (by omega))).1 h
      omega
  have hsz : f n0 = sz t := by
    rw [← hl n0 hn, lineSize, h0]
    dsimp only
    rw [mmsize, hf, Nat.mod_eq_of_lt ht]
  have hoff : off sz b n0 = lo f n0 := by
    rw [off_eq]
    apply lo_congr
    intro k hk
    have hk' : k < b.length := by omega
    rw [← hl k hk', lineSize, lineSize, List.getElem?_eq_getElem hk']
    dsimp only
    rw [mmsize, Nat.mod_eq_of_lt (hfr _ (List.getElem_mem hk'))]
  have e : copyInCode N sz .allgather b t = .barrier ::
      (copyIf false ⟨.shm 0, lo f n0⟩ ⟨.send, 0⟩ (f n0) ++ [.barrier]) := by
    rw [copyInCode, copyInGather, hfi, hoff, hsz]
  have e2 : (copyInCode N sz .allgather b t).foldl exec1 m = copyMem false ⟨.shm 0, lo f n0⟩ ⟨.send, 0⟩ (f n0) m := by
    rw [e, List.foldl_cons, List.foldl_append, exec_copyIf]
    rfl
  refine ⟨fun i hi => ?_, ?_, ?_⟩
  · rw [e] at hi
    rcases List.mem_cons.1 hi with rfl | hi
    · exact trivial
    rcases List.mem_append.1 hi with hi | hi
    · exact ok_copyIf (by intro h; cases h) i hi
    · rw [List.mem_singleton.1 hi]; exact trivial
  · rw [e2]
    have h1 := rep_copy_line f m _ (rep_self f m) false n0 ⟨.send, 0⟩ (fun i => m .send i) (fun i _ => by
      dsimp only; rw [Nat.zero_add])
    refine rep_congr h1 fun n i hi => ?_
    unfold upd copyIn
    by_cases hnn : n = n0
    · subst hnn
      rw [if_pos rfl, if_neg (by simp), h0]
      dsimp only
      rw [if_pos ((hb n l0 h0).2 rfl)]
    · rw [if_neg hnn]
      cases hbn : b[n]? with
      | none => rfl
      | some l =>
        dsimp only
        rw [if_neg fun h => hnn ((hb n l hbn).1 h)]
  · rw [e2]
    exact same0_copy _ _ _ _ _

/-- Copy-out of all lines that send to the user. -/
theorem copyOutAll_spec (N : Nat) (sz f : Nat → Nat) (v : Nat → Nat → X) (ls : Block) :
    ∀ (k : Nat) (m : Mem X) (o : Nat → Option (Nat → X)),
      (∀ j l, ls[j]? = some l → f (k + j) = sz l.frac ∧ l.frac < N) → Rep f m v →
      (∀ g w, g < N → o g = some w → ∀ i, i < sz g → m .recv (moffset sz g + i) = w i) →
      (∀ g w, g < N → (ls.zipIdx k).foldl (fun out x =>
          if x.1.sendto.any fun e => e.1 == -1 then upd out x.1.frac (some (v x.2)) else out) o g = some w →
        ∀ i, i < sz g →
          (copyOutAll sz (moffset sz N) (lo f k) ls).foldl exec1 m .recv (moffset sz g + i) = w i) ∧
      (∀ i, moffset sz N ≤ i → (copyOutAll sz (moffset sz N) (lo f k) ls).foldl exec1 m .recv i = m .recv i) ∧
      ∀ r, r ≠ .recv → (copyOutAll sz (moffset sz N) (lo f k) ls).foldl exec1 m r = m r := by
  induction ls with
  | nil =>
    intro k m o _ _ ho
    exact ⟨fun g w hg h => ho g w hg h, fun _ _ => rfl, fun _ _ => rfl⟩
  | cons l ls ih =>
    intro k m o hl hr ho
    obtain ⟨hf, hfr⟩ := hl 0 l rfl
    rw [Nat.add_zero] at hf
    have hstep : ∀ j l', ls[j]? = some l' → f (k + 1 + j) = sz l'.frac ∧ l'.frac < N := by
      intro j l' h
      have := hl (j + 1) l' (by rw [List.getElem?_cons_succ]; exact h)
      rwa [show k + (j + 1) = k + 1 + j by omega] at this
    rw [copyOutAll, List.zipIdx_cons, List.foldl_cons, ← hf, ← lo_succ, List.foldl_append]
    dsimp only
    by_cases h : (l.sendto.any fun e => e.1 == -1) = true
    · have hle : moffset sz (l.frac + 1) ≤ moffset sz N := lo_mono sz (by omega)
      have hs1 : moffset sz (l.frac + 1) = moffset sz l.frac + sz l.frac := lo_succ sz l.frac
      have hov : overlapp 0 (moffset sz N) (moffset sz l.frac) (moffset sz (l.frac + 1)) =
          (moffset sz l.frac, sz l.frac) := by
        unfold overlapp
        dsimp only
        congr 1
        · by_cases g : moffset sz l.frac > 0
          · rw [if_pos g]
          · rw [if_neg g]; omega
        · by_cases g : moffset sz l.frac > 0 <;> by_cases g' : moffset sz (l.frac + 1) < moffset sz N
          · rw [if_pos g, if_pos g']; omega
          · rw [if_pos g, if_neg g']; omega
          · rw [if_neg g, if_pos g']; omega
          · rw [if_neg g, if_neg g']; omega
      rw [if_pos h, if_pos h, hov]
      dsimp only
      rw [exec_copyIf, ← hf]
      obtain ⟨m1, hm1⟩ : ∃ m1, m1 = copyMem false ⟨.recv, moffset sz l.frac⟩ ⟨.shm 0, lo f k⟩ (f k) m := ⟨_, rfl⟩
      rw [← hm1]
      have hin : ∀ i, i < f k → m1 .recv (moffset sz l.frac + i) = v k i := by
        intro i hi
        have := copyMem_in false ⟨.recv, moffset sz l.frac⟩ ⟨.shm 0, lo f k⟩ (f k) m i hi
        rw [hm1]
        rw [if_neg (by simp)] at this
        dsimp only at this
        rw [this, hr k i hi]
      have hout : ∀ r i, ¬(r = .recv ∧ moffset sz l.frac ≤ i ∧ i < moffset sz l.frac + f k) → m1 r i = m r i := by
        intro r i hn
        rw [hm1]
        unfold copyMem
        rw [if_neg hn]
      obtain ⟨g1, g2, g3⟩ := ih (k + 1) m1 (upd o l.frac (some (v k))) hstep
        (fun n i hi => by rw [hout _ _ (by intro h; cases h.1)]; exact hr n i hi) (by
          intro g w hg hw i hi
          unfold upd at hw
          by_cases hgl : g = l.frac
          · subst hgl
            rw [if_pos rfl] at hw
            cases hw
            exact hin i (by rw [hf]; exact hi)
          · rw [if_neg hgl] at hw
            rw [hout _ _ (by
              intro hc
              rcases Nat.lt_or_gt_of_ne hgl with h' | h'
              · have := lo_end sz h'
                rw [moffset_eq, moffset_eq] at hc
                omega
              · have := lo_end sz h'
                rw [moffset_eq, moffset_eq] at hc
                omega)]
            exact ho g w hg hw i hi)
      refine ⟨g1, fun i hi => ?_, fun r hr' => ?_⟩
      · rw [g2 i hi, hout _ _ (by omega)]
      · rw [g3 r hr']
        funext i
        rw [hout r i (fun hc => hr' hc.1)]
    · rw [if_neg h, if_neg h]
      exact ih (k + 1) m o hstep hr ho

theorem ok_copyOutAll (sz : Nat → Nat) (len : Nat) (ls : Block) :
    ∀ add i, i ∈ copyOutAll sz len add ls → okI i := by
  induction ls with
  | nil => intro _ i hi; cases hi
  | cons l ls ih =>
    intro add i hi
    rw [copyOutAll] at hi
    rcases List.mem_append.1 hi with hi | hi
    · by_cases h : (l.sendto.any fun e => e.1 == -1) = true
      · rw [if_pos h] at hi
        exact ok_copyIf (by intro h; cases h) i hi
      · rw [if_neg h] at hi; cases hi
    · exact ih _ i hi

theorem lay_frac {N : Nat} {sz f : Nat → Nat} {b : Block} (hl : Lay (mmsize N sz) b f)
    (hfr : ∀ l, l ∈ b → l.frac < N) : ∀ j l, b[j]? = some l → f j = sz l.frac ∧ l.frac < N := by
  intro j l h
  have hj := (List.getElem?_eq_some_iff.1 h).1
  have hm : l ∈ b := List.mem_of_getElem? h
  refine ⟨?_, hfr l hm⟩
  rw [← hl j hj, lineSize, h]
  dsimp only
  rw [mmsize, Nat.mod_eq_of_lt (hfr l hm)]

/-- Copy-out of allreduce and allgather. -/
theorem copyOutCode_all (N : Nat) (sz f : Nat → Nat) (kind : Kind) (hk : kind ≠ .reduceScatter) (b : Block) (t : Nat)
    (m : Mem X) (v : Nat → Nat → X) (hl : Lay (mmsize N sz) b f) (hfr : ∀ l, l ∈ b → l.frac < N) (hr : Rep f m v) :
    (∀ i, i ∈ copyOutCode N sz kind b t → okI i) ∧
    (∀ g w, g < N → copyOut b v g = some w → ∀ i, i < sz g →
      (copyOutCode N sz kind b t).foldl exec1 m .recv (moffset sz g + i) = w i) ∧
    (∀ i, moffset sz N ≤ i → (copyOutCode N sz kind b t).foldl exec1 m .recv i = m .recv i) ∧
    ∀ r, r ≠ .recv → (copyOutCode N sz kind b t).foldl exec1 m r = m r := by
  have e : copyOutCode N sz kind b t = copyOutAll sz (moffset sz N) (lo f 0) b := by
    cases kind with
    | reduceScatter => exact absurd rfl hk
    | allreduce => rfl
    | allgather => rfl
  rw [e]
  refine ⟨fun i hi => ok_copyOutAll _ _ _ _ i hi, ?_⟩
  exact copyOutAll_spec N sz f v b 0 m (fun _ => none)
    (fun j l h => by rw [Nat.zero_add]; exact lay_frac hl hfr j l h) hr (fun _ _ _ h => by cases h)

/-- Copy-out of a reduce_scatter: line `n0` is the first one that sends anywhere. -/
theorem copyOutCode_own (N : Nat) (sz f : Nat → Nat) (b : Block) (t n0 : Nat) (m : Mem X) (v : Nat → Nat → X) (l0 : LineD)
    (hl : Lay (mmsize N sz) b f) (hfr : ∀ l, l ∈ b → l.frac < N) (hr : Rep f m v) (h0 : b[n0]? = some l0)
    (hf : l0.frac = t) (hb : ∀ j l, b[j]? = some l → ((!l.sendto.isEmpty) = true ↔ j = n0)) :
    (∀ i, i ∈ copyOutCode N sz .reduceScatter b t → okI i) ∧
    (∀ w, copyOutFirst b v = some w → ∀ i, i < sz t →
      (copyOutCode N sz .reduceScatter b t).foldl exec1 m .recv i = w i) ∧
    (∀ i, sz t ≤ i → (copyOutCode N sz .reduceScatter b t).foldl exec1 m .recv i = m .recv i) ∧
    ∀ r, r ≠ .recv → (copyOutCode N sz .reduceScatter b t).foldl exec1 m r = m r := by
  have hn : n0 < b.length := (List.getElem?_eq_some_iff.1 h0).1
  have hfi : (b.findIdx fun l => !l.sendto.isEmpty) = n0 := by
    rw [List.findIdx_eq hn]
    refine ⟨?_, fun j hj => ?_⟩
    · exact (hb n0 _ (List.getElem?_eq_getElem hn)).2 rfl
    · rw [Bool.eq_false_iff]
      intro h
      have := (hb j _ (List.getElem?_eq_getElem (by omega))).1 h
      omega
  have hsz : f n0 = sz t := by rw [(lay_frac hl hfr n0 l0 h0).1, hf]
  have hoff : off sz b n0 = lo f n0 := by
    rw [off_eq]
    apply lo_congr
    intro k hk
    have hk' : k < b.length := by omega
    rw [(lay_frac hl hfr k _ (List.getElem?_eq_getElem hk')).1, lineSize, List.getElem?_eq_getElem hk']
  have e : copyOutCode N sz .reduceScatter b t = copyIf false ⟨.recv, 0⟩ ⟨.shm 0, lo f n0⟩ (sz t) := by
    rw [copyOutCode, copyOutOwn, hfi, hoff]
  rw [e]
  refine ⟨fun i hi => ok_copyIf (by intro h; cases h) i hi, fun w hw i hi => ?_, fun i hi => ?_, fun r hr' => ?_⟩
  · rw [exec_copyIf]
    have h1 := copyMem_in false ⟨.recv, 0⟩ ⟨.shm 0, lo f n0⟩ (sz t) m i hi
    rw [if_neg (by simp)] at h1
    dsimp only at h1
    rw [Nat.zero_add] at h1
    rw [h1, hr n0 i (by rw [hsz]; exact hi)]
    unfold copyOutFirst at hw
    obtain ⟨x, hx, hxw⟩ := Option.map_eq_some_iff.1 hw
    have hxm := List.mem_of_find?_eq_some hx
    have hxp := List.find?_some hx
    rw [List.mem_zipIdx_iff_getElem?] at hxm
    have := (hb x.2 x.1 hxm).1 hxp
    rw [← hxw, this]
  · rw [exec_copyIf]
    unfold copyMem
    rw [if_neg (by dsimp only; omega)]
  · rw [exec_copyIf]
    funext i
    unfold copyMem
    rw [if_neg fun h => hr' h.1]

theorem mk_get {L : Nat} {g : Nat → LineD} {n : Nat} {l : LineD} (h : (Recursive.mk L g)[n]? = some l) :
    n < L ∧ l = g n := by
  unfold Recursive.mk at h
  rw [List.getElem?_map] at h
  obtain ⟨x, hx, rfl⟩ := Option.map_eq_some_iff.1 h
  obtain ⟨h1, h2⟩ := List.getElem?_eq_some_iff.1 hx
  rw [List.getElem_range] at h2
  rw [List.length_range] at h1
  exact ⟨h1, by rw [h2]⟩

end ExtMpi.RawCode
