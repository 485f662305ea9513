import Verif.Lemmas.OptimiseSends
/-! # Receiving without unpacking -/
namespace ExtMpi.Optimise
open RawCode

/-! ## The main loop -/

theorem dropCopy_length (new old : Addr) (n : Nat) (ls : List Instr) : (dropCopy new old n ls).2.length ≤ ls.length := by
  induction ls with
  | nil => exact Nat.le_refl _
  | cons l ls ih =>
    cases l with
    | copy red d s m =>
      cases red with
      | true => simp only [dropCopy, List.length_cons]; omega
      | false =>
        rw [dropCopy]
        split
        · simp
        · simp only [List.length_cons]; omega
    | irecv a m q =>
      simp only [dropCopy]
      split
      · simp only [List.length_cons]; omega
      · simp only [List.length_cons]; omega
    | _ => simp only [dropCopy, List.length_cons]; omega

/-- One round with enough steps. -/
def round (ls : List Instr) : List Instr × Bool := redirectRound ls.length ls

theorem redirectRound_fuel (ls : List Instr) : ∀ f, ls.length ≤ f → redirectRound f ls = round ls := by
  suffices ∀ k, ∀ ls : List Instr, ls.length ≤ k → ∀ f f', ls.length ≤ f → ls.length ≤ f' →
      redirectRound f ls = redirectRound f' ls from
    fun f h => this ls.length ls (Nat.le_refl _) f ls.length h (Nat.le_refl _)
  intro k
  induction k with
  | zero =>
    intro ls h f f' _ _
    have : ls = [] := List.length_eq_zero_iff.1 (by omega)
    subst this
    cases f <;> cases f' <;> rfl
  | succ k ih =>
    intro ls h f f' hf hf'
    cases ls with
    | nil => cases f <;> cases f' <;> rfl
    | cons l ls =>
      rw [List.length_cons] at h hf hf'
      obtain ⟨f, rfl⟩ : ∃ g, f = g + 1 := ⟨f - 1, by omega⟩
      obtain ⟨f', rfl⟩ : ∃ g, f' = g + 1 := ⟨f' - 1, by omega⟩
      have h0 := ih ls (by omega) f f' (by omega) (by omega)
      cases l with
      | irecv a n q =>
        simp only [redirectRound]
        cases hs : recvInto a n false false ls with
        | none => dsimp only; rw [h0]
        | some d =>
          have := dropCopy_length d a n ls
          dsimp only
          rw [ih _ (by omega) f f' (by omega) (by omega)]
      | _ => simp only [redirectRound]; rw [h0]

/-- Not a receive. -/
def NoRecv : Instr → Prop
  | .irecv _ _ _ => False
  | _ => True

theorem round_other {l : Instr} (h : NoRecv l) (ls : List Instr) : round (l :: ls) = (l :: (round ls).1, (round ls).2) := by
  unfold round
  rw [List.length_cons]
  cases l with
  | irecv a n q => exact h.elim
  | _ => rfl

theorem round_others (A B : List Instr) (h : ∀ l, l ∈ A → NoRecv l) :
    round (A ++ B) = (A ++ (round B).1, (round B).2) := by
  induction A with
  | nil => rfl
  | cons l A ih =>
    rw [List.cons_append, round_other (h l List.mem_cons_self), ih fun l' hl => h l' (List.mem_cons_of_mem _ hl)]
    rfl

theorem round_none {a : Addr} {n q : Nat} {ls : List Instr} (h : recvInto a n false false ls = none) :
    round (.irecv a n q :: ls) = (.irecv a n q :: (round ls).1, (round ls).2) := by
  unfold round
  rw [List.length_cons]
  simp only [redirectRound, h]

theorem round_some {a d : Addr} {n q : Nat} {ls : List Instr} (h : recvInto a n false false ls = some d) :
    round (.irecv a n q :: ls) =
      (.irecv d n q :: ((dropCopy d a n ls).1 ++ (round (dropCopy d a n ls).2).1), true) := by
  unfold round
  rw [List.length_cons]
  simp only [redirectRound, h]
  rw [redirectRound_fuel (dropCopy d a n ls).2 ls.length (dropCopy_length d a n ls)]
  rfl

theorem recvInto_other (a : Addr) (n : Nat) (w r : Bool) {l : Instr} (h1 : ¬IsCopy l) (h2 : l ≠ .waitall)
    (ls : List Instr) : recvInto a n w r (l :: ls) = if r then none else recvInto a n w r ls := by
  cases l with
  | copy _ _ _ _ => exact absurd trivial h1
  | waitall => exact absurd rfl h2
  | _ => rfl

theorem recvInto_none (a : Addr) (n : Nat) (ls : List Instr)
    (h : ∀ d s m, .copy false d s m ∈ ls → isShm d.reg = true → isShm s.reg = true → s.off ≠ a.off) :
    ∀ w r, recvInto a n w r ls = none := by
  induction ls with
  | nil => intro w r; rfl
  | cons l ls ih =>
    have ih := ih fun d s m hm => h d s m (List.mem_cons_of_mem _ hm)
    intro w r
    cases l with
    | copy red d s m =>
      cases red with
      | true => rfl
      | false =>
        rw [recvInto]
        have h1 := h d s m List.mem_cons_self
        by_cases e : isShm d.reg = true ∧ isShm s.reg = true
        · have : a.off ≠ s.off := Ne.symm (h1 e.1 e.2)
          simp [ih, this]
        · have : (a.off == s.off && n == m && isShm d.reg && isShm s.reg) = false := by
            rw [Bool.eq_false_iff]
            intro g
            simp only [Bool.and_eq_true] at g
            exact e ⟨g.1.2, g.2⟩
          simp [ih, this]
    | waitall => rw [recvInto]; exact ih _ _
    | irecv b m q => rw [recvInto_other a n w r (l := .irecv b m q) id (by simp), ih]; cases r <;> rfl
    | isend b m q => rw [recvInto_other a n w r (l := .isend b m q) id (by simp), ih]; cases r <;> rfl
    | barrier => rw [recvInto_other a n w r (l := .barrier) id (by simp), ih]; cases r <;> rfl

/-! ## Segments -/

theorem recvInto_skip (a : Addr) (n : Nat) (A B : List Instr) (h : ∀ l, l ∈ A → ¬IsCopy l ∧ l ≠ .waitall) (w : Bool) :
    recvInto a n w false (A ++ B) = recvInto a n w false B := by
  induction A with
  | nil => rfl
  | cons l A ih =>
    have h1 := h l List.mem_cons_self
    have ih := ih fun l' hl => h l' (List.mem_cons_of_mem _ hl)
    rw [List.cons_append, recvInto_other _ _ _ _ h1.1 h1.2, ih]
    rfl

theorem dropCopy_skip (new old : Addr) (n : Nat) (A B : List Instr) (h : ∀ l, l ∈ A → ¬IsCopy l)
    (hr : ∀ b m q, .irecv b m q ∈ A → b.off ≠ old.off) :
    dropCopy new old n (A ++ B) = (A ++ (dropCopy new old n B).1, (dropCopy new old n B).2) := by
  induction A with
  | nil => rfl
  | cons l A ih =>
    have h1 := h l List.mem_cons_self
    have ih := ih (fun l' hl => h l' (List.mem_cons_of_mem _ hl)) (fun b m q hm => hr b m q (List.mem_cons_of_mem _ hm))
    cases l with
    | copy _ _ _ _ => exact absurd trivial h1
    | irecv b m q =>
      have := hr b m q List.mem_cons_self
      simp [dropCopy, ih, this]
    | _ => simp [dropCopy, ih]

/-- The scratch buffers of the receives of a block are different and behind all lines. -/
structure Seg.Bufs (B : Nat) (g : Seg) : Prop where
  dst : ∀ m, m ∈ g.recvs → m.dst < B
  buf : ∀ m, m ∈ g.recvs → B ≤ m.buf
  nodup : (g.recvs.map RMsg.buf).Nodup

/-- The code after the pass. -/
def Seg.final (g : Seg) : List Instr :=
  g.lead ++ g.recvs.map RMsg.direct ++ g.sends.map SMsg.direct ++ [.waitall, .barrier, .barrier] ++ g.reds

/-- No copy within the scratch memory reads below `B`. -/
def Above (B : Nat) (ls : List Instr) : Prop :=
  ∀ d s m, .copy false d s m ∈ ls → isShm d.reg = true → isShm s.reg = true → B ≤ s.off

theorem Above.append {B : Nat} {A C : List Instr} (h1 : Above B A) (h2 : Above B C) : Above B (A ++ C) := by
  intro d s m h
  rcases List.mem_append.1 h with h | h
  · exact h1 d s m h
  · exact h2 d s m h

theorem above_of {B : Nat} {A : List Instr} (h : ∀ l, l ∈ A → NoCopy l) : Above B A := by
  intro d s m hm
  exact (h _ hm).elim

theorem above_unpack {B : Nat} {ms : List RMsg} (h : ∀ m, m ∈ ms → B ≤ m.buf) : Above B (ms.map RMsg.unpack) := by
  intro d s m hm _ _
  obtain ⟨x, hx, e⟩ := List.mem_map.1 hm
  unfold RMsg.unpack at e
  cases e
  exact h x hx

theorem round_direct {B : Nat} (ms : List RMsg) (hd : ∀ m, m ∈ ms → m.dst < B) (R : List Instr) (hR : Above B R) :
    round (ms.map RMsg.direct ++ R) = (ms.map RMsg.direct ++ (round R).1, (round R).2) := by
  induction ms with
  | nil => rfl
  | cons m ms ih =>
    rw [List.map_cons, List.cons_append]
    have e : RMsg.direct m = .irecv (sh m.dst) m.size m.partner := rfl
    rw [e, round_none, ih fun m' h => hd m' (List.mem_cons_of_mem _ h)]
    · rfl
    · apply recvInto_none
      intro d s k hk h1 h2
      have : Above B (ms.map RMsg.direct ++ R) := (above_of fun l hl => by
        obtain ⟨x, _, rfl⟩ := List.mem_map.1 hl
        trivial).append hR
      have h3 := this d s k hk h1 h2
      have h4 := hd m List.mem_cons_self
      show s.off ≠ m.dst
      omega

theorem above_code {B : Nat} {g : Seg} (hg : g.Bufs B) (hl : Barriers g.lead) (hr : Reds g.reds) (j : Nat) :
    Above B (g.code j) := by
  unfold Seg.code
  have h0 : ∀ m, m ∈ g.recvs.drop j → m ∈ g.recvs := fun m h => List.mem_of_mem_drop h
  refine (((((above_of ?_).append (above_of ?_)).append (above_of ?_)).append (above_of ?_)).append
    (above_of ?_)).append (above_unpack fun m hm => hg.buf m (h0 m hm)) |>.append (above_of ?_)
  · intro l h; rw [hl l h]; trivial
  · intro l h; obtain ⟨x, _, rfl⟩ := List.mem_map.1 h; trivial
  · intro l h; obtain ⟨x, _, rfl⟩ := List.mem_map.1 h; trivial
  · intro l h; obtain ⟨x, _, rfl⟩ := List.mem_map.1 h; trivial
  · intro l h; simp at h; rcases h with rfl | rfl <;> trivial
  · intro l h
    rcases List.mem_cons.1 h with rfl | h
    · trivial
    · obtain ⟨d, s, n, rfl⟩ := hr l h; trivial

/-- A round redirects the next receive of the block. -/
theorem round_seg {B : Nat} {g : Seg} (hg : g.Bufs B) (hl : Barriers g.lead) (hr : Reds g.reds) (j : Nat)
    (R : List Instr) (hR : Above B R) :
    round (g.code j ++ R) = (g.code (j + 1) ++ (round R).1, decide (j < g.recvs.length) || (round R).2) := by
  have e0 : ∀ j, g.code j ++ R = g.lead ++ ((g.recvs.take j).map RMsg.direct ++ ((g.recvs.drop j).map RMsg.post ++
      (g.sends.map SMsg.direct ++ ([.waitall, .barrier] ++ ((g.recvs.drop j).map RMsg.unpack ++
        ((.barrier :: g.reds) ++ R)))))) := by
    intro j; unfold Seg.code; simp
  have hlead : ∀ l, l ∈ g.lead → NoRecv l := fun l h => by rw [hl l h]; trivial
  have hsend : ∀ l, l ∈ g.sends.map SMsg.direct → NoRecv l := fun l h => by
    obtain ⟨x, _, rfl⟩ := List.mem_map.1 h; trivial
  have hwait : ∀ l, l ∈ [Instr.waitall, .barrier] → NoRecv l := fun l h => by
    simp at h; rcases h with rfl | rfl <;> trivial
  have hunp : ∀ ms : List RMsg, ∀ l, l ∈ ms.map RMsg.unpack → NoRecv l := fun ms l h => by
    obtain ⟨x, _, rfl⟩ := List.mem_map.1 h; trivial
  have hred : ∀ l, l ∈ Instr.barrier :: g.reds → NoRecv l := fun l h => by
    rcases List.mem_cons.1 h with rfl | h
    · trivial
    · obtain ⟨d, s, n, rfl⟩ := hr l h; trivial
  have hdst : ∀ m, m ∈ g.recvs.take j → m.dst < B := fun m h => hg.dst m (List.mem_of_mem_take h)
  have hab : ∀ j, Above B ((g.recvs.drop j).map RMsg.post ++
      (g.sends.map SMsg.direct ++ ([.waitall, .barrier] ++ ((g.recvs.drop j).map RMsg.unpack ++
        ((.barrier :: g.reds) ++ R))))) := by
    intro j d s m hm
    rcases List.mem_append.1 (show Instr.copy false d s m ∈ g.code j ++ R by
      rw [e0, List.mem_append, List.mem_append]; exact .inr (.inr hm)) with h | h
    · exact above_code hg hl hr j d s m h
    · exact hR d s m h
  rw [e0, round_others _ _ hlead, round_direct _ hdst _ (hab j)]
  by_cases hj : j < g.recvs.length
  · obtain ⟨m, hm⟩ : ∃ m, g.recvs[j] = m := ⟨_, rfl⟩
    have ed : g.recvs.drop j = m :: g.recvs.drop (j + 1) := by rw [← hm]; exact List.drop_eq_getElem_cons hj
    have et : g.recvs.take (j + 1) = g.recvs.take j ++ [m] := by rw [← hm]; simp
    obtain ⟨ms, hms⟩ : ∃ ms, g.recvs.drop (j + 1) = ms := ⟨_, rfl⟩
    have hne : ∀ x, x ∈ ms → x.buf ≠ m.buf := by
      intro x hx e
      have h1 := hg.nodup
      rw [← List.take_append_drop j g.recvs, ed, List.map_append] at h1
      have h2 := (List.nodup_append.1 h1).2.1
      rw [List.map_cons, List.nodup_cons] at h2
      exact h2.1 (List.mem_map.2 ⟨x, by rw [hms]; exact hx, e⟩)
    rw [ed, hms, List.map_cons, List.map_cons, List.cons_append]
    rw [show ∀ T, RMsg.unpack m :: ms.map RMsg.unpack ++ T = RMsg.unpack m :: (ms.map RMsg.unpack ++ T) from fun _ => rfl]
    have e1 : RMsg.post m = .irecv (sh m.buf) m.size m.partner := rfl
    have hA : ∀ l, l ∈ ms.map RMsg.post ++ g.sends.map SMsg.direct → ¬IsCopy l ∧ l ≠ .waitall := by
      intro l h
      rcases List.mem_append.1 h with h | h
      · obtain ⟨x, _, rfl⟩ := List.mem_map.1 h; exact ⟨fun h => h, fun h => by cases h⟩
      · obtain ⟨x, _, rfl⟩ := List.mem_map.1 h; exact ⟨fun h => h, fun h => by cases h⟩
    obtain ⟨T, hT⟩ : ∃ T, ms.map RMsg.unpack ++ ((.barrier :: g.reds) ++ R) = T := ⟨_, rfl⟩
    rw [e1, round_some (d := sh m.dst)]
    · have e2 : ms.map RMsg.post ++ (g.sends.map SMsg.direct ++ ([Instr.waitall, .barrier] ++ (RMsg.unpack m :: T))) =
          (ms.map RMsg.post ++ g.sends.map SMsg.direct ++ [Instr.waitall, .barrier]) ++ (RMsg.unpack m :: T) := by
        simp
      have e3 : dropCopy (sh m.dst) (sh m.buf) m.size (RMsg.unpack m :: T) = ([], T) := by
        unfold RMsg.unpack
        rw [dropCopy]
        simp
      rw [hT, e2, dropCopy_skip, e3]
      · dsimp only
        rw [← hT, round_others _ _ (hunp ms), round_others _ _ hred]
        dsimp only
        refine Prod.ext ?_ (by simp [hj])
        dsimp only
        unfold Seg.code
        rw [et, hms]
        simp [RMsg.direct]
      · intro l h
        rcases List.mem_append.1 h with h | h
        · exact (hA l h).1
        · simp at h; rcases h with rfl | rfl <;> exact fun h => h
      · intro b k q h
        rcases List.mem_append.1 h with h | h
        · rcases List.mem_append.1 h with h | h
          · obtain ⟨x, hx, e⟩ := List.mem_map.1 h
            unfold RMsg.post at e
            cases e
            exact hne x hx
          · obtain ⟨x, hx, e⟩ := List.mem_map.1 h
            cases e
        · simp at h
    · rw [← List.append_assoc, recvInto_skip _ _ _ _ hA]
      show recvInto (sh m.buf) m.size false false (.waitall :: .barrier :: (RMsg.unpack m :: _)) = _
      rw [recvInto, recvInto_other _ _ _ _ (l := .barrier) id (by simp)]
      unfold RMsg.unpack
      simp [recvInto, sh, isShm]
  · have ed : g.recvs.drop j = [] := List.drop_eq_nil_of_le (by omega)
    have et : g.recvs.take j = g.recvs := List.take_of_length_le (by omega)
    have ed' : g.recvs.drop (j + 1) = [] := List.drop_eq_nil_of_le (by omega)
    have et' : g.recvs.take (j + 1) = g.recvs := List.take_of_length_le (by omega)
    rw [ed, et, List.map_nil, List.map_nil, List.nil_append, List.nil_append, round_others _ _ hsend,
      round_others _ _ hwait, round_others _ _ hred]
    refine Prod.ext ?_ (by simp [hj])
    dsimp only
    unfold Seg.code
    rw [et', ed']
    simp

theorem round_segs {B : Nat} (gs : List Seg) (hg : ∀ g, g ∈ gs → g.Bufs B) (hl : ∀ g, g ∈ gs → Barriers g.lead)
    (hr : ∀ g, g ∈ gs → Reds g.reds) (j : Nat) (R : List Instr) (hR : Above B R) (hn : ∀ l, l ∈ R → NoRecv l) :
    round (gs.flatMap (fun g => g.code j) ++ R) =
      (gs.flatMap (fun g => g.code (j + 1)) ++ R, gs.any fun g => decide (j < g.recvs.length)) := by
  induction gs with
  | nil =>
    have := round_others R [] hn
    rw [List.append_nil] at this
    rw [List.flatMap_nil, List.nil_append, this]
    show (R ++ [], false) = _
    rw [List.append_nil]; rfl
  | cons g gs ih =>
    rw [List.flatMap_cons, List.flatMap_cons, List.append_assoc, List.append_assoc, round_seg (hg g List.mem_cons_self)
      (hl g List.mem_cons_self) (hr g List.mem_cons_self), ih (fun g' h => hg g' (List.mem_cons_of_mem _ h))
      (fun g' h => hl g' (List.mem_cons_of_mem _ h)) (fun g' h => hr g' (List.mem_cons_of_mem _ h))]
    · rfl
    · refine Above.append ?_ hR
      intro d s m hm
      obtain ⟨g', h1, h2⟩ := List.mem_flatMap.1 hm
      have h3 := List.mem_cons_of_mem g h1
      exact above_code (hg g' h3) (hl g' h3) (hr g' h3) j d s m h2

/-- The program after the pass. -/
def Prog.final (p : Prog) : List Instr :=
  p.head ++ p.copyIn ++ .barrier :: (p.segs.flatMap Seg.final ++ .barrier :: p.copyOut)

theorem round_prog {p : Prog} (h : p.Ok) {B : Nat} (hB : ∀ g, g ∈ p.segs → g.Bufs B) (j : Nat) :
    round (p.code j) = (p.code (j + 1), p.segs.any fun g => decide (j < g.recvs.length)) := by
  have e : ∀ j, p.code j = (p.head ++ p.copyIn ++ [.barrier]) ++ (p.segs.flatMap (fun g => g.code j) ++ .barrier :: p.copyOut) := by
    intro j; unfold Prog.code; simp
  rw [e, e, round_others, round_segs p.segs hB h.lead h.reds]
  · intro d s m hm h1 h2
    rcases List.mem_cons.1 hm with e | hm
    · cases e
    · obtain ⟨d', s', n', e, e1, _⟩ := h.copyOut _ hm
      cases e
      rw [e1] at h1; cases h1
  · intro l hl
    rcases List.mem_cons.1 hl with rfl | hl
    · trivial
    · obtain ⟨d', s', n', rfl, _⟩ := h.copyOut _ hl
      trivial
  · intro l hl
    rcases List.mem_append.1 hl with hl | hl
    · rcases List.mem_append.1 hl with hl | hl
      · rw [h.head l hl]; trivial
      · obtain ⟨d', s', n', rfl, _⟩ := h.copyIn _ hl
        trivial
    · rw [List.mem_singleton.1 hl]; trivial

theorem code_final {g : Seg} {j : Nat} (h : g.recvs.length ≤ j) : g.code j = g.final := by
  unfold Seg.code Seg.final
  rw [List.take_of_length_le h, List.drop_eq_nil_of_le h]
  simp

theorem prog_final {p : Prog} {j : Nat} (h : ∀ g, g ∈ p.segs → g.recvs.length ≤ j) : p.code j = p.final := by
  unfold Prog.code Prog.final
  have : p.segs.flatMap (fun g => g.code j) = p.segs.flatMap Seg.final := by
    rw [List.flatMap_def, List.flatMap_def, List.map_congr_left fun g hg => code_final (h g hg)]
  rw [this]

theorem redirectRounds_prog {p : Prog} (h : p.Ok) {B : Nat} (hB : ∀ g, g ∈ p.segs → g.Bufs B) :
    ∀ f j, (∀ g, g ∈ p.segs → g.recvs.length ≤ j + f) → redirectRounds (f + 1) (p.code j) = some p.final := by
  intro f
  induction f with
  | zero =>
    intro j hj
    have h1 := round_prog h hB j
    unfold round at h1
    rw [redirectRounds, h1]
    have : (p.segs.any fun g => decide (j < g.recvs.length)) = false := by
      rw [List.any_eq_false]
      intro g hg
      have := hj g hg
      simp; omega
    simp only [this]
    rw [if_neg (by simp), prog_final fun g hg => by have := hj g hg; omega]
  | succ f ih =>
    intro j hj
    have h1 := round_prog h hB j
    unfold round at h1
    rw [redirectRounds, h1]
    by_cases c : (p.segs.any fun g => decide (j < g.recvs.length)) = true
    · simp only [c, if_true]
      exact ih (j + 1) fun g hg => by have := hj g hg; omega
    · simp only [c]
      rw [if_neg (by simp), prog_final fun g hg => ?_]
      rw [Bool.not_eq_true, List.any_eq_false] at c
      have := c g hg
      simp at this
      omega

/-- All messages are received where they belong. -/
theorem Prog.Ok.optimiseRecvs {p : Prog} (h : p.Ok) {B : Nat} (hB : ∀ g, g ∈ p.segs → g.Bufs B) :
    optimiseRecvs (p.code 0) = some p.final := by
  unfold Optimise.optimiseRecvs
  apply redirectRounds_prog h hB
  intro g hg
  have h1 : (g.code 0).length ≤ (p.code 0).length := by
    obtain ⟨s1, s2, e⟩ := List.append_of_mem hg
    unfold Prog.code
    rw [e, List.flatMap_append, List.flatMap_cons]
    simp only [List.length_append, List.length_cons]
    omega
  have h2 : g.recvs.length ≤ (g.code 0).length := by
    unfold Seg.code
    simp only [List.length_append, List.length_map, List.drop_zero]
    omega
  omega

end ExtMpi.Optimise
