import Verif.Lemmas.OnNodeFinal
/-! Repeated executions of the program of a node. -/
namespace ExtMpi.OnNode
open Schedule

/-! ### Parameters -/

/-- Processes that reduce the instances. -/
def Par.s (P : Par) : Nat := if P.method = 1 then 2 ^ Nat.clog 2 P.n / 2 else P.n

def Par.ctx (P : Par) (f0 b k : Nat) : Ctx where
  n := P.n
  s := P.s
  ts := P.ts
  u := P.unit
  len := P.len
  f0 := f0
  b := b
  kk := k
  fast := P.isFast
  pl := P.place b
  sz := P.sz
  blk := singleBlock
  σ := id

theorem single_line (k : Nat) (reg : Reg) (start : Nat) (red : Bool) (len al sl p : Nat) (hl : 0 < len)
    (h : al + sl ≤ len) :
    (∀ i ∈ ringSlice k reg start red (fun _ => len) len al sl 0 singleBlock, i.isCopy = true) ∧
    (ringSlice k reg start red (fun _ => len) len al sl 0 singleBlock).flatMap (Instr.elems p) =
      (List.range sl).map fun e => ⟨red, Addr.cell ⟨reg, start⟩ p (al + e), .send p k (al + e)⟩ := by
  have hmoff : RawCode.moffset (fun _ => len) 0 = 0 := by simp [RawCode.moffset]
  by_cases h0 : sl = 0
  · subst h0
    have : ringSlice k reg start red (fun _ => len) len al 0 0 singleBlock = [] := by
      unfold singleBlock
      simp only [ringSlice]
      split
      · rfl
      · simp
        omega
    rw [this]; simp
  · have : ringSlice k reg start red (fun _ => len) len al sl 0 singleBlock =
        [Instr.copy red ⟨reg, al + start⟩ ⟨.send k, al⟩ sl] := by
      unfold singleBlock
      simp only [ringSlice, hmoff, List.append_nil]
      rw [if_neg (by omega)]
      have e1 : (len + al) % len = al := by rw [Nat.add_mod_left, Nat.mod_eq_of_lt (by omega)]
      simp only [Nat.not_lt_zero, gt_iff_lt, if_false, Nat.zero_add, Nat.sub_zero, Nat.add_zero, e1,
        if_neg (show ¬ len < al + sl by omega), if_neg h0]
    rw [this]
    refine ⟨by simp [Instr.isCopy], ?_⟩
    simp only [List.flatMap_cons, List.flatMap_nil, List.append_nil, Instr.elems]
    apply List.map_congr_left
    intro e _
    congr 1
    · cases reg <;> simp [Addr.cell] <;> omega

theorem Par.fast_small {P : Par} (h : P.isFast = true) : P.len * P.ts < cacheLine := by
  have h' : P.len * P.ts ≤ cacheLine - offsetFast := by simpa [Par.isFast] using h
  have : cacheLine - offsetFast < cacheLine := by decide
  omega

/-- Parameters for which the programs work: first factor, other factors of the reductions of the instances. -/
structure Par.Good (P : Par) (f0 : Nat) (fs : List Nat) : Prop where
  s_pos : 0 < P.s
  s_le : P.s ≤ P.n
  len_pos : 0 < P.len
  ts_dvd : P.ts ∣ 8
  pos : 0 ∉ P.factors
  f0_pos : 0 < f0
  zero_fs : 0 ∉ fs
  dvd : f0 ∣ P.n
  le : ∀ f ∈ f0 :: fs, f ≤ P.s
  n_le : P.s ≤ f0 * fs.prod
  prod : f0 * fs.prod = P.s ∨ P.isFast = true
  kind : (P.method ≠ 1 ∧ P.factors = f0 :: fs) ∨
    (P.method = 1 ∧ f0 = 1 ∧ P.n ≤ 2 * P.s ∧ P.s < P.n ∧ P.isFast = false ∧ ∃ l, P.factors = (f0 :: fs) ++ [l])

theorem Par.Good.n_pos {P : Par} {f0 : Nat} {fs : List Nat} (h : P.Good f0 fs) : 0 < P.n :=
  Nat.lt_of_lt_of_le h.s_pos h.s_le

theorem Par.Good.ctx_ok {P : Par} {f0 : Nat} {fs : List Nat} (h : P.Good f0 fs) (b k : Nat) : (P.ctx f0 b k).Ok := by
  have hts : 0 < P.ts := Nat.pos_of_dvd_of_pos h.ts_dvd (by omega)
  refine ⟨h.s_pos, h.s_le, h.len_pos, ?_, ?_, ?_, h.f0_pos, h.dvd, ?_, ?_, ?_, ?_⟩
  · simp only [Par.ctx, Par.unit]; split
    · exact h.len_pos
    · omega
  · simp only [Par.ctx, Par.unit]; split
    · exact Nat.dvd_refl _
    · exact Nat.one_dvd _
  · simp only [Par.ctx, Par.unit]
    by_cases hf : P.isFast = true
    · exact Or.inr (Par.fast_small hf)
    · exact Or.inl (by rw [if_neg hf])
  · simp only [Par.ctx, Par.place]; split
    · exact Or.inr rfl
    · exact Or.inl rfl
  · simp only [Par.ctx, Par.place]; split
    · rename_i hf
      have := Par.fast_small hf
      show P.len ≤ cacheLine / P.ts
      rw [Nat.le_div_iff_mul_le hts]
      omega
    · exact Nat.le_refl _
  · intro hf
    have hf' : P.isFast = false := hf
    simp [Par.ctx, Par.place, hf']
  · intro p start red al sl hle
    exact single_line k _ start red P.len al sl p h.len_pos hle

theorem Par.Good.small {P : Par} {f0 : Nat} {fs : List Nat} (h : P.Good f0 fs) :
    f0 * fs.prod = P.s ∨ P.len * P.ts < cacheLine := by
  rcases h.prod with h | h
  · exact Or.inl h
  · exact Or.inr (Par.fast_small h)

/-- The skeleton of the copy-in. -/
def Par.copySk (P : Par) (f0 b k : Nat) (A : Skel) : Skel :=
  if P.method = 1 then (P.ctx f0 b k).halfSk ((P.ctx f0 b k).copyinSk A) else (P.ctx f0 b k).copyinSk A

/-- The skeleton of the `k`-th execution. -/
def Par.sk (P : Par) (f0 : Nat) (fs : List Nat) (lead b k : Nat) : Skel :=
  (P.ctx f0 b k).sk (P.method = 1) (f0 * fs.prod) fs (P.copySk f0 b k (leadSk P.n b lead))

theorem copySk_prefix (P : Par) (f0 b k : Nat) (A : Skel) : ∃ B, P.copySk f0 b k A = A ++ B := by
  unfold Par.copySk
  obtain ⟨B, hB⟩ := copyinSk_prefix (P.ctx f0 b k) A
  split
  · obtain ⟨B', hB'⟩ := halfSk_prefix (P.ctx f0 b k) ((P.ctx f0 b k).copyinSk A)
    exact ⟨_, by rw [hB', hB, List.append_assoc]⟩
  · exact ⟨B, hB⟩

theorem Par.Good.start {P : Par} {f0 : Nat} {fs : List Nat} (h : P.Good f0 fs) (X : Type) [AddCommMonoid X] (lead b k : Nat) :
    (P.ctx f0 b k).Start X (h.ctx_ok b k) (f0 * fs.prod) (leadSk P.n b lead).length
      (P.copySk f0 b k (leadSk P.n b lead)) := by
  have hC := h.ctx_ok b k
  unfold Par.copySk
  have hP : Partners (P.ctx f0 b k).n (leadSk P.n b lead) := partners_lead h.n_pos
  rcases h.kind with ⟨hm, hf⟩ | ⟨hm, hf, h2, hlt, hfast, _⟩
  · rw [if_neg hm]
    have hs : P.s = P.n := by unfold Par.s; rw [if_neg hm]
    refine start_plain hC hs (quiet_lead _ _ _) hP ⟨_, rfl⟩ ?_ ?_
    · have := h.n_le
      rw [hs] at this
      exact this
    · have := h.small
      rw [hs] at this
      exact this
  · rw [if_pos hm]
    have hv : f0 * fs.prod = (P.ctx f0 b k).s := by
      rcases h.prod with hp | hp
      · exact hp
      · rw [hfast] at hp; cases hp
    rw [hv]
    exact start_half hC hf h2 (quiet_lead _ _ _) hP

theorem Par.Good.program {P : Par} {f0 : Nat} {fs : List Nat} (h : P.Good f0 fs) (lead b k : Nat)
    {p : Nat} (hp : p < P.n) : ∃ pr, allreduce P lead b k p = some pr ∧
      pr.flatMap (Instr.acts P.n p) = code (P.sk f0 fs lead b k) p := by
  have hC := h.ctx_ok b k
  obtain ⟨t, ht, hcode⟩ := hC.code_exec (P.copySk f0 b k (leadSk P.n b lead)) (P.method = 1)
    (fun hm => by
      have : P.method ≠ 1 := by simpa using hm
      show P.s = P.n
      unfold Par.s; rw [if_neg this])
    h.zero_fs rfl h.n_le h.small (h.start Nat lead b k) h.le hp
  have hunit : P.unit ≠ 0 := by
    have : 0 < P.unit := hC.u_pos
    omega
  have ht' : reduceCopies b P.isFast (P.place b) P.ts P.unit P.s P.len (f0 :: fs) (P.method = 1) p = some t := ht
  have hci : code ((P.ctx f0 b k).copyinSk (leadSk P.n b lead)) p = _ := hC.code_copyin hp _
  have hout : (copyOut P b k).flatMap (Instr.acts P.n p) = ((P.ctx f0 b k).outOps p).map Elem.act := by
    unfold copyOut
    rw [if_neg (by have := h.len_pos; omega)]
    simp only [List.flatMap_cons, List.flatMap_nil, List.append_nil, Instr.acts, Ctx.outOps, List.map_map]
    apply List.map_congr_left
    intro e _
    have hce := hC.cell_eq (0 * (P.ctx f0 b k).pl.stride + (P.ctx f0 b k).pl.base) p e
    simp only [Function.comp, Elem.act, Ctx.cell]
    rw [← hce]
    congr 1
    · simp [Addr.cell, Par.ctx]
    · simp only [Par.ctx, Par.place]
      split <;> simp
  have hcode' : code (P.sk f0 fs lead b k) p = code (P.copySk f0 b k (leadSk P.n b lead)) p ++
      t.flatMap (Instr.acts P.n p) ++ ((P.ctx f0 b k).outOps p).map Elem.act := hcode
  rw [hcode']
  rcases h.kind with ⟨hm, hf⟩ | ⟨hm, hf, h2, hlt, hfast, l, hl⟩
  · have hs : P.s = P.n := by unfold Par.s; rw [if_neg hm]
    rw [hs] at ht'
    simp only [hm, decide_false] at ht'
    unfold allreduce copyIn copyInWith
    rw [hf]
    simp only
    rw [if_neg (by rintro (hc | hc); exact hunit hc; exact h.pos (by rw [hf]; exact hc)), if_neg hm, ht']
    simp only [Option.map_some, Option.some.injEq, exists_eq_left']
    rw [List.flatMap_append, List.flatMap_append, List.flatMap_append, code_lead, hout]
    unfold Par.copySk
    rw [if_neg hm, hci]
    simp only [List.append_assoc]
    rfl
  · have hs : P.s = 2 ^ Nat.clog 2 P.n / 2 := by unfold Par.s; rw [if_pos hm]
    simp only [hm, decide_true] at ht'
    have hdl : P.factors.dropLast = f0 :: fs := by rw [hl, List.dropLast_concat]
    have hl' : P.factors = f0 :: (fs ++ [l]) := by rw [hl]; rfl
    have hlen : (ringRanks P.n f0 p).length = f0 := hC.ranks_length p
    have hh : code ((P.ctx f0 b k).halfSk ((P.ctx f0 b k).copyinSk (leadSk P.n b lead))) p = _ :=
      code_half hC hfast h2 hlt hp _
    unfold allreduce copyIn copyInWith
    rw [hl'] at hdl ⊢
    simp only
    rw [if_neg (by rintro (hc | hc); exact hunit hc; exact h.pos (by rw [hl']; exact hc)), if_pos hm, hdl, ← hs, ht']
    simp only [Option.map_some, Option.some.injEq, exists_eq_left']
    rw [List.flatMap_append, List.flatMap_append, List.flatMap_append, List.flatMap_append, code_lead, hout]
    unfold Par.copySk
    rw [if_pos hm, hh, hci]
    simp only [List.append_assoc]
    show _ ++ ((reduceCopyin b k (P.place b) P.sz P.len P.unit f0 f0 (ringRanks P.n f0 p) singleBlock p).flatMap _ ++ _) =
      _ ++ ((reduceCopyin b k (P.place b) P.sz P.len P.unit f0 (ringRanks P.n f0 p).length (ringRanks P.n f0 p) singleBlock
        p).flatMap _ ++ _)
    rw [hlen]
    rfl

/-! ### Races between executions -/

def Cell.bank : Cell → Option Nat
  | .shm b _ => some b
  | .fast b _ => some b
  | _ => none

/-- An access of process `q` to its own buffers or to the shared memory `b`. -/
def Loc (b q : Nat) (e : Elem) : Prop :=
  (e.dst.bank = some b ∨ ∃ k y, e.dst = .recv q k y) ∧ (e.src.bank = some b ∨ ∃ k y, e.src = .send q k y)

theorem loc_conflict {b b' p q : Nat} {e f : Elem} (he : Loc b p e) (hf : Loc b' q f) (hpq : p ≠ q)
    (hc : Conflict e f) : b' = b := by
  obtain ⟨hd, hs⟩ := he
  obtain ⟨hd', hs'⟩ := hf
  rcases hc with hc | hc | hc
  · rw [hc] at hd
    rcases hd with hd | ⟨k, y, hd⟩ <;> rcases hd' with hd' | ⟨k', y', hd'⟩
    · rw [hd] at hd'; injection hd' with h; exact h.symm
    · rw [hd'] at hd; cases hd
    · rw [hd] at hd'; cases hd'
    · rw [hd] at hd'; injection hd' with h; exact absurd h hpq
  · rw [hc] at hd
    rcases hd with hd | ⟨k, y, hd⟩ <;> rcases hs' with hs' | ⟨k', y', hs'⟩
    · rw [hd] at hs'; injection hs' with h; exact h.symm
    · rw [hs'] at hd; cases hd
    · rw [hd] at hs'; cases hs'
    · rw [hd] at hs'; cases hs'
  · rw [hc] at hs
    rcases hs with hd | ⟨k, y, hd⟩ <;> rcases hd' with hs' | ⟨k', y', hs'⟩
    · rw [hd] at hs'; injection hs' with h; exact h.symm
    · rw [hs'] at hd; cases hd
    · rw [hd] at hs'; cases hs'
    · rw [hd] at hs'; cases hs'

theorem race_join {n : Nat} {A S : Skel} (hA : RaceFree n A) (hS : RaceFree n S) {l L b : Nat}
    (hSl : ∀ q, q < n → ∀ (i : Nat) (I : Item) (e : Elem), S[i]? = some I → e ∈ I.elems q → Loc b q e ∧ l ≤ i)
    (hAl : ∀ q, q < n → ∀ (i : Nat) (I : Item) (e : Elem), A[i]? = some I → e ∈ I.elems q →
      ∃ b', Loc b' q e ∧ (b' = b → i < L))
    (hR : 0 < L → ∀ p q, p < n → q < n → R n (A ++ S) q L p (A.length + l)) : RaceFree n (A ++ S) := by
  have hget : ∀ (i : Nat) (I : Item), (A ++ S)[i]? = some I → A[i]? = some I ∧ i < A.length ∨
      ∃ j, i = A.length + j ∧ S[j]? = some I := by
    intro i I h
    by_cases hi : i < A.length
    · rw [List.getElem?_append_left hi] at h
      exact Or.inl ⟨h, hi⟩
    · rw [List.getElem?_append_right (by omega)] at h
      exact Or.inr ⟨i - A.length, by omega, h⟩
  apply raceFree_of_lt
  intro p q i j I J e f hp hq hpq hji hI hJ he hf hc
  rcases hget i I hI with ⟨hI', hi⟩ | ⟨i', rfl, hI'⟩
  · rcases hget j J hJ with ⟨hJ', hj⟩ | ⟨j', rfl, hJ'⟩
    · exact (raceFree_lt hA hp hq hpq hji hI' hJ' he hf hc).append S
    · omega
  · rcases hget j J hJ with ⟨hJ', hj⟩ | ⟨j', rfl, hJ'⟩
    · obtain ⟨b', hb', hL⟩ := hAl q hq j J f hJ' hf
      obtain ⟨hb, hli⟩ := hSl p hp i' I e hI' he
      have := hL (loc_conflict hb hb' hpq hc)
      exact (hR (by omega) p q hp hq).mono (by omega) (by omega)
    · exact (raceFree_lt hS hp hq hpq (by omega) hI' hJ' he hf hc).prepend A

/-! ### The sequence -/

/-- The skeleton of `N` executions. -/
def Par.seq (P : Par) (f0 : Nat) (fs : List Nat) (lead : Nat) (alternate : Bool) : Nat → Skel
  | 0 => []
  | N + 1 => P.seq f0 fs lead alternate N ++ P.sk f0 fs lead (bankOf alternate N) N

structure SeqInv {X : Type} [AddCommMonoid X] (P : Par) (f0 v : Nat) (alternate : Bool) (m : Cell → X) (j : Nat)
    (A : Skel) : Prop where
  partners : Partners P.n A
  race : RaceFree P.n A
  order : ∃ L, (∀ q, q < P.n → ∀ (i : Nat) (I : Item) (e : Elem), A[i]? = some I → e ∈ I.elems q →
      ∃ b', Loc b' q e ∧ (b' = bankOf alternate j → i < L)) ∧
    (alternate = true → 0 < L → ∀ p q, p < P.n → q < P.n → R P.n A q L p A.length) ∧ (alternate = false → L = A.length)
  send : ∀ p k y, lockstep P.n A m (.send p k y) = m (.send p k y)
  recv : ∀ p k y, j ≤ k ∨ P.len ≤ y → lockstep P.n A m (.recv p k y) = m (.recv p k y)
  sum : ∀ p k e, p < P.n → k < j → e < P.len → lockstep P.n A m (.recv p k e) = ∑ q ∈ Finset.range P.n, m (.send q k e)
  zero : ∀ b k inst x, P.n ≤ inst * f0 → inst * f0 < v → x < P.len →
    lockstep P.n A m ((P.ctx f0 b k).cell inst x) = 0

theorem Par.cell_bank (P : Par) (f0 b k inst x : Nat) : ((P.ctx f0 b k).cell inst x).bank = some b := by
  simp only [Ctx.cell, Par.ctx, Par.place]
  split <;> rfl

theorem leadSk_R {n b lead : Nat} (hl : 0 < lead) {p q : Nat} (hp : p < n) (hq : q < n) :
    R n (leadSk n b lead) q 0 p (leadSk n b lead).length := by
  obtain ⟨l, rfl⟩ : ∃ l, lead = l + 1 := ⟨lead - 1, by omega⟩
  unfold leadSk
  rw [List.range_succ, List.flatMap_append]
  have := R_node (n := n) (leadSk n b l) b hq hp
  simp only [List.flatMap_cons, List.flatMap_nil, List.append_nil]
  refine this.mono (Nat.zero_le _) ?_
  simp [dis_length, leadSk]

theorem seqInv {X : Type} [AddCommMonoid X] {P : Par} {f0 : Nat} {fs : List Nat} (h : P.Good f0 fs) {lead : Nat}
    {alternate : Bool} (hlead : alternate = false → 0 < lead) (hlead0 : alternate = true → lead = 0) {m : Cell → X}
    (hz : P.n < f0 * fs.prod → ∀ b x, m (.fast b x) = 0) (N : Nat) :
    SeqInv P f0 (f0 * fs.prod) alternate m N (P.seq f0 fs lead alternate N) := by
  induction N with
  | zero =>
    have hl : lockstep P.n [] m = m := rfl
    refine ⟨by intro b w hm; simp [Par.seq] at hm, by intro p q i j I J e f _ _ _ hI; simp [Par.seq] at hI,
      ⟨0, by intro q _ i I e hI; simp [Par.seq] at hI, ?_, fun _ => rfl⟩, ?_, ?_, ?_, ?_⟩
    · intro _ h0; omega
    · intro p k y; rw [Par.seq, hl]
    · intro p k y _; rw [Par.seq, hl]
    · intro p k e _ hk; omega
    · intro b k inst x h1 h2 hx
      rw [Par.seq, hl]
      have hlt : P.n < f0 * fs.prod := by omega
      have hf : P.isFast = true := by
        have := h.s_le
        rcases h.prod with h | h
        · omega
        · exact h
      simp only [Ctx.cell, Par.ctx, Par.place, hf, if_true, Addr.cell]
      exact hz hlt _ _
  | succ N ih =>
    have hC := h.ctx_ok (bankOf alternate N) N
    have hE := hC.exec (X := X) (quiet_lead P.n (bankOf alternate N) lead) (copySk_prefix P f0 _ N _)
      (h.start X lead (bankOf alternate N) N) (P.method = 1) h.zero_fs rfl h.n_le h.small
    have hS : (P.ctx f0 (bankOf alternate N) N).sk (P.method = 1) (f0 * fs.prod) fs
      (P.copySk f0 (bankOf alternate N) N (leadSk P.n (bankOf alternate N) lead)) =
      P.sk f0 fs lead (bankOf alternate N) N := rfl
    rw [hS] at hE
    obtain ⟨B, hB⟩ : ∃ B, P.sk f0 fs lead (bankOf alternate N) N = leadSk P.n (bankOf alternate N) lead ++ B := by
      obtain ⟨B, hB⟩ := sk_prefix (P.ctx f0 (bankOf alternate N) N) (P.method = 1) (f0 * fs.prod) fs
        (P.copySk f0 (bankOf alternate N) N (leadSk P.n (bankOf alternate N) lead))
      obtain ⟨B', hB'⟩ := copySk_prefix P f0 (bankOf alternate N) N (leadSk P.n (bankOf alternate N) lead)
      rw [hS] at hB
      exact ⟨_, by rw [hB, hB', List.append_assoc]⟩
    rw [Par.seq]
    generalize hA : P.seq f0 fs lead alternate N = A at *
    generalize hSS : P.sk f0 fs lead (bankOf alternate N) N = S at *
    have hloc : ∀ q, q < P.n → ∀ (i : Nat) (I : Item) (e : Elem), S[i]? = some I → e ∈ I.elems q →
        Loc (bankOf alternate N) q e ∧ (leadSk P.n (bankOf alternate N) lead).length ≤ i := by
      intro q hq i I e hI he
      obtain ⟨⟨hd, hs⟩, hi⟩ := hE.local_ q hq i I e hI he
      refine ⟨⟨?_, ?_⟩, hi⟩
      · rcases hd with ⟨i', x, hd⟩ | ⟨y, hd⟩
        · left; rw [hd]; exact P.cell_bank _ _ _ _ _
        · right; exact ⟨_, y, hd⟩
      · rcases hs with ⟨i', x, hd⟩ | ⟨y, hd⟩
        · left; rw [hd]; exact P.cell_bank _ _ _ _ _
        · right; exact ⟨_, y, hd⟩
    obtain ⟨L, hL1, hL2, hL3⟩ := ih.order
    have hzero : ∀ inst x, P.n ≤ inst * f0 → inst * f0 < f0 * fs.prod → x < P.len →
        lockstep P.n A m ((P.ctx f0 (bankOf alternate N) N).cell inst x) = 0 := ih.zero _ _
    have hsum := hE.sum (lockstep P.n A m) hzero
    have hframe := hE.frame (lockstep P.n A m) hzero
    have hout_send : ∀ p k y, lockstep P.n (A ++ S) m (.send p k y) = lockstep P.n A m (.send p k y) := by
      intro p k y
      rw [lockstep_append]
      exact hframe _ (outside_send hC _ _ _) (by intros; simp)
    have hout_recv : ∀ p k y, k ≠ N ∨ P.len ≤ y →
        lockstep P.n (A ++ S) m (.recv p k y) = lockstep P.n A m (.recv p k y) := by
      intro p k y hk
      rw [lockstep_append]
      refine hframe _ (outside_recv hC _ _ _) ?_
      intro p' e _ he hc
      have he' : e < P.len := he
      injection hc with h1 h2 h3
      have h2' : k = N := h2
      rcases hk with hk | hk
      · exact hk h2'
      · omega
    refine ⟨ih.partners.append hE.partners, ?_, ?_, ?_, ?_, ?_, ?_⟩
    · refine race_join ih.race hE.race (l := (leadSk P.n (bankOf alternate N) lead).length) (L := L) hloc hL1 ?_
      intro h0 p q hp hq
      cases ha : alternate with
      | true =>
        exact ((hL2 ha h0 p q hp hq).append S).mono (Nat.le_refl _) (by omega)
      | false =>
        rw [hL3 ha, hB]
        have := leadSk_R (b := bankOf false N) (hlead ha) hp hq
        rw [ha]
        exact (this.append B).prepend A
    · cases ha : alternate with
      | true =>
        refine ⟨A.length, ?_, ?_, by simp⟩
        · intro q hq i I e hI he
          by_cases hi : i < A.length
          · rw [List.getElem?_append_left hi] at hI
            obtain ⟨b', hb', _⟩ := hL1 q hq i I e hI he
            exact ⟨b', hb', fun _ => hi⟩
          · rw [List.getElem?_append_right (by omega)] at hI
            refine ⟨_, (hloc q hq _ I e hI he).1, ?_⟩
            intro hc
            rw [ha] at hc
            simp only [bankOf, if_true] at hc
            omega
        · intro _ _ p q hp hq
          have := (hE.know p q hp hq).prepend A
          refine this.mono ?_ ?_
          · omega
          · simp
      | false =>
        refine ⟨(A ++ S).length, ?_, by simp, fun _ => rfl⟩
        intro q hq i I e hI he
        have hi := (List.getElem?_eq_some_iff.1 hI).1
        by_cases hi' : i < A.length
        · rw [List.getElem?_append_left hi'] at hI
          obtain ⟨b', hb', _⟩ := hL1 q hq i I e hI he
          exact ⟨b', hb', fun _ => hi⟩
        · rw [List.getElem?_append_right (by omega)] at hI
          exact ⟨_, (hloc q hq _ I e hI he).1, fun _ => hi⟩
    · intro p k y
      rw [hout_send, ih.send]
    · intro p k y hk
      rw [hout_recv p k y (by omega), ih.recv p k y (by omega)]
    · intro p k e hp hk he
      by_cases hkN : k = N
      · subst hkN
        rw [lockstep_append]
        have := hsum p e hp he
        have h2 : lockstep P.n S (lockstep P.n A m) (.recv p k e) =
          ∑ q ∈ Finset.range P.n, lockstep P.n A m (.send q k e) := this
        rw [h2]
        exact Finset.sum_congr rfl fun q _ => ih.send q k e
      · rw [hout_recv p k e (Or.inl hkN)]
        exact ih.sum p k e hp (by omega) he
    · intro b k inst x h1 h2 hx
      rw [lockstep_append]
      have hc : ∀ k', (P.ctx f0 b k).cell inst x = (P.ctx f0 b k').cell inst x := fun _ => rfl
      have := hframe ((P.ctx f0 b k).cell inst x) ?_ ?_
      · exact this.trans (ih.zero b k inst x h1 h2 hx)
      · intro inst' x' hx' hi' he
        have hbb := congrArg Cell.bank he
        rw [P.cell_bank, P.cell_bank] at hbb
        injection hbb with hbb
        subst hbb
        rw [hc N] at he
        obtain ⟨rfl, _⟩ := ((P.ctx f0 (bankOf alternate N) N).vec hC).inj _ _ _ _ hx hx' he
        have hi'' : inst * f0 < P.n := hi'
        omega
      · intro p' e _ _ hc
        have hbb := congrArg Cell.bank hc
        rw [P.cell_bank] at hbb
        cases hbb

/-- Program of process `p` for `N` executions. -/
theorem seq_program {P : Par} {f0 : Nat} {fs : List Nat} (h : P.Good f0 fs) (lead : Nat)
    (alternate : Bool) (N : Nat) (progs : Nat → Nat → List Instr)
    (hp : ∀ j, j < N → ∀ p, p < P.n → allreduce P lead (bankOf alternate j) j p = some (progs j p)) {p : Nat}
    (hpn : p < P.n) : ((List.range N).flatMap fun j => progs j p).flatMap (Instr.acts P.n p) =
      code (P.seq f0 fs lead alternate N) p := by
  induction N with
  | zero => rfl
  | succ N ih =>
    rw [List.range_succ, List.flatMap_append, List.flatMap_append, ih fun j hj => hp j (by omega), Par.seq, code_append]
    congr 1
    obtain ⟨pr, h1, h2⟩ := h.program lead (bankOf alternate N) N hpn
    rw [hp N (by omega) p hpn] at h1
    injection h1 with h1
    subst h1
    rw [← h2]
    simp

end ExtMpi.OnNode
