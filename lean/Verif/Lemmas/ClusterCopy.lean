import Verif.Lemmas.OnNodeSeq
/-! The copy-in of a node without the copy-out. -/
namespace ExtMpi.OnNode
open Schedule

/-- The skeleton of a copy-in and the reduction of the instances. -/
def Ctx.csk (C : Ctx) (sub : Bool) (v : Nat) (fs : List Nat) (A : Skel) : Skel :=
  let t := C.treeSk v A C.f0 (layout1 C.ts C.u C.s C.len C.f0) fs
  t.1 ++ finSk sub C.n C.b (finalBusy v t.2)

theorem Ctx.sk_eq (C : Ctx) (sub : Bool) (v : Nat) (fs : List Nat) (A : Skel) :
    C.sk sub v fs A = C.csk sub v fs A ++ [.ops C.outOps] := rfl

/-- Facts about the skeleton of a copy-in. -/
structure CopyOk {X : Type} [AddCommMonoid X] (C : Ctx) (v : Nat) (S : Skel) : Prop where
  partners : Partners C.n S
  race : RaceFree C.n S
  shape : ∀ q, q < C.n → ∀ (i : Nat) (I : Item) (e : Elem), S[i]? = some I → e ∈ I.elems q →
    (∃ inst x, e.dst = C.cell inst x) ∧ ((∃ inst x, e.src = C.cell inst x) ∨ ∃ y, e.src = .send q C.kk y)
  ne : ∀ q, q < C.n → ∀ (i : Nat) (I : Item) (e : Elem), S[i]? = some I → e ∈ I.elems q → e.dst ≠ e.src
  done : ∀ p q, p < C.n → q < C.n → ∀ (i : Nat) (I : Item) (e : Elem), S[i]? = some I → e ∈ I.elems q →
    R C.n S q (i + 1) p S.length
  sum : ∀ m : Cell → X, (∀ inst x, C.n ≤ inst * C.f0 → inst * C.f0 < v → x < C.len → m (C.cell inst x) = 0) →
    ∀ e, e < C.len → lockstep C.n S m (C.cell 0 e) = ∑ q ∈ Finset.range C.n, m (.send q C.kk (C.σ e))
  frame : ∀ m : Cell → X, (∀ inst x, C.n ≤ inst * C.f0 → inst * C.f0 < v → x < C.len → m (C.cell inst x) = 0) →
    ∀ c, C.Outside c → lockstep C.n S m c = m c

theorem Ctx.Ok.copyOk {X : Type} [AddCommMonoid X] {C : Ctx} (hC : C.Ok) {l : Nat} {A' : Skel}
    {v : Nat} (hS : C.Start X hC v l A') (sub : Bool) {fs : List Nat} (hfs : 0 ∉ fs)
    (hprod : C.f0 * fs.prod = v) (hn : C.s ≤ v)
    (hv : v = C.s ∨ C.len * C.ts < cacheLine) : CopyOk (X := X) C v (C.csk sub v fs A') := by
  obtain ⟨α, β, hS⟩ := hS
  have hv0 : 0 < v := by have := hC.s_pos; omega
  obtain ⟨w0, _, h0⟩ := hS (fun _ => 0) (fun _ _ _ _ _ => rfl)
  obtain ⟨sl, idx, h⟩ := h0.all hfs hprod hn hv
  unfold Ctx.csk
  simp only
  generalize hT : C.treeSk v A' C.f0 (layout1 C.ts C.u C.s C.len C.f0) fs = T at *
  have hFs := finalBusy_ok h.lay h.slices hC.s_pos hC.len_pos hv
  have hF := hFs.mono hC.s_le
  have hRF : ∀ p q x, p < C.n → q < C.n → x < C.len → ∃ r, r < C.n ∧ β q / v = β r / v ∧
      (r < C.s ∧ In (sl (idx r % v)) x) ∧
      R C.n (T.1 ++ finSk sub C.n C.b (finalBusy v T.2)) r T.1.length p
        (T.1.length + (finSk sub C.n C.b (finalBusy v T.2)).length) := by
    intro p q x hp hq hx
    obtain ⟨r, hr, _, ho⟩ := own_exists (B := 0) h.lay h.slices hv0 (Nat.dvd_refl v) hn hv hx
      (by rw [Nat.zero_mul]; exact hC.s_pos)
    refine ⟨r, Nat.lt_of_lt_of_le hr hC.s_le, ?_, ⟨hr, ho⟩, hF.R _ _ _ (finalBusy_own h.lay hC.s_pos hr ho) hp⟩
    have := h.hβs q hq
    rw [h.hβ r hr, Nat.div_eq_of_lt (by omega), Nat.div_eq_of_lt (by omega)]
  have hlk : ∀ m : Cell → X, lockstep C.n (T.1 ++ finSk sub C.n C.b (finalBusy v T.2)) m = lockstep C.n T.1 m := by
    intro m
    rw [lockstep_append, lockstep_quiet _ (quiet_fin _ _ _ _)]
  refine ⟨h.partners.append (hF.partners hC.n_pos _ _), ?_, ?_, ?_, ?_, ?_, ?_⟩
  · apply raceFree_of_lt
    intro p q i j I J e f hp hq hpq hji hI hJ he hf hc
    obtain ⟨h1, _⟩ := get_append_quiet (quiet_fin _ _ _ _) hI he
    obtain ⟨h2, _⟩ := get_append_quiet (quiet_fin _ _ _ _) hJ hf
    exact (raceFree_lt h.stage.race hp hq hpq hji h1 h2 he hf hc).append _
  · intro q hq i I e hI he
    obtain ⟨h1, _⟩ := get_append_quiet (quiet_fin _ _ _ _) hI he
    obtain ⟨⟨i1, x1, _, _, hd⟩, hs⟩ := h.stage.shape q hq i I e h1 he
    refine ⟨⟨i1, x1, hd⟩, ?_⟩
    rcases hs with ⟨i2, x2, _, _, hs⟩ | hs
    · exact Or.inl ⟨i2, x2, hs⟩
    · exact Or.inr hs
  · intro q hq i I e hI he
    exact h.stage.ne q hq i I e (get_append_quiet (quiet_fin _ _ _ _) hI he).1 he
  · intro p q hp hq i I e hI he
    obtain ⟨h1, _⟩ := get_append_quiet (quiet_fin _ _ _ _) hI he
    obtain ⟨⟨i1, x1, hx1, _, hd⟩, _⟩ := h.stage.shape q hq i I e h1 he
    obtain ⟨r, hr, hb, ho, hR⟩ := hRF p q x1 hp hq hx1
    have := h.stage.know r q i i1 x1 hr hq hx1 ho hb ⟨I, e, h1, he, Or.inl hd⟩
    rw [List.length_append]
    exact .trans (this.append _) hR
  · intro m hz e he
    obtain ⟨w, hw, h1⟩ := hS m hz
    obtain ⟨sl', idx', h'⟩ := h1.all hfs hprod hn hv
    rw [hT] at h'
    rw [hlk, ← hw]
    have := h'.val 0 e (by omega) he
    rw [Nat.zero_mul] at this
    rw [this]
    apply Finset.sum_congr
    · ext q
      simp only [Finset.mem_filter, Finset.mem_range, and_iff_left_iff_imp]
      intro hq
      exact Nat.div_eq_of_lt (by omega)
    · intros; rfl
  · intro m hz c hc
    obtain ⟨w, hw, h1⟩ := hS m hz
    obtain ⟨sl', idx', h'⟩ := h1.all hfs hprod hn hv
    rw [hT] at h'
    rw [hlk]
    exact h'.frame c hc

/-! ### Parameters on several nodes -/

/-- What is fixed for the copy-in of a node among several: no small messages, message sizes `sz`, block 0 `blk`. -/
def Par.multi (P : Par) (f0 : Nat) (sz : Nat → Nat) (blk : Block) (σ : Nat → Nat) : Ctx where
  n := P.n
  s := P.s
  ts := P.ts
  u := 1
  len := P.len
  f0 := f0
  b := 0
  kk := 0
  fast := false
  pl := ⟨.shm 0, P.len, 0⟩
  sz := sz
  blk := blk
  σ := σ

/-- Element `x` of the vector is element `σ x` of the send buffer. -/
def LineOk (sz : Nat → Nat) (len : Nat) (blk : Block) (σ : Nat → Nat) : Prop :=
  ∀ p start red al sl, al + sl ≤ len →
    (∀ i ∈ ringSlice 0 (.shm 0) start red sz len al sl 0 blk, i.isCopy = true) ∧
    (ringSlice 0 (.shm 0) start red sz len al sl 0 blk).flatMap (Instr.elems p) =
      (List.range sl).map fun e => ⟨red, Addr.cell ⟨.shm 0, start⟩ p (al + e), .send p 0 (σ (al + e))⟩

/-- Parameters for which the programs work: first factor, other factors of the reductions of the instances. -/
structure Par.Multi (P : Par) (f0 : Nat) (fs : List Nat) : Prop where
  s_pos : 0 < P.s
  s_le : P.s ≤ P.n
  len_pos : 0 < P.len
  pos : 0 ∉ P.factors
  f0_pos : 0 < f0
  zero_fs : 0 ∉ fs
  dvd : f0 ∣ P.n
  le : ∀ f ∈ f0 :: fs, f ≤ P.s
  prod : f0 * fs.prod = P.s
  kind : (P.method ≠ 1 ∧ P.factors = f0 :: fs) ∨
    (P.method = 1 ∧ f0 = 1 ∧ P.n ≤ 2 * P.s ∧ P.s < P.n ∧ ∃ l, P.factors = (f0 :: fs) ++ [l])

theorem Par.Multi.n_pos {P : Par} {f0 : Nat} {fs : List Nat} (h : P.Multi f0 fs) : 0 < P.n :=
  Nat.lt_of_lt_of_le h.s_pos h.s_le

section
variable {P : Par} {f0 : Nat} {fs : List Nat} {sz : Nat → Nat} {blk : Block} {σ : Nat → Nat}

theorem Par.Multi.ctx_ok (h : P.Multi f0 fs) (hl : LineOk sz P.len blk σ) : (P.multi f0 sz blk σ).Ok where
  s_pos := h.s_pos
  s_le := h.s_le
  len_pos := h.len_pos
  u_pos := Nat.one_pos
  u_dvd := Nat.one_dvd _
  unit := Or.inl rfl
  f0_pos := h.f0_pos
  f0_dvd := h.dvd
  reg := Or.inl rfl
  stride := Nat.le_refl _
  place := fun _ => ⟨rfl, rfl⟩
  line := hl

/-- The skeleton of the copy-in. -/
def Par.multiSk (P : Par) (f0 : Nat) (fs : List Nat) (sz : Nat → Nat) (blk : Block) (σ : Nat → Nat) : Skel :=
  let C := P.multi f0 sz blk σ
  C.csk (P.method = 1) P.s fs (if P.method = 1 then C.halfSk (C.copyinSk (leadSk P.n 0 2)) else C.copyinSk (leadSk P.n 0 2))

theorem Par.Multi.start (h : P.Multi f0 fs) (hl : LineOk sz P.len blk σ) (X : Type) [AddCommMonoid X] :
    (P.multi f0 sz blk σ).Start X (h.ctx_ok hl) P.s (leadSk P.n 0 2).length
      (if P.method = 1 then (P.multi f0 sz blk σ).halfSk ((P.multi f0 sz blk σ).copyinSk (leadSk P.n 0 2))
        else (P.multi f0 sz blk σ).copyinSk (leadSk P.n 0 2)) := by
  have hq : Quiet (leadSk P.n 0 2) := quiet_lead _ _ _
  have hP : Partners (P.multi f0 sz blk σ).n (leadSk P.n 0 2) := partners_lead h.n_pos
  rcases h.kind with ⟨hm, hf⟩ | ⟨hm, hf, h2, hlt, _⟩
  · rw [if_neg hm]
    have hs : P.s = P.n := by unfold Par.s; rw [if_neg hm]
    exact start_plain (h.ctx_ok hl) hs hq hP ⟨_, h.prod.symm⟩ (by rw [hs]; exact Nat.le_refl _) (Or.inl hs)
  · rw [if_pos hm]
    exact start_half (h.ctx_ok hl) hf h2 hq hP

/-- The copy-in works. -/
theorem Par.Multi.copyOk (h : P.Multi f0 fs) (hl : LineOk sz P.len blk σ) (X : Type) [AddCommMonoid X] :
    CopyOk (X := X) (P.multi f0 sz blk σ) P.s (P.multiSk f0 fs sz blk σ) :=
  (h.ctx_ok hl).copyOk (h.start hl X) _ h.zero_fs h.prod (Nat.le_refl _) (Or.inl rfl)

/-- The program of the copy-in. -/
theorem Par.Multi.program (h : P.Multi f0 fs) (hl : LineOk sz P.len blk σ) {p : Nat} (hp : p < P.n) :
    ∃ pr, copyInWith false 1 ⟨.shm 0, P.len, 0⟩ P sz blk 0 0 p = some pr ∧
      (Instr.barrier 0 :: .barrier 0 :: pr).flatMap (Instr.acts P.n p) = code (P.multiSk f0 fs sz blk σ) p := by
  have hC := h.ctx_ok hl
  have hlead : code (leadSk P.n 0 2) p = [Instr.barrier 0, .barrier 0].flatMap (Instr.acts P.n p) := by
    rw [← code_lead]
    rfl
  obtain ⟨t, ht, hcode⟩ := hC.code_exec
    (if P.method = 1 then (P.multi f0 sz blk σ).halfSk ((P.multi f0 sz blk σ).copyinSk (leadSk P.n 0 2))
        else (P.multi f0 sz blk σ).copyinSk (leadSk P.n 0 2)) (P.method = 1)
    (fun hm => by
      have : P.method ≠ 1 := by simpa using hm
      show P.s = P.n
      unfold Par.s; rw [if_neg this])
    h.zero_fs h.prod (Nat.le_refl _) (Or.inl rfl) (h.start hl Nat) h.le hp
  have ht' : reduceCopies 0 false ⟨.shm 0, P.len, 0⟩ P.ts 1 P.s P.len (f0 :: fs) (P.method = 1) p = some t := ht
  have hcode' : code (P.multiSk f0 fs sz blk σ) p = code (if P.method = 1 then (P.multi f0 sz blk σ).halfSk ((P.multi f0 sz blk σ).copyinSk (leadSk P.n 0 2))
        else (P.multi f0 sz blk σ).copyinSk (leadSk P.n 0 2)) p ++ t.flatMap (Instr.acts P.n p) := by
    rw [Ctx.sk_eq, code_append] at hcode
    have : code [.ops (P.multi f0 sz blk σ).outOps] p = ((P.multi f0 sz blk σ).outOps p).map Elem.act := by
      simp [code, Item.acts]
    rw [this] at hcode
    exact List.append_cancel_right hcode
  have hci : code ((P.multi f0 sz blk σ).copyinSk (leadSk P.n 0 2)) p = _ := hC.code_copyin hp (leadSk P.n 0 2)
  rcases h.kind with ⟨hm, hf⟩ | ⟨hm, hf, h2, hlt, l, hl'⟩
  · have hs : P.s = P.n := by unfold Par.s; rw [if_neg hm]
    rw [hs] at ht'
    simp only [hm, decide_false] at ht'
    unfold copyInWith
    rw [hf]
    simp only
    rw [if_neg (by rintro (hc | hc); exact absurd hc Nat.one_ne_zero; exact h.pos (by rw [hf]; exact hc)), if_neg hm, ht']
    simp only [Option.map_some, Option.some.injEq, exists_eq_left']
    rw [hcode', if_neg hm, hci, hlead]
    simp only [List.flatMap_append, List.flatMap_cons, List.flatMap_nil, List.append_assoc, List.nil_append]
    rfl
  · have hs : P.s = 2 ^ Nat.clog 2 P.n / 2 := by unfold Par.s; rw [if_pos hm]
    simp only [hm, decide_true] at ht'
    have hdl : P.factors.dropLast = f0 :: fs := by rw [hl', List.dropLast_concat]
    have hl2 : P.factors = f0 :: (fs ++ [l]) := by rw [hl']; rfl
    have hlen : (ringRanks P.n f0 p).length = f0 := hC.ranks_length p
    have hh : code ((P.multi f0 sz blk σ).halfSk ((P.multi f0 sz blk σ).copyinSk (leadSk P.n 0 2))) p = _ :=
      code_half hC rfl h2 hlt hp _
    unfold copyInWith
    rw [hl2] at hdl ⊢
    simp only
    rw [if_neg (by rintro (hc | hc); exact absurd hc Nat.one_ne_zero; exact h.pos (by rw [hl2]; exact hc)), if_pos hm, hdl, ← hs, ht']
    simp only [Option.map_some, Option.some.injEq, exists_eq_left']
    rw [hcode', if_pos hm, hh, hci, hlead]
    simp only [List.flatMap_append, List.flatMap_cons, List.flatMap_nil, List.append_assoc, List.nil_append]
    show Instr.acts P.n p (.barrier 0) ++ (Instr.acts P.n p (.barrier 0) ++
      ((reduceCopyin 0 0 ⟨.shm 0, P.len, 0⟩ sz P.len 1 f0 f0 (ringRanks P.n f0 p) blk p).flatMap _ ++ _)) =
      _ ++ (_ ++ ((reduceCopyin 0 0 ⟨.shm 0, P.len, 0⟩ sz P.len 1 f0 (ringRanks P.n f0 p).length (ringRanks P.n f0 p) blk
        p).flatMap _ ++ _))
    rw [hlen]
    rfl

end

end ExtMpi.OnNode
