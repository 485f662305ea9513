import Verif.Lemmas.OnNodeGroup
/-! The programs of the processes have the same shape. -/
namespace ExtMpi.OnNode
open Schedule

/-- Accesses of an instruction. -/
def Instr.elems (p : Nat) : Instr → List Elem
  | .copy red d s size => (List.range size).map fun i => ⟨red, d.cell p i, s.cell p i⟩
  | _ => []

def Instr.isCopy : Instr → Bool
  | .copy _ _ _ _ => true
  | _ => false

theorem acts_of_copies {n p : Nat} {l : List Instr} (h : ∀ i ∈ l, i.isCopy = true) :
    l.flatMap (Instr.acts n p) = (l.flatMap (Instr.elems p)).map Elem.act := by
  rw [List.map_flatMap]
  apply List.flatMap_congr
  intro i hi
  cases i with
  | copy red d s size => simp [Instr.acts, Instr.elems, Elem.act, Function.comp_def]
  | set _ _ => exact absurd (h _ hi) (by simp [Instr.isCopy])
  | wait _ _ => exact absurd (h _ hi) (by simp [Instr.isCopy])
  | barrier _ => exact absurd (h _ hi) (by simp [Instr.isCopy])

theorem code_append (A B : Skel) (p : Nat) : code (A ++ B) p = code A p ++ code B p := by
  simp [code]

theorem code_dis (b K : Nat) (W : Nat → Nat → Nat) (p : Nat) :
    code (dis b K W) p = (List.range K).flatMap fun k => [Act.set b p, Act.wait b (W k p : Nat)] := by
  simp [code, dis, List.flatMap_map, Item.acts]

theorem acts_setWait (n p b : Nat) {ranks : List Int} (h : rankAt ranks 0 = p) (w : Int) :
    (setWait b ranks w).flatMap (Instr.acts n p) = [.set b p, .wait b w] := by
  simp [setWait, h, Instr.acts]

theorem acts_busyRounds (n p b busy : Nat) {ranks : List Int} (h : rankAt ranks 0 = p) :
    (busyRounds b busy ranks).flatMap (Instr.acts n p) =
      (List.range (Nat.clog 2 busy)).flatMap fun k => [Act.set b p, Act.wait b (rankAt ranks (2 ^ k % busy))] := by
  unfold busyRounds
  rw [List.flatMap_assoc]
  exact List.flatMap_congr fun k _ => acts_setWait n p b h _

theorem acts_idleRounds (n p b num : Nat) {ranks : List Int} (h : rankAt ranks 0 = p) :
    (idleRounds b num ranks).flatMap (Instr.acts n p) =
      (List.range num).flatMap fun _ => [Act.set b p, Act.wait b (p : Nat)] := by
  unfold idleRounds
  rw [List.flatMap_assoc]
  refine List.flatMap_congr fun k _ => ?_
  rw [acts_setWait n p b h, h]

/-- Facts about the group of a process that make its rounds a part of a common skeleton. -/
def GroupOk (n : Nat) (g : Nat × List Int) (p : Nat) : Prop :=
  rankAt g.2 0 = p ∧ ∀ k, k < Nat.clog 2 g.1 → ∃ r, r < n ∧ rankAt g.2 (2 ^ k % g.1) = ((r : Nat) : Int)

theorem code_rounds (n p b K : Nat) (g : Nat → Nat × List Int) (h : GroupOk n (g p) p) (hK : Nat.clog 2 (g p).1 ≤ K) :
    (busyRounds b (g p).1 (g p).2 ++ idleRounds b (K - Nat.clog 2 (g p).1) (g p).2).flatMap (Instr.acts n p) =
      code (dis b K (roundW g)) p := by
  rw [List.flatMap_append, acts_busyRounds n p b _ h.1, acts_idleRounds n p b _ h.1, code_dis]
  obtain ⟨d, rfl⟩ := Nat.exists_eq_add_of_le hK
  rw [List.range_add, List.flatMap_append, List.flatMap_map, Nat.add_sub_cancel_left]
  congr 1
  · apply List.flatMap_congr
    intro k hk
    rw [List.mem_range] at hk
    obtain ⟨r, _, hr⟩ := h.2 k hk
    simp only [roundW, hk, if_true]
    rw [hr]; simp
  · apply List.flatMap_congr
    intro k _
    simp [roundW]

theorem roundW_lt {n p k : Nat} {g : Nat → Nat × List Int} (h : GroupOk n (g p) p) (hp : p < n) : roundW g k p < n := by
  unfold roundW
  split
  · rename_i hk
    obtain ⟨r, hr, he⟩ := h.2 k hk
    rw [he]; simpa using hr
  · exact hp

theorem Partners.append {n : Nat} {A B : Skel} (hA : Partners n A) (hB : Partners n B) : Partners n (A ++ B) := by
  intro b w hm p hp
  rcases List.mem_append.1 hm with h | h
  · exact hA b w h p hp
  · exact hB b w h p hp

theorem partners_dis {n b K : Nat} {W : Nat → Nat → Nat} (h : ∀ k p, p < n → W k p < n) : Partners n (dis b K W) := by
  intro b w hm p hp
  simp only [dis, List.mem_map] at hm
  obtain ⟨k, _, hk⟩ := hm
  injection hk with _ hw
  rw [← hw]; exact h k p hp

theorem partners_ops {n : Nat} (f : Nat → List Elem) : Partners n [.ops f] := by
  intro b w hm
  simp at hm

/-! ### Barrier of the whole node -/

def nodeW (n k p : Nat) : Nat := (p + 2 ^ k) % n

theorem code_barrier (n b p : Nat) : Instr.acts n p (.barrier b) = code (dis b (Nat.clog 2 n) (nodeW n)) p := by
  rw [code_dis]; rfl

theorem R_node {n : Nat} (A : Skel) (b : Nat) {r p : Nat} (hr : r < n) (hp : p < n) :
    R n (A ++ dis b (Nat.clog 2 n) (nodeW n)) r A.length p (A.length + Nat.clog 2 n) := by
  apply R_dis A b _ (nodeW n) (List.range n) (by simp) (by simp)
  · intro k i _ hi
    rw [List.length_range] at hi ⊢
    rw [List.getElem?_range (Nat.mod_lt _ (by omega)), List.getElem_range]
    rfl
  · simpa using hr
  · simpa using hp

/-- `lead` barriers of the whole node. -/
def leadSk (n b lead : Nat) : Skel := (List.range lead).flatMap fun _ => dis b (Nat.clog 2 n) (nodeW n)

theorem code_lead (n b lead p : Nat) :
    (List.replicate lead (Instr.barrier b)).flatMap (Instr.acts n p) = code (leadSk n b lead) p := by
  induction lead with
  | zero => rfl
  | succ l ih =>
    rw [List.replicate_succ', List.flatMap_append, ih, leadSk, leadSk, List.range_succ, List.flatMap_append,
      code_append]
    simp [code_barrier]

theorem quiet_lead (n b lead : Nat) : Quiet (leadSk n b lead) := by
  intro I hI p
  simp only [leadSk, List.mem_flatMap] at hI
  obtain ⟨_, _, h⟩ := hI
  exact quiet_dis _ _ _ I h p

theorem partners_lead {n b lead : Nat} (hn : 0 < n) : Partners n (leadSk n b lead) := by
  intro b' w hm
  simp only [leadSk, List.mem_flatMap] at hm
  obtain ⟨_, _, h⟩ := hm
  exact partners_dis (fun k p _ => Nat.mod_lt _ hn) b' w h

/-! ### Copy-in -/

/-- What is fixed for an execution. -/
structure Ctx where
  /-- processes -/
  n : Nat
  /-- processes that reduce the instances -/
  s : Nat
  ts : Nat
  u : Nat
  len : Nat
  f0 : Nat
  b : Nat
  kk : Nat
  fast : Bool
  pl : Place
  sz : Nat → Nat
  blk : Block
  σ : Nat → Nat

/-- Column `x` of instance `inst`. -/
def Ctx.cell (C : Ctx) (inst x : Nat) : Cell := Addr.cell ⟨C.pl.reg, inst * C.pl.stride + C.pl.base⟩ 0 x

structure Ctx.Ok (C : Ctx) : Prop where
  s_pos : 0 < C.s
  s_le : C.s ≤ C.n
  len_pos : 0 < C.len
  u_pos : 0 < C.u
  u_dvd : C.u ∣ C.len
  unit : C.u = 1 ∨ C.len * C.ts < cacheLine
  f0_pos : 0 < C.f0
  f0_dvd : C.f0 ∣ C.n
  reg : C.pl.reg = .shm C.b ∨ C.pl.reg = .fast C.b
  stride : C.len ≤ C.pl.stride
  place : C.fast = false → C.pl.stride = C.len ∧ C.pl.base = 0
  line : ∀ p start red al sl, al + sl ≤ C.len →
    (∀ i ∈ ringSlice C.kk C.pl.reg start red C.sz C.len al sl 0 C.blk, i.isCopy = true) ∧
    (ringSlice C.kk C.pl.reg start red C.sz C.len al sl 0 C.blk).flatMap (Instr.elems p) =
      (List.range sl).map fun e => ⟨red, Addr.cell ⟨C.pl.reg, start⟩ p (al + e), .send p C.kk (C.σ (al + e))⟩

theorem Ctx.Ok.cell_eq {C : Ctx} (h : C.Ok) (o p i : Nat) :
    Addr.cell ⟨C.pl.reg, o⟩ p i = Addr.cell ⟨C.pl.reg, o⟩ 0 i := by
  rcases h.reg with hr | hr <;> simp [Addr.cell, hr]

theorem Ctx.Ok.cell_off {C : Ctx} (h : C.Ok) (o a i : Nat) :
    Addr.cell ⟨C.pl.reg, o + a⟩ 0 i = Addr.cell ⟨C.pl.reg, o⟩ 0 (a + i) := by
  rcases h.reg with hr | hr <;> simp [Addr.cell, hr] <;> omega

theorem Ctx.Ok.cell_inj {C : Ctx} (h : C.Ok) {o i o' i' : Nat}
    (he : Addr.cell ⟨C.pl.reg, o⟩ 0 i = Addr.cell ⟨C.pl.reg, o'⟩ 0 i') : o + i = o' + i' := by
  rcases h.reg with hr | hr <;> simp [Addr.cell, hr] at he <;> exact he

theorem Ctx.Ok.n_pos {C : Ctx} (h : C.Ok) : 0 < C.n := Nat.lt_of_lt_of_le h.s_pos h.s_le

def Ctx.vec (C : Ctx) (h : C.Ok) : Vec where
  cell := C.cell
  len := C.len
  inj := by
    intro i x i' x' hx hx' he
    have := h.cell_inj he
    have hs := h.stride
    have e : i * C.pl.stride + x = i' * C.pl.stride + x' := by omega
    have h1 : (i * C.pl.stride + x) / C.pl.stride = i := by
      rw [Nat.mul_comm, Nat.mul_add_div (by omega), Nat.div_eq_of_lt (by omega), Nat.add_zero]
    have h2 : (i' * C.pl.stride + x') / C.pl.stride = i' := by
      rw [Nat.mul_comm, Nat.mul_add_div (by omega), Nat.div_eq_of_lt (by omega), Nat.add_zero]
    have hi : i = i' := by rw [← h1, ← h2, e]
    subst hi
    exact ⟨rfl, by omega⟩
  nsend := by
    intro i x p k y he
    rcases h.reg with hr | hr <;> simp [Ctx.cell, Addr.cell, hr] at he
  nrecv := by
    intro i x p k y he
    rcases h.reg with hr | hr <;> simp [Ctx.cell, Addr.cell, hr] at he

/-- Part of the vector that process `p` works on in iteration `i` of the ring. -/
def Ctx.ringPart (C : Ctx) (i p : Nat) : Nat × Nat :=
  cut C.len C.u C.f0 ((2 * C.f0 - 1 + p % C.f0 - i) % C.f0)

def Ctx.ringOps (C : Ctx) (i p : Nat) : List Elem :=
  (List.range (C.ringPart i p).2).map fun e =>
    ⟨i ≠ 0, C.cell (p / C.f0) ((C.ringPart i p).1 + e), .send p C.kk (C.σ ((C.ringPart i p).1 + e))⟩

def Ctx.pred (C : Ctx) (p : Nat) : Nat := p / C.f0 * C.f0 + (C.f0 - 1 + p % C.f0) % C.f0

def Ctx.ringSk (C : Ctx) (A : Skel) : Nat → Skel
  | 0 => A ++ [] ++ [.ops (C.ringOps 0)]
  | m + 1 => C.ringSk A m ++ [.sync C.b C.pred] ++ [.ops (C.ringOps (m + 1))]

theorem Ctx.Ok.ranks_length {C : Ctx} (h : C.Ok) (p : Nat) : (ringRanks C.n C.f0 p).length = C.f0 := by
  unfold ringRanks
  have := Nat.mod_eq_zero_of_dvd h.f0_dvd
  simp [this]

theorem Ctx.Ok.ranks_get {C : Ctx} (h : C.Ok) (p : Nat) {m : Nat} (hm : m < C.f0) :
    rankAt (ringRanks C.n C.f0 p) m = ((p / C.f0 * C.f0 + (m + p % C.f0) % C.f0 : Nat) : Int) := by
  rw [rankAt_of_lt (by rw [h.ranks_length]; exact hm)]
  have := Nat.mod_eq_zero_of_dvd h.f0_dvd
  simp [ringRanks, this]

theorem Ctx.Ok.ranks_zero {C : Ctx} (h : C.Ok) (p : Nat) : rankAt (ringRanks C.n C.f0 p) 0 = p := by
  rw [h.ranks_get p h.f0_pos, Nat.zero_add, Nat.mod_mod]
  have := Nat.div_add_mod p C.f0
  rw [Nat.mul_comm] at this
  rw [this]

theorem Ctx.Ok.pred_lt {C : Ctx} (h : C.Ok) {p : Nat} (hp : p < C.n) (m : Nat) :
    p / C.f0 * C.f0 + m % C.f0 < C.n := by
  have e := Nat.div_add_mod p C.f0
  rw [Nat.mul_comm] at e
  exact block_lt (r := p % C.f0) h.f0_dvd (by rw [e]; exact hp) _ (Nat.mod_lt _ h.f0_pos)

theorem Ctx.Ok.code_ringOps {C : Ctx} (h : C.Ok) (i p : Nat) :
    (ringSlice C.kk C.pl.reg (p / C.f0 * C.pl.stride + C.pl.base) (i ≠ 0) C.sz C.len (C.ringPart i p).1
      (C.ringPart i p).2 0 C.blk).flatMap (Instr.acts C.n p) = code [.ops (C.ringOps i)] p := by
  have hl := h.line p (p / C.f0 * C.pl.stride + C.pl.base) (i ≠ 0) (C.ringPart i p).1 (C.ringPart i p).2
    (cut_le h.f0_pos (Nat.mod_lt _ h.f0_pos))
  rw [acts_of_copies hl.1, hl.2]
  simp only [code, List.flatMap_cons, List.flatMap_nil, List.append_nil, Item.acts, Ctx.ringOps, Ctx.cell, h.cell_eq _ p]

theorem Ctx.Ok.code_ring {C : Ctx} (h : C.Ok) (p : Nat) (A : Skel) (a : List Act) (hA : code A p = a) {m : Nat}
    (hm : m < C.f0) :
    code (C.ringSk A m) p = a ++ ((List.range (m + 1)).flatMap fun i =>
      ringSlice C.kk C.pl.reg (p / C.f0 * C.pl.stride + C.pl.base) (i ≠ 0) C.sz C.len (C.ringPart i p).1
        (C.ringPart i p).2 0 C.blk ++
      (if i < m then setWait C.b (ringRanks C.n C.f0 p) (rankAt (ringRanks C.n C.f0 p) (C.f0 - 1)) else [])).flatMap
        (Instr.acts C.n p) := by
  induction m with
  | zero =>
    rw [Ctx.ringSk, code_append, code_append, hA, ← h.code_ringOps]
    simp [code]
  | succ m ih =>
    rw [Ctx.ringSk, code_append, code_append, ih (by omega), ← h.code_ringOps, List.append_assoc, List.append_assoc]
    congr 1
    rw [List.range_succ (n := m + 1), List.flatMap_append, List.flatMap_append]
    have e1 : ∀ (G : Nat → List Instr) (S : List Instr),
        (List.range (m + 1)).flatMap (fun i => G i ++ if i < m + 1 then S else []) =
          (List.range (m + 1)).flatMap (fun i => G i ++ if i < m then S else []) ++ S := by
      intro G S
      rw [List.range_succ, List.flatMap_append, List.flatMap_append, List.append_assoc]
      congr 1
      · apply List.flatMap_congr
        intro i hi
        rw [List.mem_range] at hi
        simp [hi, Nat.lt_succ_of_lt hi]
      · simp
    rw [e1, List.flatMap_append, List.append_assoc]
    congr 1
    rw [acts_setWait _ _ _ (h.ranks_zero p), h.ranks_get p (show C.f0 - 1 < C.f0 by have := h.f0_pos; omega)]
    simp [code, Item.acts, Ctx.pred]

/-- Group of the ring. -/
def Ctx.ringGrp (C : Ctx) (p : Nat) : Nat × List Int := (C.f0, ringRanks C.n C.f0 p)

theorem Ctx.Ok.ringGrp_ok {C : Ctx} (h : C.Ok) {p : Nat} (hp : p < C.n) : GroupOk C.n (C.ringGrp p) p := by
  refine ⟨h.ranks_zero p, fun k _ => ?_⟩
  simp only [Ctx.ringGrp]
  rw [h.ranks_get p (Nat.mod_lt _ h.f0_pos)]
  exact ⟨_, h.pred_lt hp _, rfl⟩

/-- Skeleton of `reduce_copyin`. -/
def Ctx.copyinSk (C : Ctx) (A : Skel) : Skel :=
  C.ringSk A (C.f0 - 1) ++ dis C.b (Nat.clog 2 C.f0) (roundW C.ringGrp) ++ [.ops fun _ => []]

theorem Ctx.Ok.code_copyin {C : Ctx} (h : C.Ok) {p : Nat} (hp : p < C.n) (A : Skel) :
    code (C.copyinSk A) p = code A p ++
      (reduceCopyin C.b C.kk C.pl C.sz C.len C.u C.f0 (ringRanks C.n C.f0 p).length (ringRanks C.n C.f0 p) C.blk
        p).flatMap (Instr.acts C.n p) := by
  rw [h.ranks_length]
  unfold Ctx.copyinSk reduceCopyin
  have hf := h.f0_pos
  rw [code_append, code_append, h.code_ring p A _ rfl (show C.f0 - 1 < C.f0 by omega),
    List.flatMap_append, ← List.append_assoc, show code [Item.ops fun _ => []] p = [] from rfl, List.append_nil,
    show C.f0 - 1 + 1 = C.f0 by omega]
  congr 1
  · congr 2
    apply List.flatMap_congr
    intro i _
    congr 1
    by_cases hi : i + 1 < C.f0
    · rw [if_pos hi, if_pos (by omega)]
    · rw [if_neg hi, if_neg (by omega)]
  · have := code_rounds C.n p C.b (Nat.clog 2 C.f0) C.ringGrp (h.ringGrp_ok hp) (Nat.le_refl _)
    rw [← this]
    unfold localBarrierFinal
    rw [if_pos (by exact_mod_cast hf)]
    simp [Ctx.ringGrp, idleRounds]

/-! ### Reduction of the instances -/

def Ctx.stepOps (C : Ctx) (v gb f : Nat) (new : Nat → Seg) (p : Nat) : List Elem :=
  (stepReduce C.fast C.pl v C.len C.f0 gb f (new (ownIndex v new p)) p).flatMap (Instr.elems p)

def Ctx.new (C : Ctx) (gb f : Nat) (lay : Nat → Seg) : Nat → Seg := relayout C.ts C.u C.s C.len gb f lay

def Ctx.treeSk (C : Ctx) (v : Nat) (A : Skel) : Nat → (Nat → Seg) → List Nat → Skel × (Nat → Seg)
  | _, lay, [] => (A, lay)
  | gb, lay, f :: fs =>
    C.treeSk v (A ++ dis C.b (Nat.clog 2 f) (roundW (grp v C.s (C.new gb f lay) f)) ++
      [.ops (C.stepOps v gb f (C.new gb f lay))]) (gb * f) (C.new gb f lay) fs

end ExtMpi.OnNode
