import Verif.Lemmas.OnNodeProg
import Mathlib.Algebra.BigOperators.Group.Finset.Sigma
/-! Order and result of the reduction of the instances. -/
namespace ExtMpi.OnNode
open Schedule

/-! ### Results of accesses -/

section
variable {X : Type} [AddCommMonoid X]

theorem runElems_at (es : List Elem) (h : ∀ e ∈ es, ∀ f ∈ es, e.src ≠ f.dst) (m : Cell → X) (c : Cell) :
    runElems es m c =
      (es.filter fun e => e.dst = c).foldl (fun a e => if e.red then a + m e.src else m e.src) (m c) := by
  induction es generalizing m with
  | nil => rfl
  | cons e es ih =>
    have h' := ih (fun a ha b hb => h a (by simp [ha]) b (by simp [hb])) (e.run m)
    show runElems es (e.run m) c = _
    rw [h']
    have hsrc : ∀ f ∈ es.filter (fun e => e.dst = c), (e.run m) f.src = m f.src := by
      intro f hf
      have := h f (by simp [(List.mem_filter.1 hf).1]) e (by simp)
      simp [Elem.run, accessed, this]
    have hfold : ∀ (l : List Elem) (a : X), (∀ f ∈ l, (e.run m) f.src = m f.src) →
        l.foldl (fun a f => if f.red then a + (e.run m) f.src else (e.run m) f.src) a =
          l.foldl (fun a f => if f.red then a + m f.src else m f.src) a := by
      intro l
      induction l with
      | nil => intros; rfl
      | cons f l ihl =>
        intro a hl
        simp only [List.foldl_cons]
        rw [hl f (by simp)]
        exact ihl _ fun g hg => hl g (by simp [hg])
    rw [hfold _ _ hsrc]
    by_cases hc : e.dst = c
    · rw [List.filter_cons_of_pos (by simpa using hc), List.foldl_cons]
      congr 1
      simp [Elem.run, accessed, hc]
    · rw [List.filter_cons_of_neg (by simpa using hc)]
      congr 1
      simp [Elem.run, accessed, Ne.symm hc]

theorem runElems_other (es : List Elem) (m : Cell → X) (c : Cell) (h : ∀ e ∈ es, e.dst ≠ c) : runElems es m c = m c := by
  induction es generalizing m with
  | nil => rfl
  | cons e es ih =>
    show runElems es (e.run m) c = _
    rw [ih _ fun f hf => h f (by simp [hf])]
    simp [Elem.run, accessed, Ne.symm (h e (by simp))]

theorem lockstep_append (n : Nat) (A B : Skel) (m : Cell → X) :
    lockstep n (A ++ B) m = lockstep n B (lockstep n A m) := by
  simp [lockstep, runElems_append]

theorem lockstep_quiet (n : Nat) {D : Skel} (h : Quiet D) (m : Cell → X) : lockstep n D m = m := by
  unfold lockstep
  have : (D.flatMap fun I => (List.range n).flatMap fun p => I.elems p) = [] := by
    rw [List.flatMap_eq_nil_iff]
    intro I hI
    rw [List.flatMap_eq_nil_iff]
    intro p _
    exact h I hI p
  rw [this]; rfl

theorem lockstep_ops (n : Nat) (f : Nat → List Elem) (m : Cell → X) :
    lockstep n [.ops f] m = runElems ((List.range n).flatMap f) m := by
  simp [lockstep, Item.elems]

theorem flatMap_single {α : Type} {n p : Nat} (hp : p < n) (f : Nat → List α) (h : ∀ q, q < n → q ≠ p → f q = []) :
    (List.range n).flatMap f = f p := by
  obtain ⟨d, rfl⟩ := Nat.exists_eq_add_of_le (show p + 1 ≤ n from hp)
  rw [List.range_add, List.range_succ, List.flatMap_append, List.flatMap_append, List.flatMap_map]
  have h1 : (List.range p).flatMap f = [] := by
    rw [List.flatMap_eq_nil_iff]
    intro q hq
    rw [List.mem_range] at hq
    exact h q (by omega) (by omega)
  have h2 : ((List.range d).flatMap fun x => f (p + 1 + x)) = [] := by
    rw [List.flatMap_eq_nil_iff]
    intro q hq
    rw [List.mem_range] at hq
    exact h _ (by omega) (by omega)
  rw [h1, h2]; simp

theorem foldl_red (l : List Elem) (m : Cell → X) (a : X) (h : ∀ e ∈ l, e.red = true) :
    l.foldl (fun a e => if e.red then a + m e.src else m e.src) a = a + (l.map fun e => m e.src).sum := by
  induction l generalizing a with
  | nil => simp
  | cons e l ih =>
    simp only [List.foldl_cons, List.map_cons, List.sum_cons, h e (by simp), if_true]
    rw [ih _ fun f hf => h f (by simp [hf]), add_assoc]

theorem sum_map_range (f : Nat → X) (k : Nat) : ((List.range k).map f).sum = ∑ i ∈ Finset.range k, f i := by
  induction k with
  | zero => simp
  | succ k ih => rw [List.range_succ, List.map_append, List.sum_append, ih, Finset.sum_range_succ]; simp

end

/-- The parts of a block. -/
theorem sum_block {X : Type} [AddCommMonoid X] (n gb f B : Nat) (hf : 0 < f) (F : Nat → X) :
    ∑ q ∈ (Finset.range n).filter (fun q => q / (gb * f) = B), F q =
      ∑ i ∈ Finset.range f, ∑ q ∈ (Finset.range n).filter (fun q => q / gb = B * f + i), F q := by
  rw [← Finset.sum_biUnion]
  · apply Finset.sum_congr
    · ext q
      simp only [Finset.mem_filter, Finset.mem_range, Finset.mem_biUnion]
      constructor
      · rintro ⟨hq, hB⟩
        refine ⟨q / gb % f, Nat.mod_lt _ hf, hq, ?_⟩
        rw [← hB, ← Nat.div_div_eq_div_mul]
        have := Nat.div_add_mod (q / gb) f
        rw [Nat.mul_comm] at this
        exact this.symm
      · rintro ⟨i, hi, hq, hB⟩
        refine ⟨hq, ?_⟩
        rw [← Nat.div_div_eq_div_mul, hB, Nat.mul_comm, Nat.mul_add_div hf, Nat.div_eq_of_lt hi, Nat.add_zero]
    · intros; rfl
  · intro i _ j _ hij
    rw [Function.onFun, Finset.disjoint_left]
    intro q hq hq'
    simp only [Finset.mem_filter] at hq hq'
    omega

/-! ### One step -/

section
variable {C : Ctx} {v gb M : Nat} {sl : Nat → Nat × Nat} {idx : Nat → Nat} {lay : Nat → Seg} {f : Nat}

/-- Accesses of process `p` in a step. -/
def Ctx.treeOps (C : Ctx) (gb M f : Nat) (sl : Nat → Nat × Nat) (idx : Nat → Nat) (p : Nat) : List Elem :=
  (List.range (f - 1)).flatMap fun i => (List.range (sl (idx p % (gb * f))).2).map fun e =>
    ⟨true, C.cell (p / (gb * f) * (M * f)) ((sl (idx p % (gb * f))).1 + e),
      C.cell (p / (gb * f) * (M * f) + (i + 1) * M) ((sl (idx p % (gb * f))).1 + e)⟩

theorem treeAddr_cell (hC : C.Ok) {B M st : Nat} (hst : st < C.len) (p e : Nat) :
    (treeAddr C.fast C.pl C.len C.f0 (B * (C.f0 * M) * C.len + st)).cell p e = C.cell (B * M) (st + e) := by
  have h1 : (B * (C.f0 * M) * C.len + st) % C.len = st := by
    rw [Nat.mul_comm _ C.len, Nat.mul_add_mod, Nat.mod_eq_of_lt hst]
  have h2 : (B * (C.f0 * M) * C.len + st) / C.len = B * (C.f0 * M) := by
    rw [Nat.mul_comm _ C.len, Nat.mul_add_div (by omega), Nat.div_eq_of_lt hst, Nat.add_zero]
  unfold treeAddr Ctx.cell
  rw [h1, h2, hC.cell_eq, ← hC.cell_off]
  congr 2
  cases hfast : C.fast with
  | true =>
    simp only [if_true]
    rw [show B * (C.f0 * M) = B * M * C.f0 by ring, Nat.mul_div_cancel _ hC.f0_pos]
    omega
  | false =>
    obtain ⟨hs, hb⟩ := hC.place hfast
    simp only [Bool.false_eq_true, if_false]
    rw [show B * (C.f0 * M) * C.len = B * M * C.len * C.f0 by ring, Nat.mul_div_cancel _ hC.f0_pos, hs, hb]
    omega

theorem stepOps_eq (hC : C.Ok) (h : Lay C.s v C.ts C.len gb sl idx lay) (hs : Slices C.ts C.len gb sl) (hg : 0 < gb)
    (hf : 0 < f) (hd : gb * f ∣ v) (hv : v = C.s ∨ C.len * C.ts < cacheLine) (hn : C.s ≤ v) (hM : gb = C.f0 * M)
    {p : Nat} (hp : p < C.s) :
    C.stepOps v gb f (C.new gb f lay) p =
      C.treeOps gb M f (slice C.ts C.u f sl) (fun p => shuffle gb f (idx p)) p := by
  have hl := Lay.next h hs (u := C.u) hg hf hd hv
  have hs' := Slices.next hs (u := C.u) hf hC.unit
  unfold Ctx.stepOps Ctx.new
  rw [hl.ownIndex hp]
  have hb : shuffle gb f (idx p) / (gb * f) = p / (gb * f) := hl.block p hp
  have hlt : shuffle gb f (idx p) / (gb * f) * (gb * f) < C.s := by
    rw [hb]; exact Nat.lt_of_le_of_lt (Nat.div_mul_le_self _ _) hp
  have hsz := hl.size _ (hl.idx_lt p hp) hlt
  have hoff := hl.offset _ (hl.idx_lt p hp) hlt
  have hmod : shuffle gb f (idx p) % (gb * f) < gb * f := Nat.mod_lt _ (Nat.mul_pos hg hf)
  have hin := hs'.inside _ hmod
  unfold stepReduce Ctx.treeOps
  simp only [hsz]
  by_cases h0 : (slice C.ts C.u f sl (shuffle gb f (idx p) % (gb * f))).2 = 0
  · rw [if_pos (Or.inl h0), h0]
    simp
  · rw [if_neg (by rintro (h | h) <;> omega), List.flatMap_map]
    apply List.flatMap_congr
    intro i _
    simp only [Instr.elems]
    apply List.map_congr_left
    intro e he
    rw [List.mem_range] at he
    have hst : (slice C.ts C.u f sl (shuffle gb f (idx p) % (gb * f))).1 < C.len := by omega
    rw [hoff (by rw [hsz]; exact h0), hb]
    simp only [Int.toNat_natCast]
    have e1 : p / (gb * f) * (gb * f) * C.len = p / (gb * f) * (C.f0 * (M * f)) * C.len := by rw [hM]; ring
    have e2 : p / (gb * f) * (gb * f) * C.len + (slice C.ts C.u f sl (shuffle gb f (idx p) % (gb * f))).1 +
        (i + 1) * C.len * gb = 1 * (C.f0 * (p / (gb * f) * (M * f) + (i + 1) * M)) * C.len +
          (slice C.ts C.u f sl (shuffle gb f (idx p) % (gb * f))).1 := by
      rw [e1]; conv_lhs => rw [show (i + 1) * C.len * gb = (i + 1) * C.len * (C.f0 * M) by rw [hM]]
      ring
    rw [e2, e1, treeAddr_cell hC hst, treeAddr_cell hC hst, Nat.one_mul]

theorem stepOps_idle (C : Ctx) (v gb f : Nat) (new : Nat → Seg) {p : Nat} (hp : v ≤ p) : C.stepOps v gb f new p = [] := by
  unfold Ctx.stepOps stepReduce
  rw [if_pos (Or.inr hp)]
  rfl

/-! ### The invariant of the steps -/

/-- Cells outside of the used instances. -/
def Ctx.Outside (C : Ctx) (c : Cell) : Prop := ∀ inst x, x < C.len → inst * C.f0 < C.n → c ≠ C.cell inst x

/-- `β` gives the process that represents a process in the reduction of the instances, `α` likewise for the instances,
`w` the data of the representing processes. -/
structure TInv {X : Type} [AddCommMonoid X] (C : Ctx) (hC : C.Ok) (v : Nat) (α β : Nat → Nat) (w : Nat → Nat → X)
    (m : Cell → X) (L : Nat) (A : Skel)
    (gb M : Nat) (sl : Nat → Nat × Nat) (idx : Nat → Nat) (lay : Nat → Seg) : Prop where
  gb_eq : gb = C.f0 * M
  M_pos : 0 < M
  idle : C.s = C.n ∨ v = C.s
  hα : ∀ inst, inst * C.f0 < v → α inst = inst
  hβ : ∀ p, p < C.s → β p = p
  hβs : ∀ p, p < C.n → β p < C.s
  lay : Lay C.s v C.ts C.len gb sl idx lay
  slices : Slices C.ts C.len gb sl
  partners : Partners C.n A
  stage : Stage C.n (C.vec hC) C.kk A (fun q => β q / gb) (fun inst => α inst / M)
    fun p x => p < C.s ∧ In (sl (idx p % gb)) x
  entered : Entered C.n C.len A L (fun q => β q / gb) fun p x => p < C.s ∧ In (sl (idx p % gb)) x
  val : ∀ B x, B * gb < v → x < C.len → lockstep C.n A m (C.cell (B * M) x) =
    ∑ q ∈ (Finset.range C.s).filter (fun q => q / gb = B), w q x
  frame : ∀ c, C.Outside c → lockstep C.n A m c = m c

theorem grp_ok (hC : C.Ok) (h : Lay C.s v C.ts C.len gb sl idx lay) (hs : Slices C.ts C.len gb sl) (hg : 0 < gb)
    (hf : 0 < f) (hd : gb * f ∣ v) (hv : v = C.s ∨ C.len * C.ts < cacheLine) (p : Nat) :
    GroupOk C.n (grp v C.s (C.new gb f lay) f p) p ∧ Nat.clog 2 (grp v C.s (C.new gb f lay) f p).1 ≤ Nat.clog 2 f := by
  by_cases hp : p < C.s
  · obtain ⟨g1, g2, g3⟩ := grp_facts (u := C.u) h hs hg hf hd hv hp
    refine ⟨⟨g1, fun k hk => ?_⟩, g2⟩
    obtain ⟨r, hr, he⟩ := g3 k hk
    exact ⟨r, Nat.lt_of_lt_of_le hr hC.s_le, he⟩
  · have : grp v C.s (C.new gb f lay) f p = (0, [(p : Int)]) := by
      unfold grp busyGroup
      simp only
      rw [if_pos (by omega)]
    rw [this]
    exact ⟨⟨rfl, fun k hk => by simp at hk⟩, by simp⟩

theorem own_unique (h : Lay C.s v C.ts C.len gb sl idx lay) (hs : Slices C.ts C.len gb sl) (hg : 0 < gb) {p q x : Nat}
    (hp : p < C.s) (hq : q < C.s) (h1 : In (sl (idx p % gb)) x) (h2 : In (sl (idx q % gb)) x)
    (hb : q / gb = p / gb) : p = q := by
  have hm := hs.disj x _ _ (Nat.mod_lt _ hg) (Nat.mod_lt _ hg) h1 h2
  have hi : idx p = idx q := by
    rw [← Nat.div_add_mod (idx p) gb, ← Nat.div_add_mod (idx q) gb, hm, h.block p hp, h.block q hq, hb]
  have h3 := h.rank p hp
  have h4 := h.rank q hq
  rw [hi, h4] at h3
  exact_mod_cast h3.symm

theorem own_exists (h : Lay C.s v C.ts C.len gb sl idx lay) (hs : Slices C.ts C.len gb sl) (hg : 0 < gb) (hd : gb ∣ v)
    (hn : C.s ≤ v) (hv : v = C.s ∨ C.len * C.ts < cacheLine) {B x : Nat} (hx : x < C.len) (hB : B * gb < C.s) :
    ∃ p, p < C.s ∧ p / gb = B ∧ In (sl (idx p % gb)) x := by
  obtain ⟨y, hy, hin⟩ := hs.cover x hx
  have hmod : (B * gb + y) % gb = y := by rw [Nat.mul_comm, Nat.mul_add_mod, Nat.mod_eq_of_lt hy]
  have hdiv : (B * gb + y) / gb = B := by
    rw [Nat.mul_comm, Nat.mul_add_div hg, Nat.div_eq_of_lt hy, Nat.add_zero]
  have hlt : B * gb + y < v := block_lt (r := 0) hd (by omega) y hy
  have key : ∃ p, p < C.s ∧ idx p = B * gb + y := by
    rcases hv with hv | hv
    · exact h.full hv _ hlt
    · have h0 := hs.small hv y hy hin.ne
      subst h0
      exact ⟨B * gb, hB, h.base _ hB (Nat.mul_mod_left _ _)⟩
  obtain ⟨p, hp, he⟩ := key
  exact ⟨p, hp, by rw [← h.block p hp, he, hdiv], by rw [he, hmod]; exact hin⟩

theorem treeOps_mem {sl' : Nat → Nat × Nat} {idx' : Nat → Nat} {p : Nat} {e : Elem}
    (he : e ∈ C.treeOps gb M f sl' idx' p) :
    ∃ i x, i < f - 1 ∧ In (sl' (idx' p % (gb * f))) x ∧ e = ⟨true, C.cell (p / (gb * f) * (M * f)) x,
      C.cell (p / (gb * f) * (M * f) + (i + 1) * M) x⟩ := by
  simp only [Ctx.treeOps, List.mem_flatMap, List.mem_map, List.mem_range] at he
  obtain ⟨i, hi, k, hk, rfl⟩ := he
  exact ⟨i, _, hi, ⟨by omega, by omega⟩, rfl⟩

theorem TInv.next {X : Type} [AddCommMonoid X] {hC : C.Ok} {α β : Nat → Nat} {w : Nat → Nat → X}
    {m : Cell → X} {L : Nat} {A : Skel}
    (h : TInv C hC v α β w m L A gb M sl idx lay) (hf : 0 < f) (hd : gb * f ∣ v) (hn : C.s ≤ v)
    (hv : v = C.s ∨ C.len * C.ts < cacheLine) :
    TInv C hC v α β w m L (A ++ dis C.b (Nat.clog 2 f) (roundW (grp v C.s (C.new gb f lay) f)) ++
      [.ops (C.stepOps v gb f (C.new gb f lay))]) (gb * f) (M * f) (slice C.ts C.u f sl)
      (fun p => shuffle gb f (idx p)) (C.new gb f lay) := by
  have hg : 0 < gb := by rw [h.gb_eq]; exact Nat.mul_pos hC.f0_pos h.M_pos
  have hgf : 0 < gb * f := Nat.mul_pos hg hf
  have hl : Lay C.s v C.ts C.len (gb * f) (slice C.ts C.u f sl) (fun p => shuffle gb f (idx p)) (C.new gb f lay) :=
    Lay.next h.lay h.slices (u := C.u) hg hf hd hv
  have hs := Slices.next h.slices (u := C.u) hf hC.unit
  have hops : ∀ p, p < C.s → C.stepOps v gb f (C.new gb f lay) p =
      C.treeOps gb M f (slice C.ts C.u f sl) (fun p => shuffle gb f (idx p)) p := fun p hp =>
    stepOps_eq hC h.lay h.slices hg hf hd hv hn h.gb_eq hp
  have hidle : ∀ p, p < C.n → ¬ p < C.s → C.stepOps v gb f (C.new gb f lay) p = [] := by
    intro p hp hps
    rcases h.idle with hi | hi
    · omega
    · exact stepOps_idle C v gb f _ (by omega)
  have hR : ∀ p q x, p < C.n → q < C.n → x < C.len →
      (p < C.s ∧ In (slice C.ts C.u f sl (shuffle gb f (idx p) % (gb * f))) x) → β q / (gb * f) = β p / (gb * f) →
      ∃ r, r < C.n ∧ β q / gb = β r / gb ∧ (r < C.s ∧ In (sl (idx r % gb)) x) ∧
        R C.n (A ++ dis C.b (Nat.clog 2 f) (roundW (grp v C.s (C.new gb f lay) f))) r A.length p
          (A.length + (dis C.b (Nat.clog 2 f) (roundW (grp v C.s (C.new gb f lay) f))).length) := by
    intro p q x hp hq _ ho hb
    rw [dis_length]
    rw [h.hβ p ho.1] at hb
    obtain ⟨r, hr, h1, h2, h3⟩ := grp_R (u := C.u) h.lay h.slices hg hf hd hv A C.b ho.1 (h.hβs q hq) ho.2 hb
    refine ⟨r, Nat.lt_of_lt_of_le hr hC.s_le, ?_, ⟨hr, h2⟩, h3.mono_n hC.s_le⟩
    rw [h.hβ r hr, h1]
  have hlen : ∀ p x, p < C.s → In (slice C.ts C.u f sl (shuffle gb f (idx p) % (gb * f))) x → x < C.len := by
    intro p x _ hin
    have := hs.inside _ (Nat.mod_lt (shuffle gb f (idx p)) hgf)
    unfold In at hin
    omega
  have hMf : 0 < M * f := Nat.mul_pos h.M_pos hf
  have hdivM : ∀ B i, i + 1 < f → (B * (M * f) + (i + 1) * M) / (M * f) = B := by
    intro B i hi
    rw [Nat.mul_comm, Nat.mul_add_div hMf, Nat.div_eq_of_lt, Nat.add_zero]
    rw [Nat.mul_comm M f]
    exact Nat.mul_lt_mul_of_pos_right hi h.M_pos
  have hinst : ∀ p i, p < C.s → i < f → (p / (gb * f) * (M * f) + i * M) * C.f0 < v := by
    intro p i hp hi
    have h1 : p / (gb * f) * (gb * f) + 0 < v := by
      have := Nat.div_mul_le_self p (gb * f)
      omega
    have := block_lt hd h1 (i * gb) (by rw [Nat.mul_comm gb f]; exact Nat.mul_lt_mul_of_pos_right hi hg)
    calc (p / (gb * f) * (M * f) + i * M) * C.f0 = p / (gb * f) * (gb * f) + i * gb := by rw [h.gb_eq]; ring
      _ < v := this
  have hflat : (List.range C.n).flatMap (C.stepOps v gb f (C.new gb f lay)) =
      (List.range C.s).flatMap (C.treeOps gb M f (slice C.ts C.u f sl) (fun p => shuffle gb f (idx p))) := by
    obtain ⟨d, hd'⟩ := Nat.exists_eq_add_of_le hC.s_le
    rw [hd', List.range_add, List.flatMap_append, List.flatMap_map]
    have : ((List.range d).flatMap fun x => C.stepOps v gb f (C.new gb f lay) (C.s + x)) = [] := by
      rw [List.flatMap_eq_nil_iff]
      intro x hx
      rw [List.mem_range] at hx
      exact hidle _ (by omega) (by omega)
    rw [this, List.append_nil]
    exact List.flatMap_congr fun p hp => hops p (List.mem_range.1 hp)
  refine ⟨by rw [h.gb_eq]; ring, hMf, h.idle, h.hα, h.hβ, h.hβs, hl, hs, ?_, ?_, ?_, ?_, ?_⟩
  · refine (h.partners.append (partners_dis fun k p hp => ?_)).append (partners_ops _)
    exact roundW_lt (grp_ok hC h.lay h.slices hg hf hd hv p).1 hp
  · refine Stage.next h.stage (quiet_dis _ _ _) hR ?_ ?_ ?_
    · intro p e hp he
      have hps : p < C.s := by
        by_contra hc
        rw [hidle p hp hc] at he
        simp at he
      rw [hops p hps] at he
      obtain ⟨i, x, hi, hin, rfl⟩ := treeOps_mem he
      have hi0 := hinst p 0 hps hf
      rw [Nat.zero_mul, Nat.add_zero] at hi0
      refine ⟨_, x, hlen p x hps hin, ⟨hps, hin⟩, ?_, rfl, Or.inl ⟨_, ?_, ?_, rfl⟩⟩
      · rw [h.hα _ hi0, h.hβ p hps]
        exact Nat.mul_div_cancel _ hMf
      · have : 0 < (i + 1) * M := Nat.mul_pos (Nat.succ_pos i) h.M_pos
        omega
      · rw [h.hα _ (hinst p (i + 1) hps (by omega)), h.hβ p hps]
        exact hdivM _ i (by omega)
    · intro inst q hiq
      rw [← Nat.div_div_eq_div_mul, ← Nat.div_div_eq_div_mul, hiq]
    · intro p q x hp hq _ h1 h2 hb
      rw [h.hβ p h1.1, h.hβ q h2.1] at hb
      exact own_unique hl hs hgf h1.1 h2.1 h1.2 h2.2 hb
  · exact Entered.next h.entered hR
  · intro B x hB hx
    rw [lockstep_append, lockstep_append, lockstep_quiet _ (quiet_dis _ _ _), lockstep_ops]
    rw [hflat]
    have hmem : ∀ e ∈ (List.range C.s).flatMap
        (C.treeOps gb M f (slice C.ts C.u f sl) (fun p => shuffle gb f (idx p))), ∃ p i x, p < C.s ∧ i < f - 1 ∧
        x < C.len ∧ In (slice C.ts C.u f sl (shuffle gb f (idx p) % (gb * f))) x ∧
        e = ⟨true, C.cell (p / (gb * f) * (M * f)) x, C.cell (p / (gb * f) * (M * f) + (i + 1) * M) x⟩ := by
      intro e he
      simp only [List.mem_flatMap, List.mem_range] at he
      obtain ⟨p, hp, he⟩ := he
      obtain ⟨i, y, hi, hin, rfl⟩ := treeOps_mem he
      exact ⟨p, i, y, hp, hi, hlen p y hp hin, hin, rfl⟩
    have hbf : ∀ i, i < f → (B * f + i) * gb < v := by
      intro i hi
      have := block_lt (G := gb * f) (i := B) (r := 0) hd (by simpa using hB) (i * gb) (by
        rw [Nat.mul_comm gb f]; exact Nat.mul_lt_mul_of_pos_right hi hg)
      calc (B * f + i) * gb = B * (gb * f) + i * gb := by ring
        _ < v := this
    have hval : ∀ i, i < f → lockstep C.n A m (C.cell (B * (M * f) + i * M) x) =
        ∑ q ∈ (Finset.range C.s).filter (fun q => q / gb = B * f + i), w q x := by
      intro i hi
      rw [← h.val (B * f + i) x (hbf i hi) hx]
      congr 2
      ring
    rw [sum_block C.s gb f B hf]
    have hf1 : f = (f - 1) + 1 := by omega
    have hsum : ∀ F : Nat → X, ∑ i ∈ Finset.range f, F i = F 0 + ∑ i ∈ Finset.range (f - 1), F (i + 1) := by
      intro F
      conv_lhs => rw [hf1]
      rw [Finset.sum_range_succ', add_comm]
    rw [hsum, ← hval 0 hf, Nat.zero_mul, Nat.add_zero]
    by_cases hBn : B * (gb * f) < C.s
    · -- the owner adds the other parts
      obtain ⟨p, hp, hpB, hin⟩ := own_exists hl hs hgf hd hn hv hx hBn
      rw [runElems_at]
      · have hfil : ((List.range C.s).flatMap
            (C.treeOps gb M f (slice C.ts C.u f sl) (fun p => shuffle gb f (idx p)))).filter
            (fun e => e.dst = C.cell (B * (M * f)) x) =
            (List.range (f - 1)).map fun i => ⟨true, C.cell (B * (M * f)) x, C.cell (B * (M * f) + (i + 1) * M) x⟩ := by
          rw [List.filter_flatMap, flatMap_single hp]
          · simp only [Ctx.treeOps, hpB]
            rw [List.filter_flatMap]
            have : ∀ (α : Type) (g : Nat → α) (k : Nat), (List.range k).map g = (List.range k).flatMap fun i => [g i] := by
              intro α g k; induction k with
              | zero => rfl
              | succ k ih => simp [List.range_succ, ih]
            rw [this]
            apply List.flatMap_congr
            intro i _
            unfold In at hin
            obtain ⟨h1, h2⟩ := hin
            rw [this, List.filter_flatMap, flatMap_single (p := x - (slice C.ts C.u f sl (shuffle gb f (idx p) % (gb * f))).1)
              (by omega)]
            · have : (slice C.ts C.u f sl (shuffle gb f (idx p) % (gb * f))).1 +
                  (x - (slice C.ts C.u f sl (shuffle gb f (idx p) % (gb * f))).1) = x := by omega
              rw [this]
              simp
            · intro e he hne
              have hin2 := hs.inside _ (Nat.mod_lt (shuffle gb f (idx p)) hgf)
              rw [List.filter_eq_nil_iff]
              intro a ha
              simp only [List.mem_singleton] at ha
              subst ha
              simp only [decide_eq_true_eq]
              intro hc
              have := (C.vec hC).inj _ _ _ _ (show _ < C.len by omega) hx hc
              omega
          · intro q hq hqp
            rw [List.filter_eq_nil_iff]
            intro e he
            obtain ⟨i, y, hi, hin', rfl⟩ := treeOps_mem he
            simp only [decide_eq_true_eq]
            intro hc
            obtain ⟨hc1, hc2⟩ := (C.vec hC).inj _ _ _ _ (hlen q y hq hin') hx hc
            have hqB : q / (gb * f) = B := Nat.eq_of_mul_eq_mul_right hMf hc1
            subst hc2
            exact hqp (own_unique hl hs hgf hp hq hin hin' (by rw [hqB, hpB])).symm
        rw [hfil, foldl_red, List.map_map]
        · congr 1
          have : ((fun e : Elem => lockstep C.n A m e.src) ∘ fun i =>
              (⟨true, C.cell (B * (M * f)) x, C.cell (B * (M * f) + (i + 1) * M) x⟩ : Elem)) =
              fun i => lockstep C.n A m (C.cell (B * (M * f) + (i + 1) * M) x) := rfl
          rw [this, sum_map_range]
          apply Finset.sum_congr rfl
          intro i hi
          rw [Finset.mem_range] at hi
          exact hval (i + 1) (by omega)
        · intro e he
          simp only [List.mem_map] at he
          obtain ⟨i, _, rfl⟩ := he
          rfl
      · intro e he e' he' hc
        obtain ⟨p1, i1, x1, hp1, hi1, hx1, _, rfl⟩ := hmem e he
        obtain ⟨p2, i2, x2, hp2, hi2, hx2, _, rfl⟩ := hmem e' he'
        obtain ⟨hc1, _⟩ := (C.vec hC).inj _ _ _ _ hx1 hx2 hc
        have hm1 : (p1 / (gb * f) * (M * f) + (i1 + 1) * M) % (M * f) = (i1 + 1) * M := by
          rw [Nat.mul_comm _ (M * f), Nat.mul_add_mod, Nat.mod_eq_of_lt]
          rw [Nat.mul_comm M f]
          exact Nat.mul_lt_mul_of_pos_right (by omega) h.M_pos
        rw [hc1, Nat.mul_mod_left] at hm1
        have := Nat.mul_pos (show 0 < i1 + 1 by omega) h.M_pos
        omega
    · -- no process in this block
      rw [runElems_other]
      · have hz : ∀ i, ∑ q ∈ (Finset.range C.s).filter (fun q => q / gb = B * f + i), w q x = 0 := by
          intro i
          apply Finset.sum_eq_zero
          intro q hq
          exfalso
          simp only [Finset.mem_filter, Finset.mem_range] at hq
          have h1 := Nat.div_mul_le_self q gb
          rw [hq.2] at h1
          have h2 : B * (gb * f) ≤ (B * f + i) * gb := by
            calc B * (gb * f) = B * f * gb := by ring
              _ ≤ (B * f + i) * gb := Nat.mul_le_mul_right _ (by omega)
          omega
        simp only [hz, Finset.sum_const_zero, add_zero]
      · intro e he hc
        obtain ⟨p1, i1, x1, hp1, hi1, hx1, _, rfl⟩ := hmem e he
        obtain ⟨hc1, _⟩ := (C.vec hC).inj _ _ _ _ hx1 hx hc
        have hqB : p1 / (gb * f) = B := Nat.eq_of_mul_eq_mul_right hMf hc1
        have := Nat.div_mul_le_self p1 (gb * f)
        rw [hqB] at this
        omega
  · intro c hc
    rw [lockstep_append, lockstep_append, lockstep_quiet _ (quiet_dis _ _ _), lockstep_ops, runElems_other]
    · exact h.frame c hc
    · intro e he hec
      rw [hflat] at he
      simp only [List.mem_flatMap, List.mem_range] at he
      obtain ⟨p, hp, he⟩ := he
      obtain ⟨i, x, hi, hin, rfl⟩ := treeOps_mem he
      refine hc _ x (hlen p x hp hin) ?_ hec.symm
      have h1 := Nat.div_mul_le_self p (gb * f)
      calc p / (gb * f) * (M * f) * C.f0 = p / (gb * f) * (gb * f) := by rw [h.gb_eq]; ring
        _ ≤ p := h1
        _ < C.n := Nat.lt_of_lt_of_le hp hC.s_le

/-- All steps. -/
theorem TInv.all {X : Type} [AddCommMonoid X] {hC : C.Ok} {α β : Nat → Nat} {w : Nat → Nat → X}
    {m : Cell → X} {L : Nat} {A : Skel} {fs : List Nat}
    (h : TInv C hC v α β w m L A gb M sl idx lay) (hfs : 0 ∉ fs) (hprod : gb * fs.prod = v) (hn : C.s ≤ v)
    (hv : v = C.s ∨ C.len * C.ts < cacheLine) :
    ∃ sl' idx', TInv C hC v α β w m L (C.treeSk v A gb lay fs).1 v (M * fs.prod) sl' idx' (C.treeSk v A gb lay fs).2 := by
  induction fs generalizing A gb M sl idx lay with
  | nil =>
    simp only [List.prod_nil, Nat.mul_one] at hprod ⊢
    subst hprod
    exact ⟨sl, idx, h⟩
  | cons f fs ih =>
    rw [List.prod_cons, ← Nat.mul_assoc] at hprod
    have hf : 0 < f := by
      rcases Nat.eq_zero_or_pos f with h0 | h0
      · exact absurd (by simp [h0]) hfs
      · exact h0
    have := ih (h.next hf ⟨fs.prod, hprod.symm⟩ hn hv) (fun h => hfs (by simp [h])) hprod
    rw [List.prod_cons, ← Nat.mul_assoc]
    exact this

theorem code_tree {p : Nat} (hC : C.Ok) {A : Skel} {fs : List Nat} (hg : 0 < gb) (hp : p < C.n)
    (h : Lay C.s v C.ts C.len gb sl idx lay) (hs : Slices C.ts C.len gb sl) (hfs : 0 ∉ fs)
    (hprod : gb * fs.prod = v) (hv : v = C.s ∨ C.len * C.ts < cacheLine) :
    code (C.treeSk v A gb lay fs).1 p = code A p ++
      (treeSteps C.b C.fast C.pl C.ts C.u v C.s C.len C.f0 p gb lay fs).1.flatMap (Instr.acts C.n p) ∧
    (C.treeSk v A gb lay fs).2 = (treeSteps C.b C.fast C.pl C.ts C.u v C.s C.len C.f0 p gb lay fs).2 := by
  induction fs generalizing A gb sl idx lay with
  | nil => simp [Ctx.treeSk, treeSteps]
  | cons f fs ih =>
    rw [List.prod_cons, ← Nat.mul_assoc] at hprod
    have hf : 0 < f := by
      rcases Nat.eq_zero_or_pos f with h0 | h0
      · exact absurd (by simp [h0]) hfs
      · exact h0
    have hd : gb * f ∣ v := ⟨fs.prod, hprod.symm⟩
    have hl : Lay C.s v C.ts C.len (gb * f) (slice C.ts C.u f sl) (fun p => shuffle gb f (idx p)) (C.new gb f lay) :=
      Lay.next h hs (u := C.u) hg hf hd hv
    obtain ⟨i1, i2⟩ := ih (A := A ++ dis C.b (Nat.clog 2 f) (roundW (grp v C.s (C.new gb f lay) f)) ++
      [.ops (C.stepOps v gb f (C.new gb f lay))]) (Nat.mul_pos hg hf) hl (Slices.next hs (u := C.u) hf hC.unit)
      (fun h => hfs (by simp [h])) hprod
    refine ⟨?_, by rw [Ctx.treeSk, i2]; rfl⟩
    rw [Ctx.treeSk, i1, code_append, code_append, List.append_assoc, List.append_assoc]
    congr 1
    simp only [treeSteps]
    rw [List.flatMap_append, List.flatMap_append, List.append_assoc]
    have hgf := grp_ok hC h hs hg hf hd hv p
    congr 1
    · rw [← code_rounds C.n p C.b _ _ hgf.1 hgf.2]
      rfl
    · congr 1
      rw [acts_of_copies]
      · simp [code, Item.acts, Ctx.stepOps, Ctx.new]
      · intro i hi
        unfold stepReduce at hi
        split at hi
        · simp at hi
        · simp only [List.mem_map] at hi
          obtain ⟨_, _, rfl⟩ := hi
          rfl

end

end ExtMpi.OnNode
