import Verif.Lemmas.OnNodeHalf
/-! The whole program of a node. -/
namespace ExtMpi.OnNode
open Schedule

section
variable {n v ts len : Nat} {sl : Nat → Nat × Nat} {idx : Nat → Nat} {lay : Nat → Seg}

/-- Facts about the processes with a part at the end. -/
structure Busy (n : Nat) (F : List Int) : Prop where
  rank : ∀ r ∈ F, ∃ p, p < n ∧ r = (p : Int)
  nodup : F.Nodup
  zero : (0 : Int) ∈ F

theorem Lay.size_last (h : Lay n v ts len v sl idx lay) (hn : 0 < n) {x : Nat} (hx : x < v) :
    (lay x).size = (sl x).2 := by
  have := h.size x hx (by rw [Nat.div_eq_of_lt hx]; omega)
  rwa [Nat.mod_eq_of_lt hx] at this

theorem finalBusy_ok (h : Lay n v ts len v sl idx lay) (hs : Slices ts len v sl) (hn : 0 < n) (hl : 0 < len)
    (hv : v = n ∨ len * ts < cacheLine) : Busy n (finalBusy v lay) := by
  have h0 := h.base 0 hn (Nat.zero_mod _)
  have hv0 : 0 < v := by have := h.idx_lt 0 hn; omega
  have hrank : ∀ x, x < v → (sl x).2 ≠ 0 → ∃ p, p < n ∧ (lay x).rank = (p : Int) := by
    intro x hx hsz
    rcases hv with hv | hv
    · obtain ⟨p, hp, rfl⟩ := h.full hv x hx
      exact ⟨p, hp, h.rank p hp⟩
    · have := hs.small hv x hx hsz
      subst this
      refine ⟨0, hn, ?_⟩
      have := h.rank 0 hn
      rwa [h0] at this
  refine ⟨?_, ?_, ?_⟩
  · intro r hr
    simp only [finalBusy, List.mem_map, List.mem_filter, List.mem_range, bne_iff_ne, ne_eq] at hr
    obtain ⟨x, ⟨hx, hsz⟩, rfl⟩ := hr
    rw [h.size_last hn hx] at hsz
    exact hrank x hx hsz
  · unfold finalBusy
    refine List.Nodup.map_on ?_ (List.nodup_range.filter _)
    intro x hx y hy hxy
    simp only [List.mem_filter, List.mem_range, bne_iff_ne, ne_eq] at hx hy
    rw [h.size_last hn hx.1] at hx
    obtain ⟨p, hp, hpx⟩ := hrank x hx.1 hx.2
    rw [h.uniq x p hx.1 hp hpx, h.uniq y p hy.1 hp (by rw [← hxy, hpx])]
  · simp only [finalBusy, List.mem_map, List.mem_filter, List.mem_range, bne_iff_ne, ne_eq]
    refine ⟨0, ⟨hv0, ?_⟩, ?_⟩
    · rw [h.size_last hn hv0]; exact hs.zero hl
    · have := h.rank 0 hn
      rwa [h0] at this

theorem finalBusy_own (h : Lay n v ts len v sl idx lay) (hn : 0 < n) {p x : Nat} (hp : p < n)
    (ho : In (sl (idx p % v)) x) : (p : Int) ∈ finalBusy v lay := by
  have hi := h.idx_lt p hp
  rw [Nat.mod_eq_of_lt hi] at ho
  simp only [finalBusy, List.mem_map, List.mem_filter, List.mem_range, bne_iff_ne, ne_eq]
  exact ⟨idx p, ⟨hi, by rw [h.size_last hn hi]; exact ho.ne⟩, h.rank p hp⟩

end

theorem Busy.sub {n : Nat} {F : List Int} (h : Busy n F) : F ⊆ (List.range n).map fun p : Nat => (p : Int) := by
  intro r hr
  obtain ⟨p, hp, rfl⟩ := h.rank r hr
  simp only [List.mem_map, List.mem_range]
  exact ⟨p, hp, rfl⟩

theorem Busy.le {n : Nat} {F : List Int} (h : Busy n F) : F.length ≤ n := by
  have := (h.nodup.subperm h.sub).length_le
  simpa using this

theorem Busy.all {n : Nat} {F : List Int} (h : Busy n F) (he : F.length = n) {p : Nat} (hp : p < n) : (p : Int) ∈ F := by
  have hs := h.nodup.subperm h.sub
  have := hs.perm_of_length_le (by simp [he])
  rw [this.mem_iff]
  simp only [List.mem_map, List.mem_range]
  exact ⟨p, hp, rfl⟩

theorem Busy.mono {n n' : Nat} {F : List Int} (h : Busy n F) (hn : n ≤ n') : Busy n' F :=
  ⟨fun r hr => let ⟨p, hp, e⟩ := h.rank r hr; ⟨p, Nat.lt_of_lt_of_le hp hn, e⟩, h.nodup, h.zero⟩

/-- Group of the final barrier. -/
def finGrp (F : List Int) (p : Nat) : Nat × List Int :=
  if (p : Int) ∈ F then (F.length, F.rotate (F.idxOf (p : Int))) else (0, [(p : Int)])

def finSk (sub : Bool) (n b : Nat) (F : List Int) : Skel :=
  if F.length = n ∧ sub = false then dis b (Nat.clog 2 n) (nodeW n)
  else dis b (Nat.clog 2 F.length) (roundW (finGrp F)) ++ [.sync b fun _ => 0]

theorem Busy.grp_ok {n : Nat} {F : List Int} (h : Busy n F) (p : Nat) : GroupOk n (finGrp F p) p := by
  unfold finGrp
  split
  · rename_i hp
    have hi : F.idxOf (p : Int) < F.length := List.idxOf_lt_length_iff.2 hp
    have hl : 0 < F.length := by omega
    have hrot : ∀ m, rankAt (F.rotate (F.idxOf (p : Int))) (m % F.length) =
        F[(F.idxOf (p : Int) + m) % F.length]'(Nat.mod_lt _ hl) := by
      intro m
      rw [rankAt_rotate hl, rankAt_of_lt]
    refine ⟨?_, ?_⟩
    · have := hrot 0
      rw [Nat.zero_mod] at this
      simp only
      rw [this]
      simp only [Nat.add_zero, Nat.mod_eq_of_lt hi]
      exact List.getElem_idxOf hi
    · intro k _
      simp only
      rw [hrot]
      exact h.rank _ (List.getElem_mem _)
  · exact ⟨rfl, fun k hk => by simp at hk⟩

theorem Busy.code {n : Nat} {F : List Int} (h : Busy n F) (sub : Bool) {s : Nat} (hs : sub = false → s = n) (b : Nat)
    {p : Nat} (hp : p < n) : (finalBarrier b s sub F p).flatMap (Instr.acts n p) = code (finSk sub n b F) p := by
  have hpos : 0 < F.length := List.length_pos_of_mem h.zero
  unfold finalBarrier finSk
  by_cases he : F.length = n ∧ sub = false
  · rw [if_pos (h.all he.1 hp), if_pos ⟨by rw [hs he.2, he.1], by rw [he.2]; rfl⟩, if_pos he]
    simp [code_barrier]
  · rw [if_neg he, code_append]
    have hsync : ([Instr.set b p, .wait b 0]).flatMap (Instr.acts n p) = OnNode.code [.sync b fun _ => 0] p := by
      simp [OnNode.code, Item.acts, Instr.acts]
    by_cases hpF : (p : Int) ∈ F
    · rw [if_pos hpF, if_neg (by
          rintro ⟨h1, h2⟩
          have h3 : sub = false := by simpa using h2
          exact he ⟨by rw [← h1, hs h3], h3⟩), List.flatMap_append, hsync]
      congr 1
      have hg : finGrp F p = (F.length, F.rotate (F.idxOf (p : Int))) := by unfold finGrp; rw [if_pos hpF]
      have := code_rounds n p b (Nat.clog 2 F.length) (finGrp F) (h.grp_ok p) (by rw [hg])
      rw [← this, hg]
      unfold localBarrierFinal
      rw [if_pos (by exact_mod_cast hpos)]
      simp [idleRounds]
    · rw [if_neg hpF, List.flatMap_append, hsync]
      congr 1
      have hg : finGrp F p = (0, [(p : Int)]) := by unfold finGrp; rw [if_neg hpF]
      have := code_rounds n p b (Nat.clog 2 F.length) (finGrp F) (h.grp_ok p) (by rw [hg]; simp)
      rw [← this, hg]
      unfold localBarrierFinal
      rw [if_neg (by omega)]
      simp [busyRounds]

theorem quiet_fin (sub : Bool) (n b : Nat) (F : List Int) : Quiet (finSk sub n b F) := by
  unfold finSk
  split
  · exact quiet_dis _ _ _
  · refine (quiet_dis _ _ _).append ?_
    intro I hI p
    simp only [List.mem_singleton] at hI
    subst hI; rfl

theorem Busy.partners {n : Nat} {F : List Int} (h : Busy n F) (hn : 0 < n) (sub : Bool) (b : Nat) : Partners n (finSk sub n b F) := by
  unfold finSk
  split
  · exact partners_dis fun k p _ => Nat.mod_lt _ hn
  · refine (partners_dis fun k p hp => roundW_lt (h.grp_ok p) hp).append ?_
    intro b w hm p _
    simp only [List.mem_singleton] at hm
    injection hm with _ hw
    subst hw; exact hn

theorem Busy.R {n : Nat} {F : List Int} (h : Busy n F) (A : Skel) (sub : Bool) (b : Nat) {r p : Nat} (hr : (r : Int) ∈ F) (hp : p < n) :
    OnNode.R n (A ++ finSk sub n b F) r A.length p (A.length + (finSk sub n b F).length) := by
  unfold finSk
  split
  · obtain ⟨q, hq, e⟩ := h.rank _ hr
    have : r = q := by exact_mod_cast e
    subst this
    rw [dis_length]
    exact R_node A b hq hp
  · have h1 : OnNode.R n (A ++ dis b (Nat.clog 2 F.length) (roundW (finGrp F))) r A.length 0
        (A.length + Nat.clog 2 F.length) := by
      refine R_round A b _ (finGrp F) F h.rank (Nat.le_refl _) ?_ hr h.zero
      intro i q hq
      have hi := (List.getElem?_eq_some_iff.1 hq)
      unfold finGrp
      rw [if_pos (List.mem_of_getElem? hq)]
      congr 2
      rw [← hi.2]
      exact h.nodup.idxOf_getElem i hi.1
    have h2 : OnNode.R n ((A ++ dis b (Nat.clog 2 F.length) (roundW (finGrp F))) ++ [.sync b fun _ => 0]) 0
        (A.length + Nat.clog 2 F.length) p (A.length + Nat.clog 2 F.length + 1) := by
      refine OnNode.R.sync (b := b) (w := fun _ => 0) ?_ hp
      rw [List.getElem?_append_right (by simp [dis_length])]
      simp [dis_length]
    rw [← List.append_assoc]
    refine (R.trans (h1.append _) h2).mono (Nat.le_refl _) ?_
    simp [dis_length]
    omega

/-! ### One execution -/

def Ctx.outOps (C : Ctx) (p : Nat) : List Elem :=
  (List.range C.len).map fun e => ⟨false, .recv p C.kk e, C.cell 0 e⟩

/-- The skeleton of an execution, after the skeleton `A` of the copy-in. -/
def Ctx.sk (C : Ctx) (sub : Bool) (v : Nat) (fs : List Nat) (A : Skel) : Skel :=
  let t := C.treeSk v A C.f0 (layout1 C.ts C.u C.s C.len C.f0) fs
  t.1 ++ finSk sub C.n C.b (finalBusy v t.2) ++ [.ops C.outOps]

/-- What the copy-in achieves. -/
def Ctx.Start (X : Type) [AddCommMonoid X] (C : Ctx) (hC : C.Ok) (v l : Nat) (A : Skel) : Prop :=
  ∃ α β, ∀ m : Cell → X, (∀ inst x, C.n ≤ inst * C.f0 → inst * C.f0 < v → x < C.len → m (C.cell inst x) = 0) →
    ∃ w : Nat → Nat → X,
      (∀ x, ∑ r ∈ Finset.range C.s, w r x = ∑ q ∈ Finset.range C.n, m (.send q C.kk (C.σ x))) ∧
      TInv C hC v α β w m l A C.f0 1 (slice C.ts C.u C.f0 (fun _ => (0, C.len))) (fun p => shuffle 1 C.f0 p)
        (layout1 C.ts C.u C.s C.len C.f0)

theorem start_plain {X : Type} [AddCommMonoid X] {C : Ctx} (hC : C.Ok) (hsn : C.s = C.n) {A : Skel} (hA : Quiet A)
    (hP : Partners C.n A) {v : Nat} (hd : C.f0 ∣ v) (hn : C.n ≤ v) (hv : v = C.n ∨ C.len * C.ts < cacheLine) :
    C.Start X hC v A.length (C.copyinSk A) :=
  ⟨_, _, fun m hz => ⟨_, fun _ => by rw [hsn], tinv_start hC hsn m hA hP hd hn hv hz⟩⟩

theorem start_half {X : Type} [AddCommMonoid X] {C : Ctx} (hC : C.Ok) (hf : C.f0 = 1) (h2 : C.n ≤ 2 * C.s) {A : Skel}
    (hA : Quiet A) (hP : Partners C.n A) : C.Start X hC C.s A.length (C.halfSk (C.copyinSk A)) :=
  ⟨_, _, fun m _ => ⟨_, fun x => sum_halfData hC m x, tinv_half hC hf h2 m hA hP⟩⟩

theorem ringSk_prefix (C : Ctx) (A : Skel) (i : Nat) : ∃ B, C.ringSk A i = A ++ B := by
  induction i with
  | zero => exact ⟨_, by rw [Ctx.ringSk, List.append_assoc]⟩
  | succ i ih =>
    obtain ⟨B, hB⟩ := ih
    exact ⟨_, by rw [Ctx.ringSk, hB, List.append_assoc, List.append_assoc]⟩

theorem copyinSk_prefix (C : Ctx) (A : Skel) : ∃ B, C.copyinSk A = A ++ B := by
  obtain ⟨B, hB⟩ := ringSk_prefix C A (C.f0 - 1)
  exact ⟨_, by rw [Ctx.copyinSk, hB, List.append_assoc, List.append_assoc]⟩

theorem halfSk_prefix (C : Ctx) (A : Skel) : ∃ B, C.halfSk A = A ++ B :=
  ⟨_, by rw [Ctx.halfSk, List.append_assoc, List.append_assoc, List.append_assoc]⟩

theorem treeSk_prefix (C : Ctx) (v : Nat) (fs : List Nat) (A : Skel) (gb : Nat) (lay : Nat → Seg) :
    ∃ B, (C.treeSk v A gb lay fs).1 = A ++ B := by
  induction fs generalizing A gb lay with
  | nil => exact ⟨[], by simp [Ctx.treeSk]⟩
  | cons f fs ih =>
    obtain ⟨B, hB⟩ := ih (A ++ dis C.b (Nat.clog 2 f) (roundW (grp v C.s (C.new gb f lay) f)) ++
      [.ops (C.stepOps v gb f (C.new gb f lay))]) (gb * f) (C.new gb f lay)
    exact ⟨_, by rw [Ctx.treeSk, hB, List.append_assoc, List.append_assoc]⟩

theorem sk_prefix (C : Ctx) (sub : Bool) (v : Nat) (fs : List Nat) (A : Skel) : ∃ B, C.sk sub v fs A = A ++ B := by
  obtain ⟨B, hB⟩ := treeSk_prefix C v fs A C.f0 (layout1 C.ts C.u C.s C.len C.f0)
  exact ⟨_, by unfold Ctx.sk; simp only; rw [hB, List.append_assoc, List.append_assoc]⟩

/-- An access of process `q` to its own buffers or to the instances. -/
def Ctx.Local (C : Ctx) (q : Nat) (e : Elem) : Prop :=
  ((∃ inst x, e.dst = C.cell inst x) ∨ ∃ y, e.dst = .recv q C.kk y) ∧
  ((∃ inst x, e.src = C.cell inst x) ∨ ∃ y, e.src = .send q C.kk y)

/-- Facts about the skeleton of an execution. -/
structure ExecOk {X : Type} [AddCommMonoid X] (C : Ctx) (v l : Nat) (S : Skel) : Prop where
  partners : Partners C.n S
  race : RaceFree C.n S
  local_ : ∀ q, q < C.n → ∀ (i : Nat) (I : Item) (e : Elem), S[i]? = some I → e ∈ I.elems q → C.Local q e ∧ l ≤ i
  know : ∀ p q, p < C.n → q < C.n → R C.n S q l p S.length
  sum : ∀ m : Cell → X, (∀ inst x, C.n ≤ inst * C.f0 → inst * C.f0 < v → x < C.len → m (C.cell inst x) = 0) →
    ∀ p e, p < C.n → e < C.len → lockstep C.n S m (.recv p C.kk e) = ∑ q ∈ Finset.range C.n, m (.send q C.kk (C.σ e))
  frame : ∀ m : Cell → X, (∀ inst x, C.n ≤ inst * C.f0 → inst * C.f0 < v → x < C.len → m (C.cell inst x) = 0) →
    ∀ c, C.Outside c → (∀ p e, p < C.n → e < C.len → c ≠ .recv p C.kk e) → lockstep C.n S m c = m c

theorem outOps_run {X : Type} [AddCommMonoid X] {C : Ctx} (hC : C.Ok) (m : Cell → X) :
    (∀ p e, p < C.n → e < C.len →
      runElems ((List.range C.n).flatMap C.outOps) m (.recv p C.kk e) = m (C.cell 0 e)) ∧
    ∀ c, (∀ p e, p < C.n → e < C.len → c ≠ .recv p C.kk e) → runElems ((List.range C.n).flatMap C.outOps) m c = m c := by
  have hmem : ∀ e ∈ (List.range C.n).flatMap C.outOps, ∃ p x, p < C.n ∧ x < C.len ∧
      e = ⟨false, .recv p C.kk x, C.cell 0 x⟩ := by
    intro e he
    simp only [List.mem_flatMap, List.mem_range, Ctx.outOps, List.mem_map] at he
    obtain ⟨p, hp, x, hx, rfl⟩ := he
    exact ⟨p, x, hp, hx, rfl⟩
  refine ⟨?_, ?_⟩
  · intro p e hp he
    rw [runElems_at]
    · have : ((List.range C.n).flatMap C.outOps).filter (fun a => a.dst = .recv p C.kk e) =
          [⟨false, .recv p C.kk e, C.cell 0 e⟩] := by
        rw [List.filter_flatMap, flatMap_single hp]
        · unfold Ctx.outOps
          have := map_range_single (fun x => (⟨false, .recv p C.kk x, C.cell 0 x⟩ : Elem))
            (fun a => a.dst = .recv p C.kk e) (a := 0) (sz := C.len) (x := e) (by omega) (by omega) (by simp)
            (by intro y _ _ hy; simp [hy])
          simpa using this
        · intro q _ hq
          rw [List.filter_eq_nil_iff]
          intro a ha
          simp only [Ctx.outOps, List.mem_map, List.mem_range] at ha
          obtain ⟨x, _, rfl⟩ := ha
          simp [hq]
      rw [this]
      rfl
    · intro a ha a' ha' hc
      obtain ⟨_, x, _, _, rfl⟩ := hmem a ha
      obtain ⟨q, y, _, _, rfl⟩ := hmem a' ha'
      exact (C.vec hC).nrecv _ _ _ _ _ hc
  · intro c hc
    apply runElems_other
    intro a ha he
    obtain ⟨p, x, hp, hx, rfl⟩ := hmem a ha
    exact hc p x hp hx he.symm

theorem Ctx.Ok.exec {X : Type} [AddCommMonoid X] {C : Ctx} (hC : C.Ok) {A A' : Skel} (hA : Quiet A)
    (hA' : ∃ B, A' = A ++ B) {v : Nat} (hS : C.Start X hC v A.length A') (sub : Bool) {fs : List Nat} (hfs : 0 ∉ fs)
    (hprod : C.f0 * fs.prod = v) (hn : C.s ≤ v)
    (hv : v = C.s ∨ C.len * C.ts < cacheLine) : ExecOk (X := X) C v A.length (C.sk sub v fs A') := by
  obtain ⟨α, β, hS⟩ := hS
  have hv0 : 0 < v := by have := hC.s_pos; omega
  -- the order does not depend on the data
  obtain ⟨w0, _, h0⟩ := hS (fun _ => 0) (fun _ _ _ _ _ => rfl)
  obtain ⟨sl, idx, h⟩ := h0.all hfs hprod hn hv
  unfold Ctx.sk
  simp only
  obtain ⟨B', hB'⟩ := treeSk_prefix C v fs A' C.f0 (layout1 C.ts C.u C.s C.len C.f0)
  generalize hT : C.treeSk v A' C.f0 (layout1 C.ts C.u C.s C.len C.f0) fs = T at *
  have hFs := finalBusy_ok h.lay h.slices hC.s_pos hC.len_pos hv
  have hF := hFs.mono hC.s_le
  have hRF : ∀ p q x, p < C.n → q < C.n → x < C.len → ∃ r, r < C.n ∧ β q / v = β r / v ∧
      (r < C.s ∧ In (sl (idx r % v)) x) ∧
      R C.n (T.1 ++ finSk sub C.n C.b (finalBusy v T.2)) r T.1.length p
        (T.1.length + (finSk sub C.n C.b (finalBusy v T.2)).length) := by
    intro p q x hp hq hx
    obtain ⟨r, hr, _, ho⟩ := own_exists (B := 0) h.lay h.slices hv0 (Nat.dvd_refl v) hn hv hx
      (by rw [Nat.zero_mul]; exact hC.s_pos)
    refine ⟨r, Nat.lt_of_lt_of_le hr hC.s_le, ?_, ⟨hr, ho⟩, hF.R _ _ _ (finalBusy_own h.lay hC.s_pos hr ho) hp⟩
    have := h.hβs q hq
    rw [h.hβ r hr, Nat.div_eq_of_lt (by omega), Nat.div_eq_of_lt (by omega)]
  have hlk : ∀ m : Cell → X, lockstep C.n (T.1 ++ finSk sub C.n C.b (finalBusy v T.2) ++ [.ops C.outOps]) m =
      runElems ((List.range C.n).flatMap C.outOps) (lockstep C.n T.1 m) := by
    intro m
    rw [lockstep_append, lockstep_append, lockstep_quiet _ (quiet_fin _ _ _ _), lockstep_ops]
  refine ⟨?_, ?_, ?_, ?_, ?_, ?_⟩
  · exact (h.partners.append (hF.partners hC.n_pos _ _)).append (partners_ops _)
  · refine Stage.out h.stage (quiet_fin _ _ _ _) hRF ?_
    intro p e _ he
    simp only [Ctx.outOps, List.mem_map, List.mem_range] at he
    obtain ⟨x, hx, rfl⟩ := he
    exact ⟨⟨x, rfl⟩, 0, x, hx, rfl⟩
  · intro q hq i I e hI he
    rcases get_three (quiet_fin _ _ _ _) hI he with ⟨h1, _⟩ | ⟨h0, h1⟩
    · refine ⟨?_, ?_⟩
      · obtain ⟨⟨i1, x1, _, _, hd⟩, hs⟩ := h.stage.shape q hq i I e h1 he
        refine ⟨Or.inl ⟨i1, x1, hd⟩, ?_⟩
        rcases hs with ⟨i2, x2, _, _, hs⟩ | hs
        · exact Or.inl ⟨i2, x2, hs⟩
        · exact Or.inr hs
      · -- the accesses come after `A`
        obtain ⟨B, hB⟩ : ∃ B, T.1 = A ++ B := by
          obtain ⟨B, hB⟩ := hA'
          exact ⟨_, by rw [hB', hB, List.append_assoc]⟩
        by_contra hc
        rw [hB, List.getElem?_append_left (by omega)] at h1
        have := hA I (List.mem_of_getElem? h1) q
        rw [this] at he
        simp at he
    · refine ⟨?_, ?_⟩
      · simp only [Ctx.outOps, List.mem_map, List.mem_range] at h1
        obtain ⟨x, hx, rfl⟩ := h1
        exact ⟨Or.inr ⟨x, rfl⟩, Or.inl ⟨0, x, rfl⟩⟩
      · have hent := h.entered
        obtain ⟨r, hr, _, ho⟩ := own_exists (B := 0) (x := 0) h.lay h.slices hv0 (Nat.dvd_refl v) hn hv hC.len_pos
          (by rw [Nat.zero_mul]; exact hC.s_pos)
        have hrn := Nat.lt_of_lt_of_le hr hC.s_le
        have := (hent r r 0 hrn hrn hC.len_pos ⟨hr, ho⟩ rfl).le
        omega
  · intro p q hp hq
    obtain ⟨r, hr, hb, ho, hR⟩ := hRF p q 0 hp hq hC.len_pos
    have h1 := h.entered r q 0 hr hq hC.len_pos ho hb
    refine (R.trans ((h1.append _).append [.ops C.outOps]) (hR.append _)).mono (Nat.le_refl _) ?_
    simp
  · intro m hz p e hp he
    obtain ⟨w, hw, h1⟩ := hS m hz
    obtain ⟨sl', idx', h'⟩ := h1.all hfs hprod hn hv
    rw [hT] at h'
    rw [hlk, (outOps_run hC _).1 p e hp he, ← hw]
    have := h'.val 0 e (by omega) he
    rw [Nat.zero_mul] at this
    rw [this]
    apply Finset.sum_congr
    · ext q
      simp only [Finset.mem_filter, Finset.mem_range, and_iff_left_iff_imp]
      intro hq
      exact Nat.div_eq_of_lt (by omega)
    · intros; rfl
  · intro m hz c hc hr
    obtain ⟨w, hw, h1⟩ := hS m hz
    obtain ⟨sl', idx', h'⟩ := h1.all hfs hprod hn hv
    rw [hT] at h'
    rw [hlk, (outOps_run hC _).2 c hr]
    exact h'.frame c hc

/-- The program of an execution. -/
theorem Ctx.Ok.code_exec {C : Ctx} (hC : C.Ok) (A : Skel) (sub : Bool) (hsub : sub = false → C.s = C.n) {v : Nat}
    {fs : List Nat} (hfs : 0 ∉ fs) (hprod : C.f0 * fs.prod = v) (hn : C.s ≤ v)
    (hv : v = C.s ∨ C.len * C.ts < cacheLine) {l : Nat} {A' : Skel} (hS : C.Start Nat hC v l A')
    (hle : ∀ f ∈ C.f0 :: fs, f ≤ C.s) {p : Nat} (hp : p < C.n) :
    ∃ t, reduceCopies C.b C.fast C.pl C.ts C.u C.s C.len (C.f0 :: fs) sub p = some t ∧
      code (C.sk sub v fs A) p = code A p ++ t.flatMap (Instr.acts C.n p) ++ (C.outOps p).map Elem.act := by
  have hd : C.f0 ∣ v := ⟨_, hprod.symm⟩
  have hf := hC.f0_pos
  have hl := Lay.next (lay_zero C.s v C.ts C.len hn) (slices_one C.ts C.len) (u := C.u) Nat.one_pos hf
    (by rwa [Nat.one_mul]) hv
  have hs := Slices.next (slices_one C.ts C.len) (u := C.u) hf hC.unit
  rw [Nat.one_mul] at hl hs
  obtain ⟨h1, h2⟩ := code_tree hC (A := A) hf hp hl hs hfs hprod hv
  -- the final layout
  obtain ⟨_, _, hS⟩ := hS
  obtain ⟨_, _, hS⟩ := hS (fun _ => 0) (fun _ _ _ _ _ => rfl)
  obtain ⟨sl, idx, h⟩ := hS.all hfs hprod hn hv
  have hT2 : ∀ A A' gb lay, (C.treeSk v A gb lay fs).2 = (C.treeSk v A' gb lay fs).2 := by
    clear h1 h2 hprod h hfs hle
    induction fs with
    | nil => intros; rfl
    | cons f fs ih => intro A A' gb lay; exact ih _ _ _ _
  rw [hT2 _ A] at h
  have hF := finalBusy_ok h.lay h.slices hC.s_pos hC.len_pos hv
  rw [show relayout C.ts C.u C.s C.len 1 C.f0 (layout0 C.s C.len) = layout1 C.ts C.u C.s C.len C.f0 from rfl] at h1 h2
  refine ⟨(treeSteps C.b C.fast C.pl C.ts C.u v C.s C.len C.f0 p C.f0 (layout1 C.ts C.u C.s C.len C.f0) fs).1 ++
    finalBarrier C.b C.s sub (finalBusy v
      (treeSteps C.b C.fast C.pl C.ts C.u v C.s C.len C.f0 p C.f0 (layout1 C.ts C.u C.s C.len C.f0) fs).2) p, ?_, ?_⟩
  · unfold reduceCopies
    simp only [List.prod_cons, hprod]
    rw [if_neg]
    rintro (hc | hc)
    · simp only [List.any_eq_true, decide_eq_true_eq] at hc
      obtain ⟨f, hf, hlt⟩ := hc
      have := hle f hf
      omega
    · rw [← h2] at hc
      have := hF.le
      omega
  · unfold Ctx.sk
    simp only
    rw [code_append, code_append, h1, ← h2, ← (hF.mono hC.s_le).code sub hsub C.b hp]
    simp only [List.flatMap_append, List.append_assoc]
    congr 4
    simp [code, Item.acts]

end ExtMpi.OnNode
