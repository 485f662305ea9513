import Verif.Lemmas.OnNodeTree
import Mathlib.Data.Nat.ModEq
/-! Order and result of the copy-in of the groups. -/
namespace ExtMpi.OnNode
open Schedule

section
variable {C : Ctx}

theorem ring_owner {f0 k i : Nat} (hk : k < f0) (hi : i < f0) : (2 * f0 - 1 + (k + 1 + i) % f0 - i) % f0 = k := by
  by_cases h : k + 1 + i < f0
  · rw [Nat.mod_eq_of_lt h, show 2 * f0 - 1 + (k + 1 + i) - i = f0 * 2 + k by omega, Nat.mul_add_mod, Nat.mod_eq_of_lt hk]
  · have h1 : (k + 1 + i) % f0 = k + 1 + i - f0 := by
      rw [Nat.mod_eq_sub_mod (by omega), Nat.mod_eq_of_lt (by omega)]
    rw [h1, show 2 * f0 - 1 + (k + 1 + i - f0) - i = f0 * 1 + k by omega, Nat.mul_add_mod, Nat.mod_eq_of_lt hk]

theorem block_parts {f0 B a : Nat} (ha : a < f0) : (B * f0 + a) / f0 = B ∧ (B * f0 + a) % f0 = a := by
  rw [Nat.mul_comm]
  exact ⟨by rw [Nat.mul_add_div (by omega), Nat.div_eq_of_lt ha, Nat.add_zero],
    by rw [Nat.mul_add_mod, Nat.mod_eq_of_lt ha]⟩

theorem block_eq {f0 p q : Nat} (h : p / f0 = q / f0) (h' : p % f0 = q % f0) : p = q := by
  rw [← Nat.div_add_mod p f0, ← Nat.div_add_mod q f0, h, h']

theorem ring_unique (hC : C.Ok) {i p q x : Nat} (hi : i < C.f0) (h1 : In (C.ringPart i p) x) (h2 : In (C.ringPart i q) x)
    (hb : q / C.f0 = p / C.f0) : p = q := by
  have h := cut_disj hC.u_pos h1 h2
  refine block_eq hb.symm ?_
  have e : ∀ a, 2 * C.f0 - 1 + a - i = (2 * C.f0 - 1 - i) + a := by intro a; omega
  rw [e, e] at h
  have h3 : Nat.ModEq C.f0 (p % C.f0) (q % C.f0) := Nat.ModEq.add_left_cancel' _ h
  unfold Nat.ModEq at h3
  rwa [Nat.mod_mod, Nat.mod_mod] at h3

theorem ring_shift (hC : C.Ok) {i p : Nat} (hi : i + 1 < C.f0) : C.ringPart (i + 1) p = C.ringPart i (C.pred p) := by
  unfold Ctx.ringPart Ctx.pred
  rw [(block_parts (Nat.mod_lt _ hC.f0_pos)).2]
  congr 1
  have ha := Nat.mod_lt p hC.f0_pos
  generalize p % C.f0 = a at *
  rcases Nat.eq_zero_or_pos a with h0 | h0
  · subst h0
    rw [Nat.add_zero (C.f0 - 1), Nat.mod_eq_of_lt (by omega : C.f0 - 1 < C.f0),
      show 2 * C.f0 - 1 + (C.f0 - 1) - i = C.f0 * 1 + (2 * C.f0 - 1 + 0 - (i + 1)) by omega, Nat.mul_add_mod]
  · rw [show C.f0 - 1 + a = C.f0 * 1 + (a - 1) by omega, Nat.mul_add_mod, Nat.mod_eq_of_lt (by omega : a - 1 < C.f0)]
    congr 1
    omega

theorem ringPart_len (hC : C.Ok) {i p x : Nat} (h : In (C.ringPart i p) x) : x < C.len := by
  have h1 := cut_le (size := C.len) (u := C.u) hC.f0_pos (Nat.mod_lt (2 * C.f0 - 1 + p % C.f0 - i) hC.f0_pos)
  unfold In Ctx.ringPart at h
  omega

theorem ringOps_mem {i p : Nat} {e : Elem} (he : e ∈ C.ringOps i p) : ∃ x, In (C.ringPart i p) x ∧
    e = ⟨i ≠ 0, C.cell (p / C.f0) x, .send p C.kk (C.σ x)⟩ := by
  simp only [Ctx.ringOps, List.mem_map, List.mem_range] at he
  obtain ⟨k, hk, rfl⟩ := he
  exact ⟨_, ⟨by omega, by omega⟩, rfl⟩

theorem map_range_single {α : Type} (g : Nat → α) (P : α → Bool) {a sz x : Nat} (h1 : a ≤ x) (h2 : x < a + sz)
    (hx : P (g x) = true) (hne : ∀ y, a ≤ y → y < a + sz → y ≠ x → P (g y) = false) :
    ((List.range sz).map fun e => g (a + e)).filter P = [g x] := by
  have : ∀ (g : Nat → α) (k : Nat), (List.range k).map g = (List.range k).flatMap fun i => [g i] := by
    intro g k; induction k with
    | zero => rfl
    | succ k ih => simp [List.range_succ, ih]
  rw [this, List.filter_flatMap, flatMap_single (p := x - a) (by omega)]
  · rw [show a + (x - a) = x by omega]
    simp [hx]
  · intro q hq hqx
    have := hne (a + q) (by omega) (by omega) (by omega)
    simp [this]

theorem ring_run {X : Type} [AddCommMonoid X] (hC : C.Ok) {i : Nat} (hi : i < C.f0) (m : Cell → X) {inst k x : Nat}
    (hn : inst * C.f0 < C.n) (hx : x < C.len) (hk : k < C.f0) (hin : In (cut C.len C.u C.f0 k) x) :
    runElems ((List.range C.n).flatMap (C.ringOps i)) m (C.cell inst x) =
      if i ≠ 0 then m (C.cell inst x) + m (.send (inst * C.f0 + (k + 1 + i) % C.f0) C.kk (C.σ x))
      else m (.send (inst * C.f0 + (k + 1 + i) % C.f0) C.kk (C.σ x)) := by
  have hmod := Nat.mod_lt (k + 1 + i) hC.f0_pos
  have hp : inst * C.f0 + (k + 1 + i) % C.f0 < C.n := block_lt (r := 0) hC.f0_dvd (by simpa using hn) _ hmod
  obtain ⟨hp1, hp2⟩ := block_parts (B := inst) hmod
  have hpart : C.ringPart i (inst * C.f0 + (k + 1 + i) % C.f0) = cut C.len C.u C.f0 k := by
    unfold Ctx.ringPart
    rw [hp2, ring_owner hk hi]
  have hfil : ((List.range C.n).flatMap (C.ringOps i)).filter (fun e => e.dst = C.cell inst x) =
      [⟨i ≠ 0, C.cell inst x, .send (inst * C.f0 + (k + 1 + i) % C.f0) C.kk (C.σ x)⟩] := by
    rw [List.filter_flatMap, flatMap_single hp]
    · unfold Ctx.ringOps
      rw [hpart, hp1]
      obtain ⟨h1, h2⟩ := hin
      refine map_range_single
        (fun y => (⟨i ≠ 0, C.cell inst y, .send (inst * C.f0 + (k + 1 + i) % C.f0) C.kk (C.σ y)⟩ : Elem))
        _ h1 h2 (by simp) ?_
      intro y hy1 hy2 hyx
      simp only [decide_eq_false_iff_not]
      intro hc
      have h3 := cut_le (size := C.len) (u := C.u) hC.f0_pos hk
      exact hyx ((C.vec hC).inj _ _ _ _ (show y < C.len by omega) hx hc).2
    · intro q hq hqp
      rw [List.filter_eq_nil_iff]
      intro e he
      obtain ⟨y, hy, rfl⟩ := ringOps_mem he
      simp only [decide_eq_true_eq]
      intro hc
      obtain ⟨hc1, hc2⟩ := (C.vec hC).inj _ _ _ _ (ringPart_len hC hy) hx hc
      subst hc2
      exact hqp (ring_unique hC hi hy (by rw [hpart]; exact hin) (by rw [hp1, hc1]))
  rw [runElems_at, hfil]
  · by_cases h0 : i = 0 <;> simp [h0]
  · intro e he e' he' hc
    simp only [List.mem_flatMap] at he he'
    obtain ⟨_, _, he⟩ := he
    obtain ⟨_, _, he'⟩ := he'
    obtain ⟨y, _, rfl⟩ := ringOps_mem he
    obtain ⟨y', _, rfl⟩ := ringOps_mem he'
    exact (C.vec hC).nsend _ _ _ _ _ hc.symm

structure RInv {X : Type} [AddCommMonoid X] (C : Ctx) (hC : C.Ok) (m : Cell → X) (A : Skel) (i : Nat) : Prop where
  partners : Partners C.n A
  stage : Stage C.n (C.vec hC) C.kk A (fun q => q / C.f0) (fun inst => inst) fun p x => In (C.ringPart i p) x
  val : ∀ inst x, inst * C.f0 < C.n → x < C.len → ∀ k, k < C.f0 → In (cut C.len C.u C.f0 k) x →
    lockstep C.n A m (C.cell inst x) =
      ∑ t ∈ Finset.range (i + 1), m (.send (inst * C.f0 + (k + 1 + t) % C.f0) C.kk (C.σ x))
  frame : ∀ c, C.Outside c → lockstep C.n A m c = m c

theorem outside_send (hC : C.Ok) (p k x : Nat) : C.Outside (.send p k x) := by
  intro inst y _ _ hc
  exact (C.vec hC).nsend _ _ _ _ _ hc.symm

theorem outside_recv (hC : C.Ok) (p k x : Nat) : C.Outside (.recv p k x) := by
  intro inst y _ _ hc
  exact (C.vec hC).nrecv _ _ _ _ _ hc.symm

theorem ring_hf (hC : C.Ok) (i p : Nat) (e : Elem) (he : e ∈ C.ringOps i p) :
    ∃ inst x, x < (C.vec hC).len ∧ In (C.ringPart i p) x ∧ inst = p / C.f0 ∧ e.dst = (C.vec hC).cell inst x ∧
      ((∃ inst', inst' ≠ inst ∧ inst' = p / C.f0 ∧ e.src = (C.vec hC).cell inst' x) ∨ ∃ y, e.src = .send p C.kk y) := by
  obtain ⟨x, hx, rfl⟩ := ringOps_mem he
  exact ⟨_, x, ringPart_len hC hx, hx, rfl, rfl, Or.inr ⟨_, rfl⟩⟩

theorem ring_frame {X : Type} [AddCommMonoid X] (hC : C.Ok) (i : Nat) (m : Cell → X) {c : Cell} (hc : C.Outside c) :
    runElems ((List.range C.n).flatMap (C.ringOps i)) m c = m c := by
  apply runElems_other
  intro e he hec
  simp only [List.mem_flatMap, List.mem_range] at he
  obtain ⟨p, hp, he⟩ := he
  obtain ⟨x, hx, rfl⟩ := ringOps_mem he
  exact hc _ x (ringPart_len hC hx) (Nat.lt_of_le_of_lt (Nat.div_mul_le_self _ _) hp) hec.symm

theorem rinv_zero {X : Type} [AddCommMonoid X] (hC : C.Ok) (m : Cell → X) {A : Skel} (hA : Quiet A)
    (hP : Partners C.n A) : RInv C hC m (C.ringSk A 0) 0 := by
  have hlk : lockstep C.n (C.ringSk A 0) m = runElems ((List.range C.n).flatMap (C.ringOps 0)) m := by
    rw [Ctx.ringSk, lockstep_append, lockstep_append, lockstep_quiet _ hA, lockstep_ops]
    rfl
  refine ⟨?_, ?_, ?_, ?_⟩
  · exact (hP.append (B := []) (by intro b w hm; simp at hm)).append (partners_ops _)
  · refine Stage.next (stage_start hA (fun q => q / C.f0) (fun inst => inst) fun p x => In (C.ringPart 0 p) x) (D := [])
      (by intro I hI; simp at hI) ?_ (fun p e _ he => ring_hf hC 0 p e he) (fun _ _ h => h) ?_
    · intro p q x hp _ _ ho hb
      exact ⟨p, hp, hb, ho, .own (by simp)⟩
    · intro p q x _ _ _ h1 h2 hb
      exact ring_unique hC hC.f0_pos h1 h2 hb
  · intro inst x hi hx k hk hin
    rw [hlk, ring_run hC hC.f0_pos m hi hx hk hin]
    simp
  · intro c hc
    rw [hlk, ring_frame hC 0 m hc]

theorem RInv.next {X : Type} [AddCommMonoid X] {hC : C.Ok} {m : Cell → X} {A : Skel} {i : Nat} (h : RInv C hC m A i)
    (hi : i + 1 < C.f0) : RInv C hC m (A ++ [.sync C.b C.pred] ++ [.ops (C.ringOps (i + 1))]) (i + 1) := by
  have hq : Quiet [Item.sync C.b C.pred] := by
    intro I hI p
    simp only [List.mem_singleton] at hI
    subst hI; rfl
  have hlk : lockstep C.n (A ++ [.sync C.b C.pred] ++ [.ops (C.ringOps (i + 1))]) m =
      runElems ((List.range C.n).flatMap (C.ringOps (i + 1))) (lockstep C.n A m) := by
    rw [lockstep_append, lockstep_append, lockstep_quiet _ hq, lockstep_ops]
  refine ⟨?_, ?_, ?_, ?_⟩
  · refine (h.partners.append ?_).append (partners_ops _)
    intro b w hm p hp
    simp only [List.mem_singleton] at hm
    injection hm with _ hw
    subst hw
    exact hC.pred_lt hp _
  · refine Stage.next h.stage hq ?_ (fun p e _ he => ring_hf hC (i + 1) p e he) (fun _ _ h => h) ?_
    · intro p q x hp _ _ ho hb
      refine ⟨C.pred p, hC.pred_lt hp _, ?_, ?_, ?_⟩
      · rw [hb, Ctx.pred, (block_parts (Nat.mod_lt _ hC.f0_pos)).1]
      · rwa [← ring_shift hC hi]
      · refine R.sync (b := C.b) ?_ hp
        simp
    · intro p q x _ _ _ h1 h2 hb
      exact ring_unique hC hi h1 h2 hb
  · intro inst x hn hx k hk hin
    rw [hlk, ring_run hC hi _ hn hx hk hin, h.val inst x hn hx k hk hin, h.frame _ (outside_send hC _ _ _),
      Finset.sum_range_succ _ (i + 1)]
    simp
  · intro c hc
    rw [hlk, ring_frame hC _ _ hc, h.frame c hc]

theorem rinv_all {X : Type} [AddCommMonoid X] (hC : C.Ok) (m : Cell → X) {A : Skel} (hA : Quiet A)
    (hP : Partners C.n A) {i : Nat} (hi : i < C.f0) : RInv C hC m (C.ringSk A i) i := by
  induction i with
  | zero => exact rinv_zero hC m hA hP
  | succ i ih => exact (ih (by omega)).next hi

theorem ringSk_length (A : Skel) (i : Nat) : A.length ≤ (C.ringSk A i).length := by
  induction i with
  | zero => simp [Ctx.ringSk]
  | succ i ih => simp [Ctx.ringSk]; omega

theorem sum_ring {X : Type} [AddCommMonoid X] (n f0 inst c : Nat) (hf : 0 < f0) (hd : f0 ∣ n) (hi : inst * f0 < n)
    (F : Nat → X) : ∑ t ∈ Finset.range f0, F (inst * f0 + (c + t) % f0) =
      ∑ q ∈ (Finset.range n).filter (fun q => q / f0 = inst), F q := by
  apply Finset.sum_nbij (fun t => inst * f0 + (c + t) % f0)
  · intro t _
    simp only [Finset.coe_filter, Finset.mem_filter, Finset.mem_range]
    exact ⟨block_lt (r := 0) hd (by simpa using hi) _ (Nat.mod_lt _ hf), (block_parts (Nat.mod_lt _ hf)).1⟩
  · intro s hs t ht h
    simp only [Finset.coe_range, Set.mem_Iio] at hs ht
    have h1 : (c + s) % f0 = (c + t) % f0 := by simpa using h
    have h2 : Nat.ModEq f0 s t := Nat.ModEq.add_left_cancel' _ h1
    unfold Nat.ModEq at h2
    rwa [Nat.mod_eq_of_lt hs, Nat.mod_eq_of_lt ht] at h2
  · intro q hq
    simp only [Finset.coe_filter, Finset.mem_range, Set.mem_setOf_eq] at hq
    refine ⟨(q % f0 + (f0 - c % f0)) % f0, by simpa using Nat.mod_lt _ hf, ?_⟩
    have h1 := Nat.mod_lt c hf
    have h2 := Nat.div_add_mod c f0
    have h3 : (c + (q % f0 + (f0 - c % f0)) % f0) % f0 = q % f0 := by
      rw [Nat.add_mod_mod, show c + (q % f0 + (f0 - c % f0)) = f0 * (c / f0 + 1) + q % f0 by
        rw [Nat.mul_add]; omega, Nat.mul_add_mod, Nat.mod_mod]
    simp only
    rw [h3, ← hq.2, Nat.mul_comm]
    exact Nat.div_add_mod q f0
  · intros; rfl

/-- The groups of the ring as a list. -/
theorem ring_R (hC : C.Ok) (A : Skel) {r p : Nat} (hr : r < C.n) (hp : p < C.n) (hb : r / C.f0 = p / C.f0) :
    R C.n (A ++ dis C.b (Nat.clog 2 C.f0) (roundW C.ringGrp)) r A.length p (A.length + Nat.clog 2 C.f0) := by
  have hmem : ∀ q, q / C.f0 = p / C.f0 →
      (q : Int) ∈ (List.range C.f0).map fun a => ((p / C.f0 * C.f0 + a : Nat) : Int) := by
    intro q hq
    simp only [List.mem_map, List.mem_range]
    refine ⟨q % C.f0, Nat.mod_lt _ hC.f0_pos, ?_⟩
    rw [← hq, Nat.mul_comm, Nat.div_add_mod]
  refine R_round A C.b _ C.ringGrp ((List.range C.f0).map fun a => ((p / C.f0 * C.f0 + a : Nat) : Int)) ?_ (by simp) ?_
    (hmem r hb) (hmem p rfl)
  · intro s hs
    simp only [List.mem_map, List.mem_range] at hs
    obtain ⟨a, ha, rfl⟩ := hs
    have := hC.pred_lt hp a
    rw [Nat.mod_eq_of_lt ha] at this
    exact ⟨_, this, rfl⟩
  · intro i q hq
    have hi : i < C.f0 := by
      have := (List.getElem?_eq_some_iff.1 hq).1
      simpa using this
    simp only [List.getElem?_map, List.getElem?_range hi, Option.map_some, Option.some.injEq, Nat.cast_inj] at hq
    subst hq
    obtain ⟨e1, e2⟩ := block_parts (B := p / C.f0) hi
    unfold Ctx.ringGrp
    congr 1
    · simp
    · apply List.ext_getElem
      · rw [hC.ranks_length]; simp
      · intro m h1 h2
        rw [hC.ranks_length] at h1
        have := hC.ranks_get (p / C.f0 * C.f0 + i) h1
        rw [rankAt_of_lt (by rw [hC.ranks_length]; exact h1)] at this
        rw [this, e1, e2, List.getElem_rotate]
        simp

/-- State after the copy-in. -/
structure CInv {X : Type} [AddCommMonoid X] (C : Ctx) (hC : C.Ok) (own : Nat → Nat → Prop) (m : Cell → X) (L : Nat)
    (A : Skel) : Prop where
  partners : Partners C.n A
  stage : Stage C.n (C.vec hC) C.kk A (fun q => q / C.f0) (fun inst => inst) own
  entered : Entered C.n C.len A L (fun q => q / C.f0) own
  val : ∀ B x, B * C.f0 < C.n → x < C.len → lockstep C.n A m (C.cell B x) =
    ∑ q ∈ (Finset.range C.n).filter (fun q => q / C.f0 = B), m (.send q C.kk (C.σ x))
  frame : ∀ c, C.Outside c → lockstep C.n A m c = m c

theorem cinv_start {X : Type} [AddCommMonoid X] (hC : C.Ok) (m : Cell → X) {A : Skel} (hA : Quiet A)
    (hP : Partners C.n A) {own : Nat → Nat → Prop}
    (hu : ∀ p q x, p < C.n → q < C.n → own p x → own q x → q / C.f0 = p / C.f0 → p = q) :
    CInv C hC own m A.length (C.copyinSk A) := by
  have hf := hC.f0_pos
  have hr := rinv_all hC m hA hP (show C.f0 - 1 < C.f0 by omega)
  have hlk : lockstep C.n (C.copyinSk A) m = lockstep C.n (C.ringSk A (C.f0 - 1)) m := by
    unfold Ctx.copyinSk
    rw [lockstep_append, lockstep_append, lockstep_quiet _ (quiet_dis _ _ _), lockstep_ops,
      List.flatMap_eq_nil_iff.2 (fun _ _ => rfl)]
    rfl
  refine ⟨?_, ?_, ?_, ?_, ?_⟩
  · refine (hr.partners.append (partners_dis fun k p hp => ?_)).append (partners_ops _)
    exact roundW_lt (hC.ringGrp_ok hp) hp
  · refine Stage.next hr.stage (quiet_dis _ _ _) ?_ ?_ (fun _ _ h => h) ?_
    · intro p q x hp hq hx _ hb
      obtain ⟨k, hk, hin⟩ := cut_cover hC.u_pos hC.u_dvd hf hx
      obtain ⟨e1, e2⟩ := block_parts (B := p / C.f0) hk
      have hr : p / C.f0 * C.f0 + k < C.n := by
        have := hC.pred_lt hp k
        rwa [Nat.mod_eq_of_lt hk] at this
      refine ⟨p / C.f0 * C.f0 + k, hr, by rw [hb, e1], ?_, ?_⟩
      · unfold Ctx.ringPart
        rw [e2, show 2 * C.f0 - 1 + k - (C.f0 - 1) = C.f0 * 1 + k by omega, Nat.mul_add_mod, Nat.mod_eq_of_lt hk]
        exact hin
      · rw [dis_length]
        exact ring_R hC _ hr hp e1
    · intro p e _ he
      simp at he
    · intro p q x hp hq _ h1 h2 hb
      exact hu p q x hp hq h1 h2 hb
  · intro p q x hp hq _ _ hb
    have := ring_R hC (C.ringSk A (C.f0 - 1)) hq hp hb
    refine (this.append [.ops fun _ => []]).mono (ringSk_length A _) ?_
    unfold Ctx.copyinSk
    simp [dis_length]
  · intro B x hBn hx
    obtain ⟨k, hk, hin⟩ := cut_cover hC.u_pos hC.u_dvd hf hx
    rw [hlk, hr.val B x hBn hx k hk hin, show C.f0 - 1 + 1 = C.f0 by omega]
    exact sum_ring C.n C.f0 B (k + 1) hf hC.f0_dvd hBn (fun q => m (.send q C.kk (C.σ x)))
  · intro c hc
    rw [hlk]
    exact hr.frame c hc

/-- State before the first reduction of instances. -/
theorem tinv_start {X : Type} [AddCommMonoid X] (hC : C.Ok) (hsn : C.s = C.n) (m : Cell → X) {A : Skel} (hA : Quiet A)
    (hP : Partners C.n A) {v : Nat} (hd : C.f0 ∣ v) (hn : C.n ≤ v) (hv : v = C.n ∨ C.len * C.ts < cacheLine)
    (hz : ∀ inst x, C.n ≤ inst * C.f0 → inst * C.f0 < v → x < C.len → m (C.cell inst x) = 0) :
    TInv C hC v (fun i => i) (fun q => q) (fun q x => m (.send q C.kk (C.σ x))) m A.length (C.copyinSk A) C.f0 1
      (slice C.ts C.u C.f0 (fun _ => (0, C.len))) (fun p => shuffle 1 C.f0 p) (layout1 C.ts C.u C.s C.len C.f0) := by
  have hf := hC.f0_pos
  have hl := Lay.next (lay_zero C.s v C.ts C.len (hsn ▸ hn)) (slices_one C.ts C.len) (u := C.u) Nat.one_pos hf
    (by rwa [Nat.one_mul]) (hsn ▸ hv)
  have hs := Slices.next (slices_one C.ts C.len) (u := C.u) hf hC.unit
  rw [Nat.one_mul] at hl hs
  have h := cinv_start hC m hA hP (own := fun p x => p < C.s ∧
      In (slice C.ts C.u C.f0 (fun _ => (0, C.len)) (shuffle 1 C.f0 p % C.f0)) x)
    (fun p q x hp hq h1 h2 hb => own_unique hl hs hf h1.1 h2.1 h1.2 h2.2 hb)
  refine ⟨by simp, Nat.one_pos, Or.inl hsn, fun _ _ => rfl, fun _ _ => rfl, fun _ h => hsn ▸ h, hl, hs, h.partners, ?_,
    h.entered, ?_, h.frame⟩
  · simp only [Nat.div_one]
    exact h.stage
  · intro B x hB hx
    rw [Nat.mul_one, hsn]
    by_cases hBn : B * C.f0 < C.n
    · exact h.val B x hBn hx
    · rw [h.frame]
      · rw [hz B x (by omega) hB hx]
        symm
        apply Finset.sum_eq_zero
        intro q hq
        exfalso
        simp only [Finset.mem_filter, Finset.mem_range] at hq
        have h1 := Nat.div_mul_le_self q C.f0
        rw [hq.2] at h1
        omega
      · intro inst y hy hi hc
        obtain ⟨rfl, _⟩ := (C.vec hC).inj _ _ _ _ hx hy hc
        exact hBn hi

end

end ExtMpi.OnNode
