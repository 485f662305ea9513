import Verif.Lemmas.OnNodeRing
import Mathlib.Algebra.BigOperators.Group.Finset.Sigma
/-! Order and result of the first reduction of the almost-half method. -/
namespace ExtMpi.OnNode
open Schedule

section
variable {C : Ctx}

/-- Partner of a process. -/
def Ctx.pair (C : Ctx) (p : Nat) : Nat := if p + C.s < C.n then p + C.s else if C.s ≤ p then p - C.s else p

def Ctx.halfOps (C : Ctx) (p : Nat) : List Elem :=
  if p + C.s < C.n then
    (List.range (cut C.len C.u 2 0).2).map fun e =>
      ⟨true, C.cell p ((cut C.len C.u 2 0).1 + e), C.cell (p + C.s) ((cut C.len C.u 2 0).1 + e)⟩
  else if C.s ≤ p then
    (List.range (cut C.len C.u 2 1).2).map fun e =>
      ⟨true, C.cell (p - C.s) ((cut C.len C.u 2 1).1 + e), C.cell p ((cut C.len C.u 2 1).1 + e)⟩
  else []

def Ctx.halfSk (C : Ctx) (A : Skel) : Skel :=
  A ++ [.sync C.b C.pair] ++ [.ops C.halfOps] ++ [.sync C.b C.pair] ++ [.ops fun _ => []]

theorem pair_lt {p : Nat} (hp : p < C.n) : C.pair p < C.n := by
  unfold Ctx.pair
  split
  · assumption
  · split <;> omega

theorem pair_of_mod (h2 : C.n ≤ 2 * C.s) {p q : Nat} (hp : p < C.n) (hq : q < C.n)
    (hb : q % C.s = p % C.s) : q = p ∨ q = C.pair p := by
  have hmod : ∀ r, r < C.n → r % C.s = if r < C.s then r else r - C.s := by
    intro r hr
    split
    · exact Nat.mod_eq_of_lt (by omega)
    · rw [Nat.mod_eq_sub_mod (by omega), Nat.mod_eq_of_lt (by omega)]
  rw [hmod p hp, hmod q hq] at hb
  unfold Ctx.pair
  split at hb <;> split at hb <;> split <;> (try split) <;> omega

theorem halfOps_mem {p : Nat} {e : Elem} (he : e ∈ C.halfOps p) :
    (p + C.s < C.n ∧ ∃ x, In (cut C.len C.u 2 0) x ∧ e = ⟨true, C.cell p x, C.cell (p + C.s) x⟩) ∨
    (¬ p + C.s < C.n ∧ C.s ≤ p ∧ ∃ x, In (cut C.len C.u 2 1) x ∧ e = ⟨true, C.cell (p - C.s) x, C.cell p x⟩) := by
  unfold Ctx.halfOps at he
  split at he
  · rename_i h
    simp only [List.mem_map, List.mem_range] at he
    obtain ⟨k, hk, rfl⟩ := he
    exact Or.inl ⟨h, _, ⟨by omega, by omega⟩, rfl⟩
  · split at he
    · rename_i h h'
      simp only [List.mem_map, List.mem_range] at he
      obtain ⟨k, hk, rfl⟩ := he
      exact Or.inr ⟨h, h', _, ⟨by omega, by omega⟩, rfl⟩
    · simp at he

theorem In.lt_cut {len u n k x : Nat} (hn : 0 < n) (hk : k < n) (h : In (cut len u n k) x) : x < len := by
  have := cut_le (size := len) (u := u) hn hk
  unfold In at h
  omega

/-- Columns that a process works on. -/
def Ctx.halfOwn (C : Ctx) (p x : Nat) : Prop :=
  (p + C.s < C.n ∧ In (cut C.len C.u 2 0) x) ∨ (C.s ≤ p ∧ In (cut C.len C.u 2 1) x) ∨ (p < C.s ∧ C.n ≤ p + C.s)

theorem half_run {X : Type} [AddCommMonoid X] (hC : C.Ok) (h2 : C.n ≤ 2 * C.s) (m : Cell → X) {B x : Nat}
    (hB : B < C.s) (hx : x < C.len) :
    runElems ((List.range C.n).flatMap C.halfOps) m (C.cell B x) =
      if B + C.s < C.n then m (C.cell B x) + m (C.cell (B + C.s) x) else m (C.cell B x) := by
  have hmem : ∀ e ∈ (List.range C.n).flatMap C.halfOps, ∃ i y, i + C.s < C.n ∧ y < C.len ∧
      e = ⟨true, C.cell i y, C.cell (i + C.s) y⟩ := by
    intro e he
    simp only [List.mem_flatMap, List.mem_range] at he
    obtain ⟨p, hp, he⟩ := he
    rcases halfOps_mem he with ⟨h1, y, hy, rfl⟩ | ⟨_, h1, y, hy, rfl⟩
    · exact ⟨p, y, h1, hy.lt_cut (by omega) (by omega), rfl⟩
    · refine ⟨p - C.s, y, by omega, hy.lt_cut (by omega) (by omega), ?_⟩
      rw [Nat.sub_add_cancel h1]
  split
  · rename_i hBn
    have hfil : ((List.range C.n).flatMap C.halfOps).filter (fun e => e.dst = C.cell B x) =
        [⟨true, C.cell B x, C.cell (B + C.s) x⟩] := by
      obtain ⟨k, hk, hin⟩ := cut_cover (n := 2) hC.u_pos hC.u_dvd (by omega) hx
      have hother : ∀ y, y < C.len → y ≠ x → ∀ i, C.cell i y ≠ C.cell B x := by
        intro y hy hne i hc
        exact hne ((C.vec hC).inj _ _ _ _ hy hx hc).2
      rw [List.filter_flatMap]
      rcases (show k = 0 ∨ k = 1 by omega) with rfl | rfl
      · rw [flatMap_single (p := B) (by omega)]
        · unfold Ctx.halfOps
          rw [if_pos hBn]
          obtain ⟨h1, h3⟩ := hin
          refine map_range_single (fun y => (⟨true, C.cell B y, C.cell (B + C.s) y⟩ : Elem)) _ h1 h3 (by simp) ?_
          intro y hy1 hy2 hyx
          simp only [decide_eq_false_iff_not]
          exact hother y (In.lt_cut (n := 2) (k := 0) (by omega) (by omega) ⟨hy1, hy2⟩) hyx B
        · intro q hq hqB
          rw [List.filter_eq_nil_iff]
          intro e he
          simp only [decide_eq_true_eq]
          rcases halfOps_mem he with ⟨h1, y, hy, rfl⟩ | ⟨_, h1, y, hy, rfl⟩
          · intro hc
            exact hqB ((C.vec hC).inj _ _ _ _ (hy.lt_cut (by omega) (by omega)) hx hc).1
          · intro hc
            obtain ⟨_, rfl⟩ := (C.vec hC).inj _ _ _ _ (hy.lt_cut (by omega) (by omega)) hx hc
            have := cut_disj hC.u_pos hy hin
            omega
      · rw [flatMap_single (p := B + C.s) hBn]
        · unfold Ctx.halfOps
          rw [if_neg (by omega), if_pos (by omega), Nat.add_sub_cancel]
          obtain ⟨h1, h3⟩ := hin
          refine map_range_single (fun y => (⟨true, C.cell B y, C.cell (B + C.s) y⟩ : Elem)) _ h1 h3 (by simp) ?_
          intro y hy1 hy2 hyx
          simp only [decide_eq_false_iff_not]
          exact hother y (In.lt_cut (n := 2) (k := 1) (by omega) (by omega) ⟨hy1, hy2⟩) hyx B
        · intro q hq hqB
          rw [List.filter_eq_nil_iff]
          intro e he
          simp only [decide_eq_true_eq]
          rcases halfOps_mem he with ⟨h1, y, hy, rfl⟩ | ⟨_, h1, y, hy, rfl⟩
          · intro hc
            obtain ⟨_, rfl⟩ := (C.vec hC).inj _ _ _ _ (hy.lt_cut (by omega) (by omega)) hx hc
            have := cut_disj hC.u_pos hy hin
            omega
          · intro hc
            have := ((C.vec hC).inj _ _ _ _ (hy.lt_cut (by omega) (by omega)) hx hc).1
            omega
    rw [runElems_at, hfil]
    · rfl
    · intro e he e' he' hc
      obtain ⟨i, y, hi, hy, rfl⟩ := hmem e he
      obtain ⟨i', y', hi', hy', rfl⟩ := hmem e' he'
      have := ((C.vec hC).inj _ _ _ _ hy hy' hc).1
      omega
  · rename_i hBn
    apply runElems_other
    intro e he hc
    obtain ⟨i, y, hi, hy, rfl⟩ := hmem e he
    obtain ⟨rfl, _⟩ := (C.vec hC).inj _ _ _ _ hy hx hc
    exact hBn hi

/-- Contribution of process `r` and of its partner. -/
def Ctx.halfData {X : Type} [AddCommMonoid X] (C : Ctx) (m : Cell → X) (r x : Nat) : X :=
  ∑ q ∈ (Finset.range C.n).filter (fun q => q % C.s = r), m (.send q C.kk (C.σ x))

theorem sum_halfData {X : Type} [AddCommMonoid X] (hC : C.Ok) (m : Cell → X) (x : Nat) :
    ∑ r ∈ Finset.range C.s, C.halfData m r x = ∑ q ∈ Finset.range C.n, m (.send q C.kk (C.σ x)) := by
  unfold Ctx.halfData
  apply Finset.sum_fiberwise_of_maps_to
  intro q _
  rw [Finset.mem_range]
  exact Nat.mod_lt _ hC.s_pos

theorem halfData_eq {X : Type} [AddCommMonoid X] (h2 : C.n ≤ 2 * C.s) (m : Cell → X) {B : Nat} (x : Nat)
    (hB : B < C.s) (hsn : C.s ≤ C.n) : C.halfData m B x =
      if B + C.s < C.n then m (.send B C.kk (C.σ x)) + m (.send (B + C.s) C.kk (C.σ x)) else m (.send B C.kk (C.σ x)) := by
  have hmod : ∀ r, r < C.n → r % C.s = if r < C.s then r else r - C.s := by
    intro r hr
    split
    · exact Nat.mod_eq_of_lt (by omega)
    · rw [Nat.mod_eq_sub_mod (by omega), Nat.mod_eq_of_lt (by omega)]
  unfold Ctx.halfData
  split
  · rename_i h
    have : (Finset.range C.n).filter (fun q => q % C.s = B) = {B, B + C.s} := by
      ext q
      simp only [Finset.mem_filter, Finset.mem_range, Finset.mem_insert, Finset.mem_singleton]
      constructor
      · rintro ⟨hq, he⟩
        rw [hmod q hq] at he
        split at he <;> omega
      · intro hq
        have hqn : q < C.n := by omega
        refine ⟨hqn, ?_⟩
        rw [hmod q hqn]
        split <;> omega
    rw [this, Finset.sum_pair (by omega)]
  · rename_i h
    have : (Finset.range C.n).filter (fun q => q % C.s = B) = {B} := by
      ext q
      simp only [Finset.mem_filter, Finset.mem_range, Finset.mem_singleton]
      constructor
      · rintro ⟨hq, he⟩
        rw [hmod q hq] at he
        split at he <;> omega
      · intro hq
        have hqn : q < C.n := by omega
        refine ⟨hqn, ?_⟩
        rw [hmod q hqn]
        split <;> omega
    rw [this, Finset.sum_singleton]

theorem pair_R (A : Skel) {p q : Nat} (hp : p < C.n) (h : q = p ∨ q = C.pair p) :
    R C.n (A ++ [.sync C.b C.pair]) q A.length p (A.length + [Item.sync C.b C.pair].length) := by
  rcases h with rfl | rfl
  · exact .own (by simp)
  · refine R.sync (b := C.b) ?_ hp
    simp

theorem quiet_sync (b : Nat) (w : Nat → Nat) : Quiet [Item.sync b w] := by
  intro I hI p
  simp only [List.mem_singleton] at hI
  subst hI; rfl

/-- State before the reductions of the instances with the almost-half method. -/
theorem tinv_half {X : Type} [AddCommMonoid X] (hC : C.Ok) (hf : C.f0 = 1) (h2 : C.n ≤ 2 * C.s) (m : Cell → X)
    {A : Skel} (hA : Quiet A) (hP : Partners C.n A) :
    TInv C hC C.s (fun i => i % C.s) (fun q => q % C.s) (C.halfData m) m A.length (C.halfSk (C.copyinSk A)) C.f0 1
      (slice C.ts C.u C.f0 (fun _ => (0, C.len))) (fun p => shuffle 1 C.f0 p) (layout1 C.ts C.u C.s C.len C.f0) := by
  have hf0 := hC.f0_pos
  have hl := Lay.next (lay_zero C.s C.s C.ts C.len (Nat.le_refl _)) (slices_one C.ts C.len) (u := C.u) Nat.one_pos hf0
    (by rw [hf]; exact Nat.one_dvd _) (Or.inl rfl)
  have hs := Slices.next (slices_one C.ts C.len) (u := C.u) hf0 hC.unit
  rw [Nat.one_mul] at hl hs
  have h := cinv_start hC m hA hP (own := fun _ _ => True) (fun p q x hp hq _ _ hb => by
    rw [hf, Nat.div_one, Nat.div_one] at hb; exact hb.symm)
  generalize hT : C.copyinSk A = T at h
  have hdiv : ∀ q, q / C.f0 = q := fun q => by rw [hf, Nat.div_one]
  have hR1 : ∀ p q x, p < C.n → q < C.n → x < C.len → C.halfOwn p x → q % C.s = p % C.s →
      ∃ r, r < C.n ∧ q / C.f0 = r / C.f0 ∧ True ∧
        R C.n (T ++ [.sync C.b C.pair]) r T.length p (T.length + [Item.sync C.b C.pair].length) := by
    intro p q x hp hq _ _ hb
    exact ⟨q, hq, rfl, trivial, pair_R T hp (pair_of_mod h2 hp hq hb)⟩
  have hst : Stage C.n (C.vec hC) C.kk (T ++ [.sync C.b C.pair] ++ [.ops C.halfOps]) (fun q => q % C.s)
      (fun i => i % C.s) C.halfOwn := by
    refine Stage.next h.stage (quiet_sync _ _) hR1 ?_ ?_ ?_
    · intro p e hp he
      rcases halfOps_mem he with ⟨h1, x, hx, rfl⟩ | ⟨_, h1, x, hx, rfl⟩
      · refine ⟨p, x, hx.lt_cut (by omega) (by omega), Or.inl ⟨h1, hx⟩, rfl, rfl, Or.inl ⟨p + C.s, ?_, ?_, rfl⟩⟩
        · have := hC.s_pos; omega
        · exact Nat.add_mod_right p C.s
      · refine ⟨p - C.s, x, hx.lt_cut (by omega) (by omega), Or.inr (Or.inl ⟨h1, hx⟩), ?_, rfl, Or.inl ⟨p, ?_, rfl, rfl⟩⟩
        · exact (Nat.mod_eq_sub_mod h1).symm
        · have := hC.s_pos; omega
    · intro inst q hiq
      have : inst = q := by rw [← hdiv q]; exact hiq
      rw [this]
    · intro p q x hp hq _ h1 h3 hb
      rcases pair_of_mod h2 hp hq hb with he | he
      · exact he.symm
      · have hd : ∀ a, In (cut C.len C.u 2 0) a → In (cut C.len C.u 2 1) a → False := by
          intro a ha ha'
          have := cut_disj hC.u_pos ha ha'
          omega
        unfold Ctx.pair at he
        rcases h1 with ⟨g1, g2⟩ | ⟨g1, g2⟩ | ⟨g1, g2⟩ <;> rcases h3 with ⟨k1, k2⟩ | ⟨k1, k2⟩ | ⟨k1, k2⟩ <;>
          first
            | exact (hd x g2 k2).elim
            | exact (hd x k2 g2).elim
            | (split at he <;> (try split at he) <;> omega)
  have hent := Entered.next (f := C.halfOps) h.entered hR1
  generalize hU : T ++ [.sync C.b C.pair] ++ [.ops C.halfOps] = U at hst hent
  have hR2 : ∀ p q x, p < C.n → q < C.n → x < C.len →
      (p < C.s ∧ In (slice C.ts C.u C.f0 (fun _ => (0, C.len)) (shuffle 1 C.f0 p % C.f0)) x) →
      q % C.s / C.f0 = p % C.s / C.f0 →
      ∃ r, r < C.n ∧ q % C.s = r % C.s ∧ C.halfOwn r x ∧
        R C.n (U ++ [.sync C.b C.pair]) r U.length p (U.length + [Item.sync C.b C.pair].length) := by
    intro p q x hp hq hx ho hb
    rw [hdiv, hdiv] at hb
    by_cases hpn : p + C.s < C.n
    · obtain ⟨k, hk, hin⟩ := cut_cover (n := 2) hC.u_pos hC.u_dvd (by omega) hx
      rcases (show k = 0 ∨ k = 1 by omega) with rfl | rfl
      · exact ⟨p, hp, hb, Or.inl ⟨hpn, hin⟩, pair_R U hp (Or.inl rfl)⟩
      · refine ⟨p + C.s, hpn, by rw [Nat.add_mod_right, hb], Or.inr (Or.inl ⟨by omega, hin⟩), pair_R U hp (Or.inr ?_)⟩
        unfold Ctx.pair
        rw [if_pos hpn]
    · exact ⟨p, hp, hb, Or.inr (Or.inr ⟨ho.1, by omega⟩), pair_R U hp (Or.inl rfl)⟩
  have hlk : lockstep C.n (U ++ [.sync C.b C.pair] ++ [.ops fun _ => []]) m =
      runElems ((List.range C.n).flatMap C.halfOps) (lockstep C.n T m) := by
    rw [lockstep_append, lockstep_append, lockstep_quiet _ (quiet_sync _ _), lockstep_ops,
      List.flatMap_eq_nil_iff.2 (fun _ _ => rfl), ← hU, lockstep_append, lockstep_append, lockstep_quiet _ (quiet_sync _ _),
      lockstep_ops]
    rfl
  have hsync : Partners C.n [.sync C.b C.pair] := by
    intro b w hm p hp
    simp only [List.mem_singleton] at hm
    injection hm with _ hw
    subst hw
    exact pair_lt hp
  have hsk : C.halfSk T = U ++ [.sync C.b C.pair] ++ [.ops fun _ => []] := by rw [← hU]; rfl
  rw [hsk]
  refine ⟨by simp, Nat.one_pos, Or.inr rfl, ?_, fun p hp => Nat.mod_eq_of_lt hp, fun _ _ => Nat.mod_lt _ hC.s_pos, hl, hs,
    ?_, ?_, ?_, ?_, ?_⟩
  · intro inst hi
    rw [hf, Nat.mul_one] at hi
    exact Nat.mod_eq_of_lt hi
  · rw [← hU]
    exact (((h.partners.append hsync).append (partners_ops _)).append hsync).append (partners_ops _)
  · simp only [Nat.div_one]
    refine Stage.next hst (quiet_sync _ _) hR2 ?_ ?_ ?_
    · intro p e _ he
      simp at he
    · intro inst q hiq
      simp only [hdiv]
      exact hiq
    · intro p q x hp hq _ h1 h3 hb
      simp only [Nat.mod_eq_of_lt h1.1, Nat.mod_eq_of_lt h3.1, hdiv] at hb
      exact hb.symm
  · exact Entered.next hent hR2
  · intro B x hB hx
    rw [hf, Nat.mul_one] at hB
    have hBs : ∀ q, q ∈ (Finset.range C.s).filter (fun q => q / C.f0 = B) ↔ q = B := by
      intro q
      simp only [Finset.mem_filter, Finset.mem_range, hdiv]
      constructor
      · exact fun h => h.2
      · intro h
        subst h
        exact ⟨hB, rfl⟩
    have hset : (Finset.range C.s).filter (fun q => q / C.f0 = B) = {B} := by
      ext q; rw [hBs, Finset.mem_singleton]
    have hval : ∀ i, i < C.n → lockstep C.n T m (C.cell i x) = m (.send i C.kk (C.σ x)) := by
      intro i hi
      rw [h.val i x (by rw [hf, Nat.mul_one]; exact hi) hx]
      have : (Finset.range C.n).filter (fun q => q / C.f0 = i) = {i} := by
        ext q
        simp only [Finset.mem_filter, Finset.mem_range, hdiv, Finset.mem_singleton]
        constructor
        · exact fun h => h.2
        · intro h
          subst h
          exact ⟨hi, rfl⟩
      rw [this, Finset.sum_singleton]
    have hsle := hC.s_le
    rw [hlk, hset, Finset.sum_singleton, Nat.mul_one, half_run hC h2 _ hB hx, halfData_eq h2 m x hB hC.s_le]
    split
    · rename_i hc
      rw [hval B (by omega), hval (B + C.s) hc]
    · rw [hval B (by omega)]
  · intro c hc
    rw [hlk, runElems_other, h.frame c hc]
    intro e he hec
    simp only [List.mem_flatMap, List.mem_range] at he
    obtain ⟨p, hp, he⟩ := he
    rcases halfOps_mem he with ⟨h1, y, hy, rfl⟩ | ⟨_, h1, y, hy, rfl⟩
    · exact hc p y (hy.lt_cut (by omega) (by omega)) (by rw [hf, Nat.mul_one]; exact hp) hec.symm
    · exact hc (p - C.s) y (hy.lt_cut (by omega) (by omega)) (by rw [hf, Nat.mul_one]; omega) hec.symm

/-- The program of the first reduction. -/
theorem code_half (hC : C.Ok) (hfast : C.fast = false) (h2 : C.n ≤ 2 * C.s) (hlt : C.s < C.n) {p : Nat} (hp : p < C.n)
    (A : Skel) : code (C.halfSk A) p =
      code A p ++ (almostHalf C.b C.pl.reg C.n C.s C.len C.u p).flatMap (Instr.acts C.n p) := by
  obtain ⟨hst, hbase⟩ := hC.place hfast
  have hclog : Nat.clog 2 2 = 1 := by rw [Nat.clog_of_two_le (by omega) (by omega)]; simp
  have hbar : ∀ q : Nat, (localBarrierFinal C.b 2 [(p : Int), (q : Int)]).flatMap (Instr.acts C.n p) =
      [.set C.b p, .wait C.b (q : Nat)] := by
    intro q
    unfold localBarrierFinal
    rw [if_pos (by omega)]
    rw [acts_busyRounds C.n p C.b _ (by simp [rankAt])]
    simp [hclog, rankAt]
    rfl
  have hidle : (localBarrierFinal C.b (-2) [(p : Int)]).flatMap (Instr.acts C.n p) = [.set C.b p, .wait C.b (p : Nat)] := by
    unfold localBarrierFinal
    rw [if_neg (by omega)]
    rw [acts_idleRounds C.n p C.b _ (by simp [rankAt])]
    simp [hclog]
  have hcopy : ∀ i j (c : Nat × Nat), (Instr.acts C.n p (.copy true ⟨C.pl.reg, i * C.len + c.1⟩ ⟨C.pl.reg, j * C.len + c.1⟩ c.2)) =
      ((List.range c.2).map fun e => (⟨true, C.cell i (c.1 + e), C.cell j (c.1 + e)⟩ : Elem)).map Elem.act := by
    intro i j c
    simp only [Instr.acts, List.map_map]
    apply List.map_congr_left
    intro e _
    simp only [Function.comp, Elem.act, Ctx.cell, hst, hbase, Nat.add_zero, hC.cell_eq _ p, hC.cell_off]
  have hsplit : code (C.halfSk A) p = code A p ++ ([Act.set C.b p, .wait C.b (C.pair p : Nat)] ++
      (C.halfOps p).map Elem.act ++ [Act.set C.b p, .wait C.b (C.pair p : Nat)]) := by
    unfold Ctx.halfSk
    simp [code, Item.acts]
  rw [hsplit]
  congr 1
  unfold almostHalf
  by_cases hpn : p + C.s < C.n
  · have h1 : p < C.n - C.s := by omega
    have hm : p % (C.n - C.s) = p := Nat.mod_eq_of_lt h1
    have hd : p / (C.n - C.s) = 0 := Nat.div_eq_of_lt h1
    have hpair : C.pair p = p + C.s := by unfold Ctx.pair; rw [if_pos hpn]
    simp only [h1, true_or, if_true, hm, hd, List.flatMap_append, List.flatMap_cons, List.flatMap_nil, List.append_nil]
    rw [hbar, hcopy, hpair]
    unfold Ctx.halfOps
    rw [if_pos hpn]
  · have h1 : ¬ p < C.n - C.s := by omega
    by_cases hps : C.s ≤ p
    · have hm : (p - C.s) % (C.n - C.s) = p - C.s := Nat.mod_eq_of_lt (by omega)
      have hpair : C.pair p = p - C.s := by unfold Ctx.pair; rw [if_neg hpn, if_pos hps]
      simp only [h1, hps, or_true, if_true, if_false, hm, List.flatMap_append, List.flatMap_cons, List.flatMap_nil,
        List.append_nil]
      rw [hbar, hcopy, hpair]
      unfold Ctx.halfOps
      rw [if_neg hpn, if_pos hps, Nat.sub_add_cancel hps]
    · have hpair : C.pair p = p := by unfold Ctx.pair; rw [if_neg hpn, if_neg hps]
      rw [if_neg (by omega)]
      rw [List.flatMap_append, hidle, hpair]
      unfold Ctx.halfOps
      rw [if_neg hpn, if_neg hps]
      rfl

end

end ExtMpi.OnNode
