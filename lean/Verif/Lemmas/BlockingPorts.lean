import Verif.Model.BlockingPorts
import Verif.Spec.BlockingPorts
import Verif.Lemmas.PortChoice
import Mathlib.Order.Defs.LinearOrder
import Mathlib.Tactic.Ring
/-! The search of `ext_mpi_cost_simple_recursive`. -/
namespace ExtMpi.BlockingPorts
open PortChoice

/-! ## Keeping the least -/

theorem keep_fold {α β : Type} [LinearOrder α] (limit : α) (g : β → Option (α × List Nat)) (xs : List β) :
    ∀ best : Option (α × List Nat), (∀ b, best = some b → b.1 < limit) →
      (∀ r, xs.foldl (fun b i => keep limit b (g i)) best = some r → r.1 < limit ∧ (best = some r ∨ ∃ i, i ∈ xs ∧ g i = some r) ∧
        (∀ b, best = some b → r.1 ≤ b.1) ∧ ∀ i c, i ∈ xs → g i = some c → r.1 ≤ c.1) ∧
      (xs.foldl (fun b i => keep limit b (g i)) best = none → best = none ∧ ∀ i c, i ∈ xs → g i = some c → ¬ c.1 < limit) := by
  induction xs with
  | nil =>
    intro best hb
    refine ⟨fun r h => ?_, fun h => ⟨h, fun i c hi => by cases hi⟩⟩
    simp only [List.foldl_nil] at h
    exact ⟨hb r h, .inl h, fun b hb' => by rw [h] at hb'; cases hb'; exact le_rfl, fun i c hi => by cases hi⟩
  | cons x xs ih =>
    intro best hb
    rw [List.foldl_cons]
    cases hg : g x with
    | none =>
      have e : keep limit best none = best := by unfold keep; cases best <;> rfl
      rw [e]
      obtain ⟨i1, i2⟩ := ih best hb
      refine ⟨fun r h => ?_, fun h => ?_⟩
      · obtain ⟨a1, a2, a3, a4⟩ := i1 r h
        refine ⟨a1, a2.imp id fun ⟨i, hi, hgi⟩ => ⟨i, List.mem_cons_of_mem _ hi, hgi⟩, a3, fun i c hi hc => ?_⟩
        rcases List.mem_cons.1 hi with rfl | hi
        · rw [hg] at hc; cases hc
        · exact a4 i c hi hc
      · obtain ⟨a1, a2⟩ := i2 h
        refine ⟨a1, fun i c hi hc => ?_⟩
        rcases List.mem_cons.1 hi with rfl | hi
        · rw [hg] at hc; cases hc
        · exact a2 i c hi hc
    | some c =>
      cases best with
      | none =>
        by_cases hl : c.1 < limit
        · have e : keep limit none (some c) = some c := if_pos hl
          rw [e]
          obtain ⟨i1, i2⟩ := ih (some c) (fun b h => by cases h; exact hl)
          refine ⟨fun r h => ?_, fun h => by cases (i2 h).1⟩
          obtain ⟨a1, a2, a3, a4⟩ := i1 r h
          refine ⟨a1, .inr ?_, fun b h => by (cases h), fun i c' hi hc => ?_⟩
          · rcases a2 with h | ⟨i, hi, hgi⟩
            · exact ⟨x, List.mem_cons_self, by rw [hg]; exact h⟩
            · exact ⟨i, List.mem_cons_of_mem _ hi, hgi⟩
          · rcases List.mem_cons.1 hi with rfl | hi
            · rw [hg] at hc; cases hc; exact a3 c rfl
            · exact a4 i c' hi hc
        · have e : keep limit none (some c) = none := if_neg hl
          rw [e]
          obtain ⟨i1, i2⟩ := ih none (fun b h => by cases h)
          refine ⟨fun r h => ?_, fun h => ?_⟩
          · obtain ⟨a1, a2, a3, a4⟩ := i1 r h
            refine ⟨a1, a2.imp id fun ⟨i, hi, hgi⟩ => ⟨i, List.mem_cons_of_mem _ hi, hgi⟩, a3, fun i c' hi hc => ?_⟩
            rcases List.mem_cons.1 hi with rfl | hi
            · rw [hg] at hc; cases hc; exact (lt_of_lt_of_le a1 (not_lt.1 hl)).le
            · exact a4 i c' hi hc
          · obtain ⟨a1, a2⟩ := i2 h
            refine ⟨a1, fun i c' hi hc => ?_⟩
            rcases List.mem_cons.1 hi with rfl | hi
            · rw [hg] at hc; cases hc; exact hl
            · exact a2 i c' hi hc
      | some b =>
        have hbl := hb b rfl
        by_cases hl : c.1 < b.1
        · have e : keep limit (some b) (some c) = some c := if_pos hl
          rw [e]
          obtain ⟨i1, i2⟩ := ih (some c) (fun b h => by cases h; exact hl.trans hbl)
          refine ⟨fun r h => ?_, fun h => by cases (i2 h).1⟩
          obtain ⟨a1, a2, a3, a4⟩ := i1 r h
          have h3 := a3 c rfl
          refine ⟨a1, .inr ?_, fun b' h => by cases h; exact h3.trans hl.le, fun i c' hi hc => ?_⟩
          · rcases a2 with h | ⟨i, hi, hgi⟩
            · exact ⟨x, List.mem_cons_self, by rw [hg]; exact h⟩
            · exact ⟨i, List.mem_cons_of_mem _ hi, hgi⟩
          · rcases List.mem_cons.1 hi with rfl | hi
            · rw [hg] at hc; cases hc; exact h3
            · exact a4 i c' hi hc
        · have e : keep limit (some b) (some c) = some b := if_neg hl
          rw [e]
          obtain ⟨i1, i2⟩ := ih (some b) hb
          refine ⟨fun r h => ?_, fun h => by cases (i2 h).1⟩
          obtain ⟨a1, a2, a3, a4⟩ := i1 r h
          refine ⟨a1, a2.imp id fun ⟨i, hi, hgi⟩ => ⟨i, List.mem_cons_of_mem _ hi, hgi⟩, a3, fun i c' hi hc => ?_⟩
          rcases List.mem_cons.1 hi with rfl | hi
          · rw [hg] at hc; cases hc; exact (a3 b rfl).trans (not_lt.1 hl)
          · exact a4 i c' hi hc

/-! ## The bounds -/

/-- The ports a step can have at all. -/
def cap (portMax nports : Nat) : Nat := max 1 (min portMax nports)

theorem portBound_eq (N nports fac portMax : Nat) : portBound N nports fac portMax = min (cap portMax nports) ((N - 1) / fac + 1) := by
  unfold portBound cap
  generalize (N - 1) / fac = x
  omega

theorem portBound_down (N nports fac fac' portMax : Nat) (h0 : 0 < fac) (h : fac ≤ fac') :
    portBound N nports fac' (portBound N nports fac portMax) = min (cap portMax nports) ((N - 1) / fac' + 1) := by
  have h1 : (N - 1) / fac' ≤ (N - 1) / fac := Nat.div_le_div_left h h0
  unfold portBound cap
  generalize (N - 1) / fac = x at *
  generalize (N - 1) / fac' = y at *
  omega

/-! ## The factors that are tried -/

/-- The factors after steps with product `fac`. -/
def Legal (N P : Nat) : Nat → Nat → List Nat → Prop
  | fac, r, [] => 2 ≤ r ∧ r ≤ P + 1 ∧ N ≤ fac * r ∧ fac * (r - 2) < N
  | fac, r, r' :: rs => 2 ≤ r ∧ r ≤ P + 1 ∧ fac * r < N ∧ Legal N P (fac * r) r' rs

theorem simpleRec_sound {α : Type} [LinearOrder α] [Add α] (N nports P : Nat) (hN : 0 < N) (limit : α) (cost : Nat → Nat → α) (f : Nat) :
    ∀ (fac pm : Nat) (x : α × List Nat), 0 < fac → (∀ fac', fac ≤ fac' → portBound N nports fac' pm = min P ((N - 1) / fac' + 1)) →
      simpleRec N nports limit cost f fac pm = some x → x.1 < limit ∧ ∃ r rs, x.2 = r :: rs ∧ Legal N P fac r rs ∧ x.1 = time cost fac r rs := by
  induction f with
  | zero => intro fac pm x _ _ h; cases h
  | succ f ih =>
    intro fac pm x hfac hb h
    rw [simpleRec] at h
    have hbf := hb fac le_rfl
    obtain ⟨h1, h2, -, -⟩ := (keep_fold limit _ _ none (fun b h => by cases h)).1 x h
    refine ⟨h1, ?_⟩
    rcases h2 with h2 | ⟨i, hi, hg⟩
    · cases h2
    · rw [List.mem_range] at hi
      split at hg
      · rename_i hlt
        obtain ⟨y, hy, rfl⟩ := Option.map_eq_some_iff.1 hg
        have hdown : ∀ fac', fac * (i + 2) ≤ fac' → portBound N nports fac' (portBound N nports fac pm) = min P ((N - 1) / fac' + 1) := by
          intro fac' hle
          have h3 := Nat.le_mul_of_pos_right fac (show 0 < i + 2 by omega)
          rw [portBound_down N nports fac fac' pm hfac (by omega)]
          rw [← hb fac' (by omega), portBound_eq]
        obtain ⟨-, r, rs, e1, e2, e3⟩ := ih _ _ y (Nat.mul_pos hfac (by omega)) hdown hy
        refine ⟨i + 2, r :: rs, by simp only [e1], ⟨by omega, by omega, hlt, e2⟩, ?_⟩
        simp only [e3, time]
      · rename_i hge
        cases hg
        refine ⟨i + 2, [], rfl, ⟨by omega, by omega, by omega, ?_⟩, rfl⟩
        have h5 : i ≤ (N - 1) / fac := by omega
        have h6 := Nat.mul_le_mul_left fac h5
        have h7 := Nat.mul_div_le (N - 1) fac
        rw [Nat.add_sub_cancel]
        omega

theorem simpleRec_least {α : Type} [LinearOrder α] [Add α] (N nports P : Nat) (limit : α) (cost : Nat → Nat → α)
    (hmono : ∀ a b c : α, b ≤ c → a + b ≤ a + c) (hpos : ∀ fac r (x : α), x ≤ cost fac r + x) (f : Nat) :
    ∀ (fac pm r : Nat) (rs : List Nat), 0 < fac → (∀ fac', fac ≤ fac' → portBound N nports fac' pm = min P ((N - 1) / fac' + 1)) →
      N + 1 ≤ f + fac → fac < N ∨ f ≠ 0 → Legal N P fac r rs → time cost fac r rs < limit →
      ∃ x, simpleRec N nports limit cost f fac pm = some x ∧ x.1 ≤ time cost fac r rs := by
  induction f with
  | zero => intro fac pm r rs _ _ h1 h2; omega
  | succ f ih =>
    intro fac pm r rs hfac hb hf _ hL ht
    have hbf := hb fac le_rfl
    have cand : ∃ i c, i < portBound N nports fac pm ∧ (if fac * (i + 2) < N then
          (simpleRec N nports limit cost f (fac * (i + 2)) (portBound N nports fac pm)).map fun x =>
            (cost fac (i + 2) + x.1, (i + 2) :: x.2)
        else some (cost fac (i + 2), [i + 2])) = some c ∧ c.1 ≤ time cost fac r rs := by
      cases rs with
      | nil =>
        obtain ⟨l1, l2, l3, l4⟩ := hL
        refine ⟨r - 2, (cost fac r, [r]), ?_, ?_, le_rfl⟩
        · have h5 : r - 2 ≤ (N - 1) / fac := by
            rw [Nat.le_div_iff_mul_le hfac, Nat.mul_comm]; omega
          omega
        · have e : r - 2 + 2 = r := by omega
          rw [e, if_neg (by omega)]
      | cons r' rs =>
        obtain ⟨l1, l2, l3, l4⟩ := hL
        have e : r - 2 + 2 = r := by omega
        have hdouble : fac + 1 ≤ fac * r := by
          have := Nat.mul_le_mul_left fac l1
          omega
        have hdown : ∀ fac', fac * r ≤ fac' → portBound N nports fac' (portBound N nports fac pm) = min P ((N - 1) / fac' + 1) := by
          intro fac' hle
          rw [portBound_down N nports fac fac' pm hfac (by omega)]
          rw [← hb fac' (by omega), portBound_eq]
        have hrest : time cost (fac * r) r' rs < limit := lt_of_le_of_lt (hpos fac r _) ht
        obtain ⟨x, x1, x2⟩ := ih (fac * r) (portBound N nports fac pm) r' rs (by omega) hdown (by omega) (.inl l3) l4 hrest
        refine ⟨r - 2, (cost fac r + x.1, r :: x.2), ?_, ?_, hmono _ _ _ x2⟩
        · have h5 : r ≤ (N - 1) / fac := by
            rw [Nat.le_div_iff_mul_le hfac, Nat.mul_comm]; omega
          omega
        · rw [e, if_pos l3, x1]; rfl
    obtain ⟨i, c, hi, hc, hle⟩ := cand
    rw [simpleRec]
    obtain ⟨k1, k2⟩ := keep_fold limit (fun i => if fac * (i + 2) < N then
          (simpleRec N nports limit cost f (fac * (i + 2)) (portBound N nports fac pm)).map fun x =>
            (cost fac (i + 2) + x.1, (i + 2) :: x.2)
        else some (cost fac (i + 2), [i + 2])) (List.range (portBound N nports fac pm)) none (fun b h => by cases h)
    cases hr : (List.range (portBound N nports fac pm)).foldl (fun best i => keep limit best (if fac * (i + 2) < N then
          (simpleRec N nports limit cost f (fac * (i + 2)) (portBound N nports fac pm)).map fun x =>
            (cost fac (i + 2) + x.1, (i + 2) :: x.2)
        else some (cost fac (i + 2), [i + 2]))) none with
    | none => exact absurd (lt_of_le_of_lt hle ht) ((k2 hr).2 i c (List.mem_range.2 hi) hc)
    | some x => exact ⟨x, rfl, ((k1 x hr).2.2.2 i c (List.mem_range.2 hi) hc).trans hle⟩

/-! ## The specification of the factors -/

theorem legal_iff (N P : Nat) (rs : List Nat) : ∀ fac r, 0 < fac → (Legal N P fac r rs ↔
    (∀ x, x ∈ r :: rs → 2 ≤ x ∧ x ≤ P + 1) ∧ N ≤ fac * (r :: rs).prod ∧ (rs = [] ∨ fac * (r :: rs).dropLast.prod < N) ∧
      ∀ l, (r :: rs).getLast? = some l → fac * (r :: rs).dropLast.prod * (l - 2) < N) := by
  induction rs with
  | nil =>
    intro fac r hf
    simp only [Legal, List.mem_singleton, forall_eq, List.prod_cons, List.prod_nil, Nat.mul_one, true_or, true_and, List.getLast?_singleton,
      Option.some.injEq, List.dropLast_singleton, forall_eq']
    tauto
  | cons r' rs ih =>
    intro fac r hf
    rw [Legal]
    have hd : (r :: r' :: rs).dropLast = r :: (r' :: rs).dropLast := List.dropLast_cons_of_ne_nil (by simp)
    have hg : (r :: r' :: rs).getLast? = (r' :: rs).getLast? := by simp [List.getLast?_cons]
    rw [hd, hg, List.prod_cons (a := r), List.prod_cons (a := r) (l := (r' :: rs).dropLast), ← Nat.mul_assoc, ← Nat.mul_assoc]
    by_cases hr : 2 ≤ r
    · rw [ih (fac * r) r' (Nat.mul_pos hf (by omega))]
      constructor
      · rintro ⟨h1, h2, h3, h4, h5, h6, h7⟩
        refine ⟨fun x hx => ?_, h5, .inr ?_, h7⟩
        · rcases List.mem_cons.1 hx with rfl | hx
          · exact ⟨h1, h2⟩
          · exact h4 x hx
        · rcases h6 with rfl | h6
          · simpa using h3
          · exact h6
      · rintro ⟨h1, h2, h3, h4⟩
        have h3 := h3.resolve_left (by simp)
        refine ⟨hr, (h1 r List.mem_cons_self).2, ?_, fun x hx => h1 x (List.mem_cons_of_mem _ hx), h2, .inr h3, h4⟩
        have hp : 0 < (r' :: rs).dropLast.prod := by
          have := prod_ge_pow (r' :: rs).dropLast fun n hn => (h1 n (List.mem_cons_of_mem _ (List.dropLast_subset _ hn))).1
          exact lt_of_lt_of_le (Nat.two_pow_pos _) this
        calc fac * r = fac * r * 1 := by ring
          _ ≤ fac * r * (r' :: rs).dropLast.prod := Nat.mul_le_mul_left _ hp
          _ < N := h3
    · constructor
      · rintro ⟨h, _⟩; omega
      · rintro ⟨h, _⟩; have := h r List.mem_cons_self; omega

theorem steps_legal (N P r : Nat) (rs : List Nat) : Steps N P (r :: rs) ↔ Legal N P 1 r rs := by
  rw [legal_iff N P rs 1 r (by omega)]
  simp only [Nat.one_mul]
  constructor
  · intro h
    exact ⟨h.range, h.covers, h.before.imp (fun e => by simpa using e) id, h.last⟩
  · rintro ⟨h1, h2, h3, h4⟩
    exact ⟨by simp, h1, h2, h3.imp (fun e => by simp [e]) id, h4⟩

/-! ## Reversal -/

theorem shiftSigns_one (N n : Nat) : shiftSigns ((N : Int) :: List.replicate n (N : Int)) = List.replicate n (N : Int) ++ [-(N : Int)] := by
  induction n with
  | zero => simp [shiftSigns]
  | succ n ih =>
    rw [List.replicate_succ, shiftSigns, if_neg (by omega), ih, List.cons_append]

theorem revertGroups_one (N n : Nat) : revertGroups (groupsOf N n) = groupsOf N n := by
  unfold revertGroups
  have : (groupsOf N n).reverse = -(N : Int) :: List.replicate (n - 1) (N : Int) := by unfold groupsOf; simp
  rw [this]
  dsimp only
  rw [Int.natAbs_neg, Int.natAbs_natCast, shiftSigns_one]
  rfl

end ExtMpi.BlockingPorts
