import Mathlib.Algebra.Order.BigOperators.Group.List
import Mathlib.Tactic.Ring
import Verif.Model.PortChoice
import Verif.Spec.PortChoice
/-! Lemmas about the enumeration of factors. -/
namespace ExtMpi.PortChoice

theorem usedFrom_spec (N k : Nat) (ns us : List Nat) (k' : Nat) (h : usedFrom N k ns = some (us, k')) :
    us <+: ns ∧ k' = k * us.prod ∧ N ≤ k' ∧ (us = [] ∨ k * us.dropLast.prod < N) := by
  induction ns generalizing k us k' with
  | nil =>
    simp only [usedFrom] at h
    by_cases hk : k < N
    · simp [hk] at h
    · simp only [hk, if_false, Option.some.injEq, Prod.mk.injEq] at h
      obtain ⟨rfl, rfl⟩ := h
      exact ⟨List.prefix_refl _, by simp, by omega, .inl rfl⟩
  | cons n ns ih =>
    simp only [usedFrom] at h
    by_cases hk : k < N
    · simp only [hk, if_true, Option.map_eq_some_iff] at h
      obtain ⟨⟨vs, kk⟩, h1, h2⟩ := h
      obtain ⟨rfl, rfl⟩ := Prod.mk.inj h2
      obtain ⟨i1, i2, i3, i4⟩ := ih _ _ _ h1
      refine ⟨?_, ?_, i3, .inr ?_⟩
      · obtain ⟨t, rfl⟩ := i1; exact ⟨t, rfl⟩
      · rw [i2, List.prod_cons]; ring
      · cases vs with
        | nil => simpa using hk
        | cons v vs =>
          rcases i4 with i4 | i4
          · cases i4
          · rw [List.dropLast_cons₂, List.prod_cons, ← Nat.mul_assoc]; exact i4
    · simp only [hk, if_false, Option.some.injEq, Prod.mk.injEq] at h
      obtain ⟨rfl, rfl⟩ := h
      exact ⟨List.nil_prefix, by simp, by omega, .inl rfl⟩

theorem usedFrom_some (N k : Nat) (ns : List Nat) (h : N ≤ k * ns.prod) :
    ∃ r, usedFrom N k ns = some r := by
  induction ns generalizing k with
  | nil =>
    have : ¬ k < N := by simp at h; omega
    exact ⟨([], k), by simp [usedFrom, this]⟩
  | cons n ns ih =>
    by_cases hk : k < N
    · obtain ⟨r, hr⟩ := ih (k * n) (by rw [List.prod_cons, ← Nat.mul_assoc] at h; exact h)
      exact ⟨(n :: r.1, r.2), by simp [usedFrom, hk, hr]⟩
    · exact ⟨([], k), by simp [usedFrom, hk]⟩

theorem prod_ge_pow (ns : List Nat) (h : ∀ n, n ∈ ns → 2 ≤ n) : 2 ^ ns.length ≤ ns.prod := by
  induction ns with
  | nil => simp
  | cons n ns ih =>
    rw [List.prod_cons, List.length_cons, Nat.pow_succ, Nat.mul_comm]
    exact Nat.mul_le_mul (h n List.mem_cons_self) (ih fun m hm => h m (List.mem_cons_of_mem _ hm))

theorem prod_split (us : List Nat) (l : Nat) (h : us.getLast? = some l) : us.prod = us.dropLast.prod * l := by
  have hne : us ≠ [] := by rintro rfl; simp at h
  have hl : us.getLast hne = l := by
    rw [List.getLast?_eq_some_getLast hne] at h; exact Option.some.inj h
  conv_lhs => rw [← List.dropLast_append_getLast hne]
  rw [List.prod_append, hl]; simp

theorem bump_spec (ds : List Nat) (c : Nat) (ds' : List Nat) (h : bump ds = some (c, ds'))
    (hr : ∀ d, d ∈ ds → 2 ≤ d ∧ d ≤ 13) :
    ds'.length = ds.length ∧ ∀ d, d ∈ ds' → 2 ≤ d ∧ d ≤ 13 := by
  induction ds generalizing c ds' with
  | nil => simp [bump] at h
  | cons d ds ih =>
    have hr' := fun e (he : e ∈ ds) => hr e (List.mem_cons_of_mem _ he)
    by_cases hd : factorMax < d + 1
    · rw [bump, if_pos hd, Option.map_eq_some_iff] at h
      obtain ⟨r, h1, h2⟩ := h
      obtain ⟨-, rfl⟩ := Prod.mk.inj h2
      obtain ⟨i1, i2⟩ := ih r.1 r.2 h1 hr'
      refine ⟨by simp [i1], fun e he => ?_⟩
      rcases List.mem_cons.1 he with rfl | he
      · omega
      · exact i2 e he
    · rw [bump, if_neg hd] at h
      obtain ⟨-, rfl⟩ := Prod.mk.inj (Option.some.inj h)
      refine ⟨by simp, fun e he => ?_⟩
      rcases List.mem_cons.1 he with rfl | he
      · have := hr d List.mem_cons_self
        simp only [factorMax] at hd
        omega
      · exact hr' e he

/-- States of the odometer. -/
structure State (N : Nat) (rev : List Nat) : Prop where
  long : N ≤ 2 ^ rev.length
  range : ∀ d, d ∈ rev → 2 ≤ d ∧ d ≤ 13

theorem State.used {N : Nat} {rev : List Nat} (h : State N rev) (hN : 2 ≤ N) :
    ∃ us last, PortChoice.used N rev.reverse = some (us, us.prod) ∧ us.getLast? = some last ∧ us <+: rev.reverse ∧
      (∀ n, n ∈ us → 2 ≤ n ∧ n ≤ 13) ∧ N ≤ us.prod ∧ us.dropLast.prod < N ∧
      us.prod / last = us.dropLast.prod := by
  have hl : N ≤ 1 * rev.reverse.prod := by
    rw [Nat.one_mul]
    refine h.long.trans ?_
    have := prod_ge_pow rev.reverse fun n hn => (h.range n (List.mem_reverse.1 hn)).1
    rwa [List.length_reverse] at this
  obtain ⟨⟨us, k⟩, hr⟩ := usedFrom_some N 1 rev.reverse hl
  obtain ⟨h1, h2, h3, h4⟩ := usedFrom_spec _ _ _ _ _ hr
  rw [Nat.one_mul] at h2
  subst h2
  have hne : us ≠ [] := by
    rintro rfl
    simp at h3; omega
  have hrg : ∀ n, n ∈ us → 2 ≤ n ∧ n ≤ 13 := fun n hn => h.range n (List.mem_reverse.1 (h1.subset hn))
  refine ⟨us, us.getLast hne, hr, List.getLast?_eq_some_getLast hne, h1, hrg, h3, ?_, ?_⟩
  · rcases h4 with h4 | h4
    · exact absurd h4 hne
    · rwa [Nat.one_mul] at h4
  · rw [prod_split us _ (List.getLast?_eq_some_getLast hne)]
    exact Nat.mul_div_cancel _ (by have := hrg _ (List.getLast_mem hne); omega)

/-- The list used by a state is tight. -/
def Good (N : Nat) (rev : List Nat) : Prop := ∀ us k, used N rev.reverse = some (us, k) → Tight N us

theorem nextNumber_spec (N : Nat) (hN : 2 ≤ N) : ∀ (w m : Nat) (rev : List Nat), weight rev ≤ w → State N rev →
    ∃ r, nextNumber N m rev = some r ∧ ∀ rev', r = some rev' → State N rev' ∧ Good N rev' ∧ weight rev' < weight rev := by
  intro w
  induction w with
  | zero =>
    intro m rev hw hs
    rw [nextNumber]
    split
    · exact ⟨none, rfl, by simp⟩
    · rename_i c rev' hb
      have := bump_weight _ _ _ hb
      omega
  | succ w ih =>
    intro m rev hw hs
    rw [nextNumber]
    split
    · exact ⟨none, rfl, by simp⟩
    · rename_i c rev' hb
      have hwt := bump_weight _ _ _ hb
      obtain ⟨b1, b2⟩ := bump_spec _ _ _ hb hs.range
      have hs' : State N rev' := ⟨by rw [b1]; exact hs.long, b2⟩
      obtain ⟨us, last, u1, u2, u3, u4, u5, u6, u7⟩ := hs'.used hN
      dsimp only
      rw [u1]; dsimp only
      rw [u2]; dsimp only
      by_cases hc : us.length - 1 < min m (rev'.length - c) ∨ N ≤ us.prod / last * (last - 1)
      · rw [if_pos hc]
        obtain ⟨r, h1, h2⟩ := ih (min m (rev'.length - c)) rev' (by omega) hs'
        refine ⟨r, h1, fun r' hr' => ?_⟩
        obtain ⟨j1, j2, j3⟩ := h2 r' hr'
        exact ⟨j1, j2, by omega⟩
      · rw [if_neg hc]
        refine ⟨some rev', rfl, fun r' hr' => ?_⟩
        obtain rfl := Option.some.inj hr'
        refine ⟨hs', fun vs k hvs => ?_, hwt⟩
        rw [u1] at hvs
        obtain ⟨rfl, -⟩ := Prod.mk.inj (Option.some.inj hvs)
        refine ⟨by rintro rfl; simp at u2, u4, u5, u6, fun l hl => ?_⟩
        rw [u2] at hl
        obtain rfl := Option.some.inj hl
        rw [u7] at hc
        omega

theorem mem_emit (ag : Bool) (us : List Nat) (fs : List Int) :
    fs ∈ emit ag us ↔ ∃ l, l ≤ us.length ∧ (ag = true → l = 0) ∧ Shaped us l fs := by
  unfold emit Shaped
  rw [List.mem_map]
  constructor
  · rintro ⟨l, h1, rfl⟩
    rw [List.mem_range] at h1
    refine ⟨l, ?_, ?_, rfl⟩
    · split at h1 <;> omega
    · intro h; rw [if_pos h] at h1; omega
  · rintro ⟨l, h1, h2, rfl⟩
    refine ⟨l, ?_, rfl⟩
    rw [List.mem_range]
    split
    · rename_i h; rw [h2 h]; omega
    · omega

theorem enumerate_spec (N : Nat) (hN : 2 ≤ N) (ag : Bool) (f : Nat) : ∀ (room : Nat) (rev : List Nat)
    (ls : List (List Int)), State N rev → Good N rev → enumerate N ag f room rev = some ls → ∀ fs, fs ∈ ls →
    ∃ nums l, Tight N nums ∧ l ≤ nums.length ∧ (ag = true → l = 0) ∧ Shaped nums l fs := by
  induction f with
  | zero =>
    intro room rev ls _ _ h fs hfs
    rw [enumerate] at h
    obtain rfl := Option.some.inj h
    cases hfs
  | succ f ih =>
    intro room rev ls hs hg h fs hfs
    rw [enumerate] at h
    by_cases hr : room = 0
    · rw [if_pos hr] at h
      obtain rfl := Option.some.inj h
      cases hfs
    · rw [if_neg hr] at h
      obtain ⟨us, last, u1, -⟩ := hs.used hN
      rw [u1] at h
      dsimp only at h
      have hgood : ∀ fs, fs ∈ emit ag us →
          ∃ nums l, Tight N nums ∧ l ≤ nums.length ∧ (ag = true → l = 0) ∧ Shaped nums l fs := by
        intro fs hfs
        obtain ⟨l, h1, h2, h3⟩ := (mem_emit ag us fs).1 hfs
        exact ⟨us, l, hg us _ u1, h1, h2, h3⟩
      by_cases hlen : room < (emit ag us).length
      · rw [if_pos hlen] at h; cases h
      · rw [if_neg hlen] at h
        obtain ⟨r, n1, n2⟩ := nextNumber_spec N hN _ (N + 1) rev (Nat.le_refl _) hs
        rw [n1] at h
        cases r with
        | none =>
          dsimp only at h
          obtain rfl := Option.some.inj h
          exact hgood fs hfs
        | some rev' =>
          dsimp only at h
          obtain ⟨s1, s2, -⟩ := n2 rev' rfl
          rw [Option.map_eq_some_iff] at h
          obtain ⟨ls', h1, rfl⟩ := h
          rcases List.mem_append.1 hfs with h2 | h2
          · exact hgood fs h2
          · exact ih _ _ _ s1 s2 h1 fs h2

theorem doublings_spec (N : Nat) (f k : Nat) (h : N ≤ k * 2 ^ f) (hk : 0 < k) :
    N ≤ k * 2 ^ doublings N f k ∧ (doublings N f k = 0 ∨ k * 2 ^ (doublings N f k - 1) < N) := by
  induction f generalizing k with
  | zero => simpa [doublings] using h
  | succ f ih =>
    rw [doublings]
    by_cases hkN : k < N
    · rw [if_pos hkN]
      obtain ⟨h1, h2⟩ := ih (k * 2) (by rw [Nat.mul_assoc, ← Nat.pow_succ']; exact h) (by omega)
      refine ⟨by rw [Nat.pow_succ', ← Nat.mul_assoc]; exact h1, .inr ?_⟩
      rw [Nat.add_sub_cancel]
      rcases h2 with h2 | h2
      · rw [h2]; simpa using hkN
      · cases hd : doublings N f (k * 2) with
        | zero => simpa using hkN
        | succ d =>
          rw [hd, Nat.add_sub_cancel] at h2
          rw [Nat.pow_succ', ← Nat.mul_assoc]; exact h2
    · rw [if_neg hkN]
      exact ⟨by simp; omega, .inl rfl⟩

theorem slots_spec (N : Nat) (hN : 2 ≤ N) :
    0 < slots N ∧ N ≤ 2 ^ slots N ∧ 2 ^ (slots N - 1) < N := by
  obtain ⟨h1, h2⟩ := doublings_spec N N 1 (by rw [Nat.one_mul]; exact Nat.lt_two_pow_self.le) Nat.one_pos
  rw [Nat.one_mul] at h1 h2
  rcases h2 with h2 | h2
  · rw [h2] at h1; simp at h1; omega
  · refine ⟨?_, h1, h2⟩
    by_contra h0
    have h0 : slots N = 0 := by omega
    change N ≤ 2 ^ slots N at h1
    rw [h0] at h1; simp at h1; omega

theorem slots_unique (N a b : Nat) (ha : N ≤ 2 ^ a) (hb : 0 < b) (hb' : 2 ^ (b - 1) < N) : b ≤ a := by
  by_contra h
  have : 2 ^ a ≤ 2 ^ (b - 1) := Nat.pow_le_pow_right (by omega) (by omega)
  omega

theorem raise_two (N k f : Nat) (h : N ≤ 2 * k) : raise N k f 2 = 2 := by
  cases f with
  | zero => rfl
  | succ f => rw [raise, if_neg (by omega)]

theorem prefix_replicate (us : List Nat) (n v : Nat) (h : us <+: List.replicate n v) :
    us = List.replicate us.length v :=
  List.eq_replicate_of_mem fun x hx => (List.mem_replicate.1 (h.subset hx)).2

/-- The first list of numbers. -/
theorem correctNumber_twos (N : Nat) (hN : 2 ≤ N) :
    correctNumber N (List.replicate N 2) = some (List.replicate (slots N) 2) := by
  have hs : State N (List.replicate N 2) :=
    ⟨by rw [List.length_replicate]; exact Nat.lt_two_pow_self.le, fun d hd => by
      rw [(List.mem_replicate.1 hd).2]; omega⟩
  obtain ⟨us, last, u1, u2, u3, u4, u5, u6, u7⟩ := hs.used hN
  rw [List.reverse_replicate] at u1 u3
  have hus := prefix_replicate us N 2 u3
  have hne : us ≠ [] := by rintro rfl; simp at u2
  have hlen : 0 < us.length := List.length_pos_of_ne_nil hne
  have hlast : last = 2 := by
    rw [List.getLast?_eq_some_getLast hne] at u2
    have := List.getLast_mem hne
    rw [Option.some.inj u2] at this
    exact (List.mem_replicate.1 (u3.subset this)).2
  have hp : us.prod = 2 ^ us.length := by rw [hus]; simp
  have hd : us.dropLast = List.replicate (us.length - 1) 2 := by
    rw [hus]; simp
  have hdp : us.dropLast.prod = 2 ^ (us.length - 1) := by rw [hd]; simp
  have hsl : us.length = slots N := by
    obtain ⟨s1, s2, s3⟩ := slots_spec N hN
    exact Nat.le_antisymm (slots_unique N _ _ s2 hlen (hdp ▸ u6)) (slots_unique N _ _ (hp ▸ u5) s1 s3)
  rw [correctNumber, u1]; dsimp only
  rw [u2]; dsimp only
  rw [u7, raise_two N _ N (by
    have h2 : us.prod = us.dropLast.prod * 2 := by rw [← hlast]; exact prod_split us last u2
    omega), hd, hsl]
  obtain ⟨s1, -, -⟩ := slots_spec N hN
  rw [← List.replicate_succ', show slots N - 1 + 1 = slots N by omega]

theorem start_state (N : Nat) (hN : 2 ≤ N) :
    State N (List.replicate (slots N) 2) ∧ Good N (List.replicate (slots N) 2) := by
  obtain ⟨s1, s2, s3⟩ := slots_spec N hN
  have hs : State N (List.replicate (slots N) 2) :=
    ⟨by rw [List.length_replicate]; exact s2, fun d hd => by rw [(List.mem_replicate.1 hd).2]; omega⟩
  refine ⟨hs, fun vs k hvs => ?_⟩
  obtain ⟨us, last, u1, u2, u3, u4, u5, u6, u7⟩ := hs.used hN
  rw [u1] at hvs
  obtain ⟨rfl, -⟩ := Prod.mk.inj (Option.some.inj hvs)
  refine ⟨by rintro rfl; simp at u2, u4, u5, u6, fun l hl => ?_⟩
  have hl2 : l = 2 := by
    have := List.mem_of_getLast? hl
    rw [List.reverse_replicate] at u3
    exact (List.mem_replicate.1 (u3.subset this)).2
  rw [hl2]; simpa using u6

theorem candidates_eq (N : Nat) (hN : 2 ≤ N) (ag : Bool) :
    candidates N ag = (linesMax N).bind fun room =>
      enumerate N ag room room (List.replicate (slots N) 2) := by
  rw [candidates, correctNumber_twos N hN]
  cases linesMax N with
  | none => rfl
  | some room => simp

theorem cancelFactors_eq (ls : List (List Int)) : cancelFactors ls = ls.filter fun fs => !cancelled 2147483647 fs := by
  induction ls with
  | nil => rfl
  | cons fs ls ih =>
    rw [cancelFactors, List.filter_cons, ih]
    cases cancelled 2147483647 fs <;> simp

theorem minCost_mem {α : Type} [LinearOrder α] (cost : List Int → Option α) (ls : List (List Int)) :
    ∀ (best : Option (List Int × α)) (fs : List Int) (t : α), minCost cost best ls = some (fs, t) →
      best = some (fs, t) ∨ fs ∈ ls := by
  induction ls with
  | nil => intro best fs t h; exact .inl h
  | cons g ls ih =>
    intro best fs t h
    have hnew : ∀ t', minCost cost (some (g, t')) ls = some (fs, t) → fs ∈ g :: ls := by
      intro t' h
      rcases ih _ _ _ h with h | h
      · rw [(Prod.mk.inj (Option.some.inj h)).1]; exact List.mem_cons_self
      · exact List.mem_cons_of_mem _ h
    have hold : minCost cost best ls = some (fs, t) → best = some (fs, t) ∨ fs ∈ g :: ls := fun h =>
      (ih _ _ _ h).imp id (List.mem_cons_of_mem _)
    cases hc : cost g with
    | none => exact hold (by simpa only [minCost, hc] using h)
    | some t' =>
      cases best with
      | none => exact .inr (hnew t' (by simpa only [minCost, hc] using h))
      | some b =>
        simp only [minCost, hc] at h
        by_cases hlt : t' < b.2
        · rw [if_pos hlt] at h; exact .inr (hnew t' h)
        · rw [if_neg hlt] at h; exact hold h

theorem minCost_some {α : Type} [LinearOrder α] (cost : List Int → Option α) (ls : List (List Int)) :
    ∀ (best : Option (List Int × α)), (best ≠ none ∨ ∃ fs, fs ∈ ls ∧ cost fs ≠ none) →
      minCost cost best ls ≠ none := by
  induction ls with
  | nil =>
    intro best h
    rcases h with h | ⟨fs, h, -⟩
    · exact h
    · cases h
  | cons g ls ih =>
    intro best h
    cases hc : cost g with
    | none =>
      simp only [minCost, hc]
      refine ih best (h.imp id ?_)
      rintro ⟨fs, h1, h2⟩
      rcases List.mem_cons.1 h1 with rfl | h1
      · exact absurd hc h2
      · exact ⟨fs, h1, h2⟩
    | some t' =>
      cases best with
      | none => simp only [minCost, hc]; exact ih _ (.inl (by simp))
      | some b =>
        simp only [minCost, hc]
        split
        · exact ih _ (.inl (by simp))
        · exact ih _ (.inl (by simp))

end ExtMpi.PortChoice
