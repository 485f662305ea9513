import Verif.Lemmas.Taint
import Verif.Lemmas.RecursiveMiddle
import Verif.Spec.Collective
/-! The recursive algorithms on fewer nodes than the product of their factors: contributions get lost. -/
namespace ExtMpi.Recursive
open Schedule

/-! ## Arithmetic -/

theorem top_mod (s N t : Nat) (hs : 0 < s) (hd : ¬ s ∣ N) (ht : t < N) (e : t / s = (N - 1) / s) : t % s ≠ s - 1 := by
  intro h
  apply hd
  have h1 := Nat.div_add_mod t s
  have h2 := Nat.div_add_mod (N - 1) s
  have h3 := Nat.mod_lt (N - 1) hs
  rw [h, e] at h1
  have h4 : N = s * ((N - 1) / s) + s := by omega
  rw [h4]
  exact Nat.dvd_add (Nat.dvd_mul_right _ _) (Nat.dvd_refl s)

theorem low_div (s N : Nat) (hs : 0 < s) (hN : s < N) (g : Nat) (hg : g ∣ s) : (N - 1) / g ≠ (s - 1) / g := by
  intro h
  have h1 := div_of_dvd g s _ _ hg h
  rw [Nat.div_eq_of_lt (a := s - 1) (by omega)] at h1
  have := (Nat.div_eq_zero_iff.1 h1)
  omega

theorem first_partner (s p N : Nat) (hs : 0 < s) (hN : s < N) (hM : N ≤ s * (p + 1)) (hd : ¬ s ∣ N) :
    N ≤ partner s (s * (p + 1)) (s - 1) (partnerIndex s (s * (p + 1)) (s - 1) (N - 1)) := by
  have hq : (s - 1) / s = 0 := Nat.div_eq_of_lt (by omega)
  obtain ⟨L, hL⟩ : ∃ L, L = (N - 1) / s := ⟨_, rfl⟩
  have h2 := Nat.div_add_mod (N - 1) s
  have h3 := Nat.mod_lt (N - 1) hs
  rw [← hL] at h2
  have hL0 : 0 < L := by
    rw [hL]; exact Nat.div_pos (by omega) hs
  have hLp : L < p + 1 := by
    rw [hL]; apply Nat.div_lt_of_lt_mul; omega
  have hLM : L < s * (p + 1) := lt_of_lt_of_le hLp (Nat.le_mul_of_pos_left _ hs)
  have hlt : s * L + s ≤ s * (p + 1) := by
    have := Nat.mul_le_mul_left s (Nat.succ_le_of_lt hLp)
    rwa [Nat.succ_eq_add_one, Nat.mul_add, Nat.mul_one] at this
  have hidx : partnerIndex s (s * (p + 1)) (s - 1) (N - 1) = L - 1 := by
    unfold partnerIndex
    rw [hq, ← hL, if_pos hL0]
    have : s * (p + 1) + L - 0 - 1 = (L - 1) + s * (p + 1) := by omega
    rw [this, Nat.add_mod_right, Nat.mod_eq_of_lt (by omega)]
  rw [hidx]
  unfold partner
  have e : L - 1 + 1 = L := by omega
  rw [e, Nat.mod_eq_of_lt (by omega)]
  by_contra hc
  apply hd
  have h5 : N = s * L + s := by
    have : s - 1 + s * L < N := lt_of_le_of_lt (Nat.le_add_right _ _) (Nat.lt_of_not_le hc)
    omega
  rw [h5]
  exact Nat.dvd_add (Nat.dvd_mul_right _ _) (Nat.dvd_refl s)

theorem factor_append (a b : List Nat) : factor (a ++ b) = factor a * factor b := by
  simp [factor]

theorem factor_one (p : Nat) : factor [p] = p + 1 := by simp [factor]

/-! ## Closed blocks -/

theorem gatherSend_mem {gb gn p q line : Nat} {e : Int × Int} (h : e ∈ gatherSend gb gn p q line) :
    line / gn = q / gn ∧ line / gb = q / gb ∧ ∃ i, e.1 = (partner gb gn q i : Int) := by
  unfold gatherSend at h
  split at h
  · rename_i c
    obtain ⟨i, _, rfl⟩ := List.mem_map.1 h
    exact ⟨c.1, c.2, i, rfl⟩
  · cases h

theorem gatherBlock_closed {N lb f : Nat} {T : Nat → Prop} {q gb p : Nat}
    (h : T q → f / (gb * (p + 1)) = q / (gb * (p + 1)) → f / gb = q / gb → ∀ i t, t < N → partner gb (gb * (p + 1)) q i = t → T t) :
    Closed N lb f T q (gatherBlock lb gb p q) := by
  refine Closed.mk' _ (fun n hn => (Nat.mod_eq_of_lt hn).symm) fun hT n hn hf e he t ht hte => ?_
  rw [Nat.mod_eq_of_lt hn] at hf
  subst hf
  obtain ⟨h1, h2, i, hi⟩ := gatherSend_mem he
  exact h hT h1 h2 i t ht (by rw [hi] at hte; exact_mod_cast hte)

theorem gatherBlock2_closed {N lb f : Nat} {T : Nat → Prop} {q gb p : Nat}
    (h : T q → f / (gb * (p + 1)) = q / (gb * (p + 1)) → f / gb = q / gb → ∀ i t, t < N → partner gb (gb * (p + 1)) q i = t → T t) :
    Closed N lb f T q (gatherBlock2 lb gb p q) := by
  refine Closed.mk' _ (fun n hn => rfl) fun hT n hn hf e he t ht hte => ?_
  dsimp only at he
  split at he
  · rw [hf] at he
    obtain ⟨h1, h2, i, hi⟩ := gatherSend_mem he
    exact h hT h1 h2 i t ht (by rw [hi] at hte; exact_mod_cast hte)
  · cases he

theorem middleBlock_closed {N lb f : Nat} {T : Nat → Prop} {q gbm gb p : Nat} {first : Bool}
    (h : T q → f / gbm = q / gbm → ∀ i t, t < N → partner gb (gb * (p + 1)) q i = t → T t) :
    Closed N lb f T q (middleBlock lb gbm gb p q first) := by
  refine Closed.mk' _ (fun n hn => rfl) fun hT n hn hf e he t ht hte => ?_
  dsimp only at he
  obtain ⟨c, he⟩ := List.mem_ite_nil_right.1 he
  obtain ⟨i, _, rfl⟩ := List.mem_map.1 he
  have hc := c.1
  rw [hf, decide_eq_true_eq] at hc
  exact h hT hc i t ht (Int.ofNat.inj hte)

theorem reduceBlock_closed {N lb f : Nat} {T : Nat → Prop} {q gb p : Nat} {first last : Bool}
    (h : T q → f / gb = q / gb → ∀ t, t < N → partner (gb / (p + 1)) gb q (partnerIndex (gb / (p + 1)) gb q f) = t → T t) :
    Closed N lb f T q (reduceBlock lb gb p q first last) := by
  refine Closed.mk' _ (fun n hn => rfl) fun hT n hn hf e he t ht hte => ?_
  dsimp only [reduceSend] at he
  rw [hf] at he
  obtain ⟨c, he⟩ := List.mem_ite_nil_right.1 he
  rw [List.mem_singleton] at he
  subst he
  exact h hT c.1 t ht (Int.ofNat.inj hte)

theorem gatherLast_closed {N lb f : Nat} {T : Nat → Prop} {q : Nat} : Closed N lb f T q (gatherLast lb) := by
  refine Closed.mk' _ (fun n hn => (Nat.mod_eq_of_lt hn).symm) fun hT n hn hf e he t ht hte => ?_
  simp only [List.mem_singleton] at he
  subst he
  exact absurd hte (by simp only; omega)

theorem scatterLast_closed {N lb f : Nat} {T : Nat → Prop} {q : Nat} : Closed N lb f T q (scatterLast lb q) := by
  refine Closed.mk' _ (fun n hn => ?_) fun hT n hn hf e he t ht hte => ?_
  · by_cases c : n < lb
    · rw [if_pos c, Nat.mod_eq_of_lt c]
    · rw [if_neg c, mod_one lb n (by omega) (by omega)]
  · split at he
    · cases he
    · dsimp only at he
      split at he
      · rw [List.mem_singleton] at he
        subst he
        exact absurd hte (by simp only; omega)
      · cases he

theorem allreduceLast_closed {N lb f : Nat} {T : Nat → Prop} {q : Nat} : Closed N lb f T q (allreduceLast lb) := by
  refine Closed.mk' _ (fun n hn => rfl) fun hT n hn hf e he t ht hte => ?_
  dsimp only at he
  split at he
  · rw [List.mem_singleton] at he
    subst he
    exact absurd hte (by simp only; omega)
  · cases he

/-! ## The loops over the steps -/

theorem gatherSteps_mem (lb t : Nat) (ps : List Nat) : ∀ (g : Nat) (b : Block), 0 < g → b ∈ gatherSteps lb t g ps →
    ∃ gb p, b = gatherBlock lb gb p t ∧ 0 < gb ∧ gb * (p + 1) ∣ g * factor ps := by
  induction ps with
  | nil => intro g b _ h; cases h
  | cons p ps ih =>
    intro g b hg h
    rcases List.mem_cons.1 h with rfl | h
    · exact ⟨g, p, rfl, hg, by rw [factor_cons, ← Nat.mul_assoc]; exact Nat.dvd_mul_right _ _⟩
    · obtain ⟨gb, p', h1, h2, h3⟩ := ih (g * (p + 1)) b (Nat.mul_pos hg (by omega)) h
      exact ⟨gb, p', h1, h2, by rw [factor_cons, ← Nat.mul_assoc]; exact h3⟩

theorem gatherSteps_append (lb t : Nat) (a b : List Nat) : ∀ g, gatherSteps lb t g (a ++ b) = gatherSteps lb t g a ++ gatherSteps lb t (g * factor a) b := by
  induction a with
  | nil => intro g; simp [gatherSteps, factor]
  | cons p ps ih => intro g; rw [List.cons_append, gatherSteps, gatherSteps, ih, factor_cons, ← Nat.mul_assoc]; rfl

theorem gatherSteps2_mem (lb t : Nat) (ps : List Nat) : ∀ (g : Nat) (b : Block), 0 < g → b ∈ gatherSteps2 lb t g ps →
    ∃ gb p, b = gatherBlock2 lb gb p t ∧ 0 < gb ∧ gb * (p + 1) ∣ g * factor ps := by
  induction ps with
  | nil => intro g b _ h; cases h
  | cons p ps ih =>
    intro g b hg h
    rcases List.mem_cons.1 h with rfl | h
    · exact ⟨g, p, rfl, hg, by rw [factor_cons, ← Nat.mul_assoc]; exact Nat.dvd_mul_right _ _⟩
    · obtain ⟨gb, p', h1, h2, h3⟩ := ih (g * (p + 1)) b (Nat.mul_pos hg (by omega)) h
      exact ⟨gb, p', h1, h2, by rw [factor_cons, ← Nat.mul_assoc]; exact h3⟩

theorem gatherSteps2_append (lb t : Nat) (a b : List Nat) : ∀ g, gatherSteps2 lb t g (a ++ b) = gatherSteps2 lb t g a ++ gatherSteps2 lb t (g * factor a) b := by
  induction a with
  | nil => intro g; simp [gatherSteps2, factor]
  | cons p ps ih => intro g; rw [List.cons_append, gatherSteps2, gatherSteps2, ih, factor_cons, ← Nat.mul_assoc]; rfl

theorem midList_mem (lb M t : Nat) (ps : List Nat) : ∀ (first : Bool) (g : Nat) (b : Block), 0 < g → b ∈ midList lb M t first g ps →
    ∃ gb p f, b = middleBlock lb M gb p t f ∧ 0 < gb ∧ gb * (p + 1) ∣ g * factor ps := by
  induction ps with
  | nil => intro f g b _ h; cases h
  | cons p ps ih =>
    intro f g b hg h
    rcases List.mem_cons.1 h with rfl | h
    · exact ⟨g, p, f, rfl, hg, by rw [factor_cons, ← Nat.mul_assoc]; exact Nat.dvd_mul_right _ _⟩
    · obtain ⟨gb, p', f', h1, h2, h3⟩ := ih false (g * (p + 1)) b (Nat.mul_pos hg (by omega)) h
      exact ⟨gb, p', f', h1, h2, by rw [factor_cons, ← Nat.mul_assoc]; exact h3⟩

theorem midList_append (lb M t : Nat) (a b : List Nat) : ∀ (first : Bool) (g : Nat),
    midList lb M t first g (a ++ b) = midList lb M t first g a ++ midList lb M t (first && a.isEmpty) (g * factor a) b := by
  induction a with
  | nil => intro f g; simp [midList, factor]
  | cons p ps ih =>
    intro f g
    rw [List.cons_append, midList, midList, ih, factor_cons, ← Nat.mul_assoc]
    simp

theorem reduceSteps_mem (lb t : Nat) (ps : List Nat) : ∀ (first : Bool) (g : Nat) (b : Block), factor ps ∣ g → b ∈ reduceSteps lb t first g ps →
    ∃ gb p f l, b = reduceBlock lb gb p t f l ∧ gb ∣ g := by
  induction ps with
  | nil => intro f g b _ h; cases h
  | cons p ps ih =>
    intro f g b hd h
    rcases List.mem_cons.1 h with rfl | h
    · exact ⟨g, p, f, _, rfl, Nat.dvd_refl g⟩
    · rw [factor_cons] at hd
      obtain ⟨c, rfl⟩ := hd
      have e : (p + 1) * factor ps * c / (p + 1) = factor ps * c := by
        rw [Nat.mul_assoc, Nat.mul_div_cancel_left _ (by omega)]
      obtain ⟨gb, p', f', l, h1, h2⟩ := ih false _ b (by rw [e]; exact Nat.dvd_mul_right _ _) h
      refine ⟨gb, p', f', l, h1, Nat.dvd_trans h2 ?_⟩
      rw [e, Nat.mul_assoc]
      exact Nat.dvd_mul_left _ _

theorem middleSize_rev (a b : List Nat) : middleSize (factor (a ++ b.reverse)) b = factor a := by
  induction b generalizing a with
  | nil => simp [middleSize]
  | cons p ps ih =>
    rw [middleSize, List.reverse_cons, ← List.append_assoc, factor_append, factor_one, Nat.mul_div_cancel _ (by omega), ih]

/-! ## Inputs -/

theorem copyIn_agree {V : Type} (lb f : Nat) (T : Prop) (b : Block) (hb : ∀ n l, b[n]? = some l → l.frac = n % lb) (inp inp' junk : Nat → V)
    (h : ∀ k, ¬ (T ∧ k = f) → inp k = inp' k) : Agree lb (fun k => ¬ (T ∧ k = f)) (copyIn b inp junk) (copyIn b inp' junk) := by
  intro n hn
  unfold copyIn
  cases e : b[n]? with
  | none => rfl
  | some l =>
    dsimp only
    split
    · apply h; rw [hb n l e]; exact hn
    · rfl

/-- The number 1 at node `a`, message `b`, and 0 elsewhere. -/
def unit (a b : Nat) (t k : Nat) : Nat := if t = a ∧ k = b then 1 else 0

theorem unit_agree (a f : Nat) (T : Nat → Prop) (hT : T a) (t k : Nat) (h : ¬ (T t ∧ k = f)) : (fun _ _ => 0 : Nat → Nat → Nat) t k = unit a f t k := by
  unfold unit
  rw [if_neg]
  rintro ⟨rfl, rfl⟩
  exact h ⟨hT, rfl⟩

theorem unit_sum (N a b : Nat) (ha : a < N) : ∑ s ∈ Finset.range N, unit a b s b = 1 := by
  unfold unit
  rw [Finset.sum_eq_single a]
  · rw [if_pos ⟨rfl, rfl⟩]
  · intro c _ hc; rw [if_neg (fun h => hc h.1)]
  · intro h; exact absurd (Finset.mem_range.2 ha) h

/-! ## The collectives -/

theorem gatherFirst_frac (lb t n : Nat) (l : LineD) (h : (gatherFirst lb t)[n]? = some l) : l.frac = n % lb :=
  (Closed.mk' (N := 0) (f := 0) (T := fun _ => False) (q := 0) _ (fun n hn => (Nat.mod_eq_of_lt hn).symm) (fun h => h.elim)).frac n l h

theorem reduceFirst_frac (lb n : Nat) (l : LineD) (h : (reduceFirst lb)[n]? = some l) : l.frac = n % lb := by
  refine (Closed.mk' (N := 0) (f := 0) (T := fun _ => False) (q := 0) _ (fun n hn => ?_) (fun h => h.elim)).frac n l h
  by_cases c : n < lb
  · rw [if_pos c, Nat.mod_eq_of_lt c]
  · rw [if_neg c, mod_one lb n (by omega) (by omega)]

/-- If `s`, the product of all factors but the last, is less than the number of nodes and does not divide it, the allgather is wrong. -/
theorem allgather_uncovered (qs : List Nat) (p N : Nat) (hN : factor qs < N) (hd : ¬ factor qs ∣ N) :
    ¬ Computes (V := Nat) N copyOut (allgather (qs ++ [p])) (AllgatherPost N) := by
  intro hc
  obtain ⟨s, hs⟩ : ∃ s, s = factor qs := ⟨_, rfl⟩
  have hs0 : 0 < s := by rw [hs]; exact factor_pos qs
  rw [← hs] at hN hd
  obtain ⟨⟨o1, e1⟩, k1⟩ := hc (fun _ _ => 0) (fun _ _ => 0)
  obtain ⟨⟨o2, e2⟩, k2⟩ := hc (unit (N - 1) (N - 1)) (fun _ _ => 0)
  have h1 := k1 o1 e1 (s - 1) (N - 1) (by omega) (by omega)
  have h2 := k2 o2 e2 (s - 1) (N - 1) (by omega) (by omega)
  have h3 : o1 (s - 1) = o2 (s - 1) := by
    refine Exec.agree (lb := factor (qs ++ [p])) (f := N - 1) (n := qs.length + 2) (T₁ := fun t => t % s ≠ s - 1) (T₂ := fun t => t % s ≠ s - 1)
      (fun t => gatherFirst (factor (qs ++ [p])) t)
      (fun t => gatherSteps (factor (qs ++ [p])) t 1 (qs ++ [p]) ++ [gatherLast (factor (qs ++ [p]))]) (fun _ => [])
      (fun t ht => by rw [List.append_nil]; rfl) (fun t ht => ?_) (fun q hq x hx => ?_) (fun q hq x hx => by cases hx) (fun q hq h => h)
      (fun q hq => copyIn_agree _ _ _ _ (gatherFirst_frac _ _) _ _ _ (unit_agree (N - 1) (N - 1) (fun t => t % s ≠ s - 1)
        (top_mod s N (N - 1) hs0 hd (by omega) rfl) q)) e1 e2 (s - 1) (by omega) (by
        rw [Nat.mod_eq_of_lt (by omega)]; exact fun h => h rfl)
    · have : ∀ (ps : List Nat) (g : Nat), (gatherSteps (factor (qs ++ [p])) t g ps).length = ps.length := by
        intro ps
        induction ps with
        | nil => intro g; rfl
        | cons p ps ih => intro g; rw [gatherSteps, List.length_cons, ih, List.length_cons]
      rw [List.length_append, this]
      simp
    · rcases List.mem_append.1 hx with hx | hx
      · rw [gatherSteps_append] at hx
        rcases List.mem_append.1 hx with hx | hx
        · obtain ⟨gb, p', rfl, hg, hgd⟩ := gatherSteps_mem _ _ _ _ _ (by omega) hx
          rw [Nat.one_mul, ← hs] at hgd
          refine gatherBlock_closed fun _ h4 _ i t ht hpt => ?_
          have h5 := partner_group gb (p' + 1) q i hg (by omega)
          rw [hpt, ← h4] at h5
          exact top_mod s N t hs0 hd ht (div_of_dvd _ s _ _ hgd h5)
        · rw [gatherSteps, gatherSteps, List.mem_singleton, Nat.one_mul, ← hs] at hx
          subst hx
          refine gatherBlock_closed fun hT _ _ i t ht hpt => ?_
          have h5 := partner_mod s (p + 1) q i hs0
          rw [hpt] at h5
          rw [h5]; exact hT
      · rw [List.mem_singleton] at hx
        subst hx
        exact gatherLast_closed
  rw [h3, h2] at h1
  have : unit (N - 1) (N - 1) (N - 1) (N - 1) = 0 := Option.some.inj h1
  unfold unit at this
  rw [if_pos ⟨rfl, rfl⟩] at this
  cases this

/-- The reduction steps lose line `N - 1` of node `s - 1`. -/
theorem reduceSteps_closed (lb s p N : Nat) (hs : 0 < s) (hN : s < N) (hM : N ≤ s * (p + 1)) (hd : ¬ s ∣ N) (nl : List Nat) (hnl : factor nl ∣ s) (q : Nat)
    (x : Block) (hx : x ∈ reduceSteps lb q true (s * (p + 1)) (p :: nl)) : Closed N lb (N - 1) (fun t => t = s - 1) q x := by
  rcases List.mem_cons.1 hx with rfl | hx
  · refine reduceBlock_closed fun hT _ t ht hpt => ?_
    rw [Nat.mul_div_cancel _ (by omega)] at hpt
    subst hT
    have := first_partner s p N hs hN hM hd
    rw [hpt] at this
    omega
  · rw [Nat.mul_div_cancel _ (by omega)] at hx
    obtain ⟨gb, p', f, l, rfl, hg⟩ := reduceSteps_mem _ _ _ _ _ _ hnl hx
    refine reduceBlock_closed fun hT h _ _ _ => ?_
    subst hT
    exact absurd h (low_div s N hs hN gb hg)

theorem reduceSteps_length (lb t : Nat) (ps : List Nat) : ∀ (f : Bool) (g : Nat), (reduceSteps lb t f g ps).length = ps.length := by
  induction ps with
  | nil => intro f g; rfl
  | cons p ps ih => intro f g; rw [reduceSteps, List.length_cons, ih, List.length_cons]

/-- The same for the reduce-scatter, whose first step has the last factor. -/
theorem reduceScatter_uncovered (nl : List Nat) (p N : Nat) (hN : factor nl < N) (hM : N ≤ factor (p :: nl)) (hd : ¬ factor nl ∣ N) :
    ¬ Computes (V := Nat) N copyOutFirst (reduceScatter (p :: nl)) (ReduceScatterPost N) := by
  intro hc
  obtain ⟨s, hs⟩ : ∃ s, s = factor nl := ⟨_, rfl⟩
  have hs0 : 0 < s := by rw [hs]; exact factor_pos nl
  have hf : factor (p :: nl) = s * (p + 1) := by rw [factor_cons, ← hs, Nat.mul_comm]
  rw [← hs] at hN hd
  rw [hf] at hM
  obtain ⟨⟨o1, e1⟩, k1⟩ := hc (fun _ _ => 0) (fun _ _ => 0)
  obtain ⟨⟨o2, e2⟩, k2⟩ := hc (unit (s - 1) (N - 1)) (fun _ _ => 0)
  have h1 := k1 o1 e1 (N - 1) (by omega)
  have h2 := k2 o2 e2 (N - 1) (by omega)
  have h3 : o1 (N - 1) = o2 (N - 1) := by
    refine Exec.agree (lb := s * (p + 1)) (f := N - 1) (n := nl.length + 2) (T₁ := fun t => t = s - 1) (T₂ := fun t => t = s - 1)
      (fun t => reduceFirst (s * (p + 1)))
      (fun t => reduceSteps (s * (p + 1)) t true (s * (p + 1)) (p :: nl) ++ [scatterLast (s * (p + 1)) t]) (fun _ => [])
      (fun t ht => by rw [List.append_nil, ← hf]; rfl) (fun t ht => ?_) (fun q hq x hx => ?_) (fun q hq x hx => by cases hx) (fun q hq h => h)
      (fun q hq => copyIn_agree _ _ _ _ (reduceFirst_frac _) _ _ _ (unit_agree (s - 1) (N - 1) (fun t => t = s - 1) rfl q)) e1 e2 (N - 1) (by omega)
      (by omega)
    · rw [List.length_append, reduceSteps_length]
      simp
    · rcases List.mem_append.1 hx with hx | hx
      · exact reduceSteps_closed _ s p N hs0 hN hM hd nl (by rw [hs]) q x hx
      · rw [List.mem_singleton] at hx
        subst hx
        exact scatterLast_closed
  rw [h3, h2, unit_sum N _ _ (by omega)] at h1
  simp at h1

/-- The same for an allreduce that begins with reduction steps. -/
theorem allreduce_uncovered (xs nl : List Nat) (p N : Nat) (hx : ∀ x, x ∈ xs → 0 < x) (hN : factor (xs ++ nl.reverse) < N)
    (hM : N ≤ factor (xs ++ nl.reverse ++ [p])) (hd : ¬ factor (xs ++ nl.reverse) ∣ N) :
    ¬ Computes (V := Nat) N copyOut (allreduce (p :: nl) (xs ++ nl.reverse ++ [p])) (AllreducePost N) := by
  intro hc
  obtain ⟨s, hs⟩ : ∃ s, s = factor (xs ++ nl.reverse) := ⟨_, rfl⟩
  have hs0 : 0 < s := by rw [hs]; exact factor_pos _
  have hf : factor (xs ++ nl.reverse ++ [p]) = s * (p + 1) := by rw [factor_append, ← hs, factor_one]
  have hxs : factor xs ∣ s := by rw [hs, factor_append]; exact Nat.dvd_mul_right _ _
  have hnr : factor nl.reverse = factor nl := by unfold factor; rw [List.map_reverse, List.prod_reverse]
  have hnl : factor nl ∣ s := by rw [hs, factor_append, hnr]; exact Nat.dvd_mul_left _ _
  have hmid : middleSize (s * (p + 1)) (p :: nl) = factor xs := by
    rw [middleSize, Nat.mul_div_cancel _ (by omega), hs, middleSize_rev]
  rw [← hs] at hN hd
  rw [hf] at hM
  have hsch : ∀ t, allreduce (p :: nl) (xs ++ nl.reverse ++ [p]) t = reduceFirst (s * (p + 1)) ::
      (reduceSteps (s * (p + 1)) t true (s * (p + 1)) (p :: nl) ++ midList (s * (p + 1)) (factor xs) t false 1 xs ++
        gatherSteps2 (s * (p + 1)) t (factor xs) (nl.reverse ++ [p]) ++ [allreduceLast (s * (p + 1))]) := by
    intro t
    have e := middleSteps_eq (s * (p + 1)) (factor xs) t xs (nl.reverse ++ [p]) hx false 1 (by omega) (Nat.one_mul _)
    unfold allreduce
    dsimp only
    rw [hf, hmid, List.isEmpty_cons, List.append_assoc xs, e]
  obtain ⟨⟨o1, e1⟩, k1⟩ := hc (fun _ _ => 0) (fun _ _ => 0)
  obtain ⟨⟨o2, e2⟩, k2⟩ := hc (unit (s - 1) (N - 1)) (fun _ _ => 0)
  have h1 := k1 o1 e1 (N - 1) (N - 1) (by omega) (by omega)
  have h2 := k2 o2 e2 (N - 1) (N - 1) (by omega) (by omega)
  have h3 : o1 (N - 1) = o2 (N - 1) := by
    refine Exec.agree (lb := s * (p + 1)) (f := N - 1) (n := 0) (T₁ := fun t => t = s - 1) (T₂ := fun t => t = s - 1)
      (fun t => reduceFirst (s * (p + 1))) (fun _ => []) _
      (fun t ht => by rw [hsch t, List.nil_append]) (fun t ht => rfl) (fun q hq x hx => by cases hx) (fun q hq x hx => ?_) (fun q hq h => h)
      (fun q hq => copyIn_agree _ _ _ _ (reduceFirst_frac _) _ _ _ (unit_agree (s - 1) (N - 1) (fun t => t = s - 1) rfl q)) e1 e2 (N - 1) (by omega)
      (by omega)
    rw [List.mem_append, List.mem_append, List.mem_append] at hx
    rcases hx with ((hx | hx) | hx) | hx
    · exact reduceSteps_closed _ s p N hs0 hN hM hd nl hnl q x hx
    · obtain ⟨gb, p', f, rfl, _, _⟩ := midList_mem _ _ _ _ _ _ _ (by omega) hx
      refine middleBlock_closed fun hT h _ _ _ _ => ?_
      subst hT
      exact absurd h (low_div s N hs0 hN _ hxs)
    · rw [gatherSteps2_append] at hx
      rcases List.mem_append.1 hx with hx | hx
      · obtain ⟨gb, p', rfl, _, hgd⟩ := gatherSteps2_mem _ _ _ _ _ (factor_pos xs) hx
        rw [← factor_append, ← hs] at hgd
        refine gatherBlock2_closed fun hT _ h _ _ _ _ => ?_
        subst hT
        exact absurd h (low_div s N hs0 hN gb (Nat.dvd_trans (Nat.dvd_mul_right _ _) hgd))
      · rw [gatherSteps2, gatherSteps2, List.mem_singleton, ← factor_append, ← hs] at hx
        subst hx
        refine gatherBlock2_closed fun hT _ h _ _ _ _ => ?_
        subst hT
        exact absurd h (low_div s N hs0 hN s (Nat.dvd_refl s))
    · rw [List.mem_singleton] at hx
      subst hx
      exact allreduceLast_closed
  rw [h3, h2, unit_sum N _ _ (by omega)] at h1
  simp at h1

/-- The same for an allreduce without reduction steps. -/
theorem allreduce_uncovered' (qs : List Nat) (p N : Nat) (hq : ∀ x, x ∈ qs ++ [p] → 0 < x) (hN : factor qs < N) (hd : ¬ factor qs ∣ N) :
    ¬ Computes (V := Nat) N copyOut (allreduce [] (qs ++ [p])) (AllreducePost N) := by
  intro hc
  obtain ⟨s, hs⟩ : ∃ s, s = factor qs := ⟨_, rfl⟩
  have hs0 : 0 < s := by rw [hs]; exact factor_pos _
  have hf : factor (qs ++ [p]) = s * (p + 1) := by rw [factor_append, ← hs, factor_one]
  rw [← hs] at hN hd
  have hsch : ∀ t, allreduce [] (qs ++ [p]) t = reduceFirst (s * (p + 1)) ::
      (midList (s * (p + 1)) (s * (p + 1)) t true 1 qs ++
        [middleBlock (s * (p + 1)) (s * (p + 1)) s p t (true && qs.isEmpty), allreduceLast (s * (p + 1))]) := by
    intro t
    have e := middleSteps_eq (s * (p + 1)) (s * (p + 1)) t (qs ++ [p]) [] hq true 1 (by omega) (by rw [Nat.one_mul, hf])
    unfold allreduce
    dsimp only
    rw [hf, middleSize, List.isEmpty_nil]
    rw [List.append_nil] at e
    rw [e, midList_append, Nat.one_mul, ← hs, midList, midList, gatherSteps2, reduceSteps]
    simp
  obtain ⟨⟨o1, e1⟩, k1⟩ := hc (fun _ _ => 0) (fun _ _ => 0)
  obtain ⟨⟨o2, e2⟩, k2⟩ := hc (unit (N - 1) (N - 1)) (fun _ _ => 0)
  have h1 := k1 o1 e1 (s - 1) (N - 1) (by omega) (by omega)
  have h2 := k2 o2 e2 (s - 1) (N - 1) (by omega) (by omega)
  have h3 : o1 (s - 1) = o2 (s - 1) := by
    refine Exec.agree (lb := s * (p + 1)) (f := N - 1) (n := qs.length) (T₁ := fun t => t / s = (N - 1) / s) (T₂ := fun t => t % s ≠ s - 1)
      (fun t => reduceFirst (s * (p + 1))) _ _
      (fun t ht => hsch t) (fun t ht => ?_) (fun q hq x hx => ?_) (fun q hq x hx => ?_) (fun q hq h => top_mod s N q hs0 hd hq h)
      (fun q hq => copyIn_agree _ _ _ _ (reduceFirst_frac _) _ _ _ (unit_agree (N - 1) (N - 1) (fun t => t / s = (N - 1) / s) rfl q)) e1 e2 (s - 1)
      (by omega) (by rw [Nat.mod_eq_of_lt (by omega)]; exact fun h => h rfl)
    · have : ∀ (ps : List Nat) (f : Bool) (g : Nat), (midList (s * (p + 1)) (s * (p + 1)) t f g ps).length = ps.length := by
        intro ps
        induction ps with
        | nil => intro f g; rfl
        | cons p ps ih => intro f g; rw [midList, List.length_cons, ih, List.length_cons]
      rw [this]
    · obtain ⟨gb, p', f, rfl, hg, hgd⟩ := midList_mem _ _ _ _ _ _ _ (by omega) hx
      rw [Nat.one_mul, ← hs] at hgd
      refine middleBlock_closed fun hT _ i t _ hpt => ?_
      have h5 := partner_group gb (p' + 1) q i hg (by omega)
      rw [hpt] at h5
      rw [← hT]
      exact div_of_dvd _ s _ _ hgd h5
    · rcases List.mem_cons.1 hx with rfl | hx
      · refine middleBlock_closed fun hT _ i t _ hpt => ?_
        have h5 := partner_mod s (p + 1) q i hs0
        rw [hpt] at h5
        rw [h5]; exact hT
      · rw [List.mem_singleton] at hx
        subst hx
        exact allreduceLast_closed
  rw [h3, h2, unit_sum N _ _ (by omega)] at h1
  simp at h1

end ExtMpi.Recursive
