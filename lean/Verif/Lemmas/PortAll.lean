import Verif.Lemmas.PortCount
/-! The enumeration of factors leaves out no tight list. -/
namespace ExtMpi.PortChoice

theorem bump_exact (ds : List Nat) (c : Nat) (ds' : List Nat) (h : bump ds = some (c, ds'))
    (hr : ∀ d, d ∈ ds → 2 ≤ d ∧ d ≤ 13) : weight ds = weight ds' + 1 := by
  induction ds generalizing c ds' with
  | nil => simp [bump] at h
  | cons d ds ih =>
    have hd2 := hr d List.mem_cons_self
    by_cases hd : factorMax < d + 1
    · rw [bump, if_pos hd, Option.map_eq_some_iff] at h
      obtain ⟨r, h1, h2⟩ := h
      obtain ⟨-, rfl⟩ := Prod.mk.inj h2
      have := ih r.1 r.2 h1 fun e he => hr e (List.mem_cons_of_mem _ he)
      simp only [factorMax] at hd
      simp only [weight]
      omega
    · rw [bump, if_neg hd] at h
      obtain ⟨-, rfl⟩ := Prod.mk.inj (Option.some.inj h)
      simp only [factorMax] at hd
      simp only [weight]
      omega

theorem bump_none (ds : List Nat) (h : bump ds = none) (hr : ∀ d, d ∈ ds → 2 ≤ d ∧ d ≤ 13) : weight ds = 0 := by
  induction ds with
  | nil => rfl
  | cons d ds ih =>
    have hd2 := hr d List.mem_cons_self
    by_cases hd : factorMax < d + 1
    · rw [bump, if_pos hd, Option.map_eq_none_iff] at h
      have := ih h fun e he => hr e (List.mem_cons_of_mem _ he)
      simp only [factorMax] at hd
      simp only [weight]
      omega
    · rw [bump, if_neg hd] at h; cases h

theorem weight_inj (a : List Nat) : ∀ b, a.length = b.length → (∀ d, d ∈ a → 2 ≤ d ∧ d ≤ 13) →
    (∀ d, d ∈ b → 2 ≤ d ∧ d ≤ 13) → weight a = weight b → a = b := by
  induction a with
  | nil => intro b h _ _ _; exact (List.length_eq_zero_iff.1 h.symm).symm
  | cons x a ih =>
    intro b hl ha hb hw
    cases b with
    | nil => simp at hl
    | cons y b =>
      have hx := ha x List.mem_cons_self
      have hy := hb y List.mem_cons_self
      simp only [weight] at hw
      have := ih b (by simpa using hl) (fun d hd => ha d (List.mem_cons_of_mem _ hd))
        (fun d hd => hb d (List.mem_cons_of_mem _ hd)) (by omega)
      rw [this, show x = y by omega]

/-- The entries that are 2 after a step of the odometer up to the first other one have been touched. -/
theorem bump_twos (n : Nat) : ∀ (ds R : List Nat) (c : Nat), bump ds = some (c, List.replicate n 2 ++ R) →
    (∀ d, d ∈ ds → 2 ≤ d ∧ d ≤ 13) → n < c := by
  induction n with
  | zero =>
    intro ds R c h _
    cases ds with
    | nil => simp [bump] at h
    | cons d ds =>
      by_cases hd : factorMax < d + 1
      · rw [bump, if_pos hd, Option.map_eq_some_iff] at h
        obtain ⟨r, -, h2⟩ := h
        have := (Prod.mk.inj h2).1
        omega
      · rw [bump, if_neg hd] at h
        have := (Prod.mk.inj (Option.some.inj h)).1
        omega
  | succ n ih =>
    intro ds R c h hr
    cases ds with
    | nil => simp [bump] at h
    | cons d ds =>
      have hd2 := hr d List.mem_cons_self
      by_cases hd : factorMax < d + 1
      · rw [bump, if_pos hd, Option.map_eq_some_iff] at h
        obtain ⟨⟨c', ds'⟩, h1, h2⟩ := h
        obtain ⟨rfl, h3⟩ := Prod.mk.inj h2
        rw [List.replicate_succ, List.cons_append] at h3
        have h4 : ds' = List.replicate n 2 ++ R := (List.cons.inj h3).2
        have := ih ds R c' (by rw [h1, h4]) fun e he => hr e (List.mem_cons_of_mem _ he)
        simp only; omega
      · rw [bump, if_neg hd] at h
        have := (Prod.mk.inj (Option.some.inj h)).2
        rw [List.replicate_succ, List.cons_append] at this
        have := (List.cons.inj this).1
        omega

/-- The state of the odometer that stands for a list of factors. -/
def stateOf (N : Nat) (nums : List Nat) : List Nat := List.replicate (slots N - nums.length) 2 ++ nums.reverse

theorem tight_length {N : Nat} {nums : List Nat} (hN : 2 ≤ N) (h : Tight N nums) :
    0 < nums.length ∧ nums.length ≤ slots N := by
  have h0 := List.length_pos_of_ne_nil h.nonempty
  refine ⟨h0, ?_⟩
  obtain ⟨s1, s2, s3⟩ := slots_spec N hN
  apply slots_unique N _ _ s2 h0
  have := prod_ge_pow nums.dropLast fun n hn => (h.range n (List.dropLast_subset _ hn)).1
  rw [List.length_dropLast] at this
  exact Nat.lt_of_le_of_lt this h.before

theorem stateOf_range {N : Nat} {nums : List Nat} (h : Tight N nums) :
    ∀ d, d ∈ stateOf N nums → 2 ≤ d ∧ d ≤ 13 := by
  intro d hd
  rcases List.mem_append.1 hd with hd | hd
  · rw [(List.mem_replicate.1 hd).2]; omega
  · exact h.range d (List.mem_reverse.1 hd)

theorem stateOf_length {N : Nat} {nums : List Nat} (hN : 2 ≤ N) (h : Tight N nums) :
    (stateOf N nums).length = slots N := by
  have := (tight_length hN h).2
  unfold stateOf
  simp; omega

theorem usedFrom_exact (N : Nat) (nums : List Nat) : ∀ (k : Nat) (r : List Nat), nums ≠ [] → N ≤ k * nums.prod →
    k * nums.dropLast.prod < N → (∀ n, n ∈ nums → 0 < n) → usedFrom N k (nums ++ r) = some (nums, k * nums.prod) := by
  induction nums with
  | nil => intro _ _ h; exact absurd rfl h
  | cons n ns ih =>
    intro k r _ h1 h2 hp
    have hk : k < N := by
      have : 0 < (n :: ns).dropLast.prod := by
        apply Nat.pos_of_ne_zero
        rw [Ne, List.prod_eq_zero_iff]
        intro h0
        exact absurd (hp 0 (List.dropLast_subset _ h0)) (by omega)
      exact Nat.lt_of_le_of_lt (Nat.le_mul_of_pos_right k this) h2
    rw [List.cons_append, usedFrom, if_pos hk]
    rw [List.prod_cons, ← Nat.mul_assoc] at h1 ⊢
    cases ns with
    | nil =>
      simp only [List.prod_nil, Nat.mul_one] at h1
      have : usedFrom N (k * n) ([] ++ r) = some ([], k * n) := by
        rw [usedFrom.eq_def]
        cases r <;> simp [show ¬ k * n < N by omega]
      rw [this]; simp
    | cons n' ns =>
      rw [ih (k * n) r (by simp) h1 (by
        rw [List.dropLast_cons₂, List.prod_cons, ← Nat.mul_assoc] at h2; exact h2)
        fun m hm => hp m (List.mem_cons_of_mem _ hm)]
      rfl

theorem used_stateOf {N : Nat} {nums : List Nat} (h : Tight N nums) :
    used N (stateOf N nums).reverse = some (nums, nums.prod) := by
  unfold stateOf used
  rw [List.reverse_append, List.reverse_reverse]
  have := usedFrom_exact N nums 1 (List.replicate (slots N - nums.length) 2).reverse h.nonempty
    (by rw [Nat.one_mul]; exact h.covers) (by rw [Nat.one_mul]; exact h.before)
    (fun n hn => by have := h.range n hn; omega)
  rw [Nat.one_mul] at this
  exact this

/-- `next_number` does not jump over a tight list. -/
theorem nextNumber_reaches (N : Nat) (hN : 2 ≤ N) (nums : List Nat) (ht : Tight N nums) :
    ∀ (w m : Nat) (rev : List Nat), weight rev ≤ w → State N rev → rev.length = slots N →
    weight (stateOf N nums) < weight rev →
    ∃ rev', nextNumber N m rev = some (some rev') ∧ weight (stateOf N nums) ≤ weight rev' := by
  intro w
  induction w with
  | zero => intro m rev hw _ _ h; omega
  | succ w ih =>
    intro m rev hw hs hl hlt
    rw [nextNumber]
    split
    · rename_i hb
      have := bump_none _ hb hs.range
      omega
    · rename_i c r hb
      have hwt := bump_exact _ _ _ hb hs.range
      obtain ⟨b1, b2⟩ := bump_spec _ _ _ hb hs.range
      have hs' : State N r := ⟨by rw [b1]; exact hs.long, b2⟩
      obtain ⟨us, last, u1, u2, u3, u4, u5, u6, u7⟩ := hs'.used hN
      dsimp only
      rw [u1]; dsimp only
      rw [u2]; dsimp only
      by_cases hc : us.length - 1 < min m (r.length - c) ∨ N ≤ us.prod / last * (last - 1)
      · rw [if_pos hc]
        have hne : weight (stateOf N nums) ≠ weight r := by
          intro he
          have hr : stateOf N nums = r := weight_inj _ _ (by rw [stateOf_length hN ht, b1, hl]) (stateOf_range ht) b2 he
          subst hr
          rw [used_stateOf ht] at u1
          obtain ⟨rfl, -⟩ := Prod.mk.inj (Option.some.inj u1)
          have h1 := ht.last last u2
          have h2 := bump_twos _ _ _ _ hb hs.range
          have h3 := stateOf_length hN ht
          have h4 := tight_length hN ht
          rw [u7] at hc
          omega
        obtain ⟨rev', r1, r2⟩ := ih (min m (r.length - c)) r (by omega) hs' (by rw [b1, hl]) (by omega)
        exact ⟨rev', r1, r2⟩
      · rw [if_neg hc]
        exact ⟨r, rfl, by omega⟩

theorem emit_pos (ag : Bool) (us : List Nat) : 0 < (emit ag us).length := by
  unfold emit
  rw [List.length_map, List.length_range]
  split <;> omega

theorem enumerate_all (N : Nat) (hN : 2 ≤ N) (ag : Bool) (nums : List Nat) (ht : Tight N nums) (f : Nat) :
    ∀ (room : Nat) (rev : List Nat) (ls : List (List Int)), room ≤ f → State N rev → Good N rev →
    rev.length = slots N → rev.length ≤ N + 1 →
    (rest N 1 rev.reverse + 1) * (rev.length + 1) ≤ room → weight (stateOf N nums) ≤ weight rev →
    enumerate N ag f room rev = some ls → ∀ fs, fs ∈ emit ag nums → fs ∈ ls := by
  induction f with
  | zero =>
    intro room rev ls hf _ _ _ _ hroom _ _
    have : (rest N 1 rev.reverse + 1) * (rev.length + 1) =
        rest N 1 rev.reverse * (rev.length + 1) + rev.length + 1 := by ring
    omega
  | succ f ih =>
    intro room rev ls hf hs hg hlen hlenN hroom hw h fs hfs
    have hmul : (rest N 1 rev.reverse + 1) * (rev.length + 1) =
        rest N 1 rev.reverse * (rev.length + 1) + (rev.length + 1) := by ring
    rw [enumerate, if_neg (by omega)] at h
    obtain ⟨us, last, u1, u2, u3, -⟩ := hs.used hN
    rw [u1] at h; dsimp only at h
    have he := emit_length ag us
    have hep := emit_pos ag us
    have hul : us.length ≤ rev.length := by
      have := u3.length_le; rwa [List.length_reverse] at this
    rw [if_neg (by omega)] at h
    obtain ⟨r, n1, n2⟩ := nextNumber_spec N hN _ (N + 1) rev (Nat.le_refl _) hs
    rw [n1] at h
    by_cases hweq : weight (stateOf N nums) = weight rev
    · have hr : stateOf N nums = rev :=
        weight_inj _ _ (by rw [stateOf_length hN ht, hlen]) (stateOf_range ht) hs.range hweq
      subst hr
      rw [used_stateOf ht] at u1
      obtain ⟨rfl, -⟩ := Prod.mk.inj (Option.some.inj u1)
      cases r with
      | none => dsimp only at h; rw [← Option.some.inj h]; exact hfs
      | some rev' =>
        dsimp only at h
        rw [Option.map_eq_some_iff] at h
        obtain ⟨ls', -, rfl⟩ := h
        exact List.mem_append.2 (.inl hfs)
    · obtain ⟨rev', r1, r2⟩ := nextNumber_reaches N hN nums ht _ (N + 1) rev (Nat.le_refl _) hs hlen (by omega)
      rw [n1] at r1
      obtain rfl := Option.some.inj r1
      dsimp only at h
      rw [Option.map_eq_some_iff] at h
      obtain ⟨ls', h1, rfl⟩ := h
      obtain ⟨s1, s2, -⟩ := n2 rev' rfl
      obtain ⟨l1, i, vs, k, l2, l3, l4⟩ :=
        nextNumber_lex N hN rev.reverse _ (N + 1) rev (Nat.le_refl _) hs (.inl ⟨rfl, hlenN⟩) rev' n1
      have hdec := lex_decreases N rev'.reverse rev.reverse 1 i vs k (by omega) (by simp [l1]) l2
        (fun d hd => s1.range d (List.mem_reverse.1 hd)) l3 l4 (s2.path hN s1)
      refine List.mem_append.2 (.inr (ih (room - (emit ag us).length) rev' ls' (by omega) s1 s2 (by omega) (by omega) ?_
        r2 h1 fs hfs))
      rw [l1]
      have := Nat.mul_le_mul_right (rev.length + 1) hdec
      omega

theorem weight_twos (a : List Nat) (h : ∀ d, d ∈ a → 2 ≤ d ∧ d ≤ 13) :
    weight a ≤ weight (List.replicate a.length 2) := by
  induction a with
  | nil => exact Nat.le_refl _
  | cons d a ih =>
    have := ih fun e he => h e (List.mem_cons_of_mem _ he)
    have := h d List.mem_cons_self
    rw [List.length_cons, List.replicate_succ]
    simp only [weight]
    omega

/-- The start of the enumeration has room for everything. -/
theorem start_room (N : Nat) (hN : 2 ≤ N) (hmax : N ≤ 3564) :
    linesMax N = some (N * N * 13 * 13) ∧ slots N ≤ N + 1 ∧
      (rest N 1 (List.replicate (slots N) 2).reverse + 1) * ((List.replicate (slots N) 2).length + 1) ≤
        N * N * 13 * 13 := by
  have hsq : N * N ≤ 3564 * 3564 := Nat.mul_le_mul hmax hmax
  obtain ⟨s1, s2⟩ := start_state N hN
  have h12 : slots N ≤ 12 := slots_le N hN 12 (by omega)
  have hsN : slots N ≤ N := slots_le N hN N Nat.lt_two_pow_self.le
  refine ⟨by unfold linesMax factorMax; rw [if_pos (by omega)], by omega, ?_⟩
  have h1 := path_leaf N (List.replicate (slots N) 2).reverse 1
    (fun d hd => s1.range d (List.mem_reverse.1 hd)) (s2.path hN s1)
  have h2 := leaves_le N (List.replicate (slots N) 2).reverse.length hN
  rw [List.length_replicate]
  calc (rest N 1 (List.replicate (slots N) 2).reverse + 1) * (slots N + 1) ≤ 3 * N ^ 2 * 13 :=
        Nat.mul_le_mul (h1.trans h2) (by omega)
    _ ≤ N * N * 13 * 13 := by
        have : N ^ 2 = N * N := by ring
        rw [this]; omega

theorem candidates_some (N : Nat) (hN : 2 ≤ N) (hmax : N ≤ 3564) (ag : Bool) :
    ∃ ls, candidates N ag = some ls := by
  rw [candidates_eq N hN]
  obtain ⟨r1, r2, r3⟩ := start_room N hN hmax
  rw [r1, Option.bind_some]
  obtain ⟨s1, s2⟩ := start_state N hN
  exact enumerate_some N hN ag _ _ _ s1 s2 (by simpa using r2) r3

theorem candidates_all (N : Nat) (hN : 2 ≤ N) (hmax : N ≤ 3564) (ag : Bool) (ls : List (List Int))
    (h : candidates N ag = some ls) (nums : List Nat) (ht : Tight N nums) : ∀ fs, fs ∈ emit ag nums → fs ∈ ls := by
  rw [candidates_eq N hN] at h
  obtain ⟨r1, r2, r3⟩ := start_room N hN hmax
  rw [r1, Option.bind_some] at h
  obtain ⟨s1, s2⟩ := start_state N hN
  refine enumerate_all N hN ag nums ht _ _ _ _ (Nat.le_refl _) s1 s2 (by simp) (by simpa using r2) r3 ?_ h
  have := weight_twos _ (stateOf_range ht)
  rwa [stateOf_length hN ht] at this

end ExtMpi.PortChoice
