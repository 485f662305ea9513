import Verif.Lemmas.RecursivePhases
/-! The middle phase of the recursive allreduce. -/
namespace ExtMpi.Recursive
open Schedule

def midRho (first : Bool) (i : Nat) : Nat := (if first then 1 else 2) + i

def midSig (first : Bool) (i : Nat) : Nat := if first then (if i = 0 then 0 else i + 1) else i + 2

theorem mid_sums {V : Type} [AddCommMonoid V] (p : Nat) (hp : 0 < p) (first : Bool) (val : Nat → V) :
    val 1 + ∑ i ∈ Finset.range p, val (midSig first i) =
      val (if first then 0 else 1) + ∑ i ∈ Finset.range p, val (midRho first i) := by
  obtain ⟨k, rfl⟩ : ∃ k, p = k + 1 := ⟨p - 1, by omega⟩
  cases first
  · simp only [Bool.false_eq_true, if_false]
    congr 1
    apply Finset.sum_congr rfl
    intro i _
    unfold midSig midRho
    simp only [Bool.false_eq_true, if_false]
    rw [Nat.add_comm]
  · simp only [if_true]
    rw [Finset.sum_range_succ', Finset.sum_range_succ' (fun i => val (midRho true i))]
    simp only [midSig, midRho, if_true, if_false, Nat.add_eq_zero_iff, one_ne_zero, and_false]
    have : ∀ i, 1 + (i + 1) = i + 1 + 1 := fun i => by omega
    simp only [this]
    abel

theorem div_of_dvd (g M q t : Nat) (h : g ∣ M) (e : q / g = t / g) : q / M = t / M := by
  obtain ⟨k, rfl⟩ := h
  rw [← Nat.div_div_eq_div_mul, ← Nat.div_div_eq_div_mul, e]

theorem middleLike (lb M g p : Nat) (first : Bool) (hp : 0 < p) (hg : 0 < g) (hM : 0 < M)
    (hd : g * (p + 1) ∣ M) (hMl : M ∣ lb) :
    ReduceLike lb (if first then p + 1 else p + 2) (if first then 0 else 1) 1 g p M
      (fun t => t / M * M) (midRho first) (midSig first) fun t x =>
    { frac := x % lb
      sendto :=
        if decide (x % lb / M = t / M) ∧ x / lb = (if first then 0 else 1) then
          (List.range p).map fun i => ((partner g (g * (p + 1)) t i : Int), ((x % lb : Nat) : Int))
        else []
      recvfrom :=
        if decide (x % lb / M = t / M) ∧ (if first then 1 else 2) ≤ x / lb ∧
            x / lb < (if first then 1 else 2) + p then
          [((partner g (g * (p + 1)) t (x / lb - (if first then 1 else 2)) : Int), ((x % lb : Nat) : Int))]
        else []
      reducefrom :=
        if decide (x % lb / M = t / M) ∧ x / lb = 1 then
          if first then (List.range p).map fun i => if i = 0 then x % lb else x % lb + (i + 1) * lb
          else (List.range p).map fun i => x % lb + (i + 2) * lb
        else [] } := by
  have hrel : ∀ q t, Rel g (p + 1) q t → q / M = t / M := fun q t h => div_of_dvd _ M q t hd h.1
  constructor
  · intro q t x hq ht hne hx
    show ((if _ then _ else _ : List (Int × Int)).filter _).map _ = _
    generalize x % lb = n
    generalize x / lb = r
    generalize (if first then 0 else 1) = sr
    have hi : (t / M * M ≤ n ∧ n < t / M * M + M) ↔ n / M = t / M := (div_eq_iff' M n (t / M) hM).symm
    by_cases h1 : n / M = q / M ∧ r = sr
    · rw [if_pos (by simpa using h1), partner_filter g p q t _ x hg]
      by_cases h2 : Rel g (p + 1) q t
      · rw [if_pos ⟨hne.symm, h2.symm⟩, if_pos ⟨h2, h1.2, hi.2 (h1.1.trans (hrel q t h2))⟩]
      · rw [if_neg fun h => h2 h.2.symm, if_neg fun h => h2 h.1]
    · rw [if_neg (by simpa using h1), if_neg]
      · rfl
      · rintro ⟨h2, h3, h4⟩
        exact h1 ⟨(hi.1 h4).trans (hrel q t h2).symm, h3⟩
  · intro q t x ht hx
    show ((if _ then _ else _ : List (Int × Int)).any _) = true ↔ _
    generalize x % lb = n
    generalize x / lb = r
    unfold midRho
    generalize (if first then 1 else 2) = base
    have hi : (t / M * M ≤ n ∧ n < t / M * M + M) ↔ n / M = t / M := (div_eq_iff' M n (t / M) hM).symm
    by_cases h1 : n / M = t / M ∧ base ≤ r ∧ r < base + p
    · rw [if_pos (by simpa using h1)]
      simp only [List.any_cons, List.any_nil, Bool.or_false, beq_iff_eq, Nat.cast_inj]
      constructor
      · intro e
        exact ⟨r - base, by omega, by omega, (hi.2 h1.1).1, (hi.2 h1.1).2, e⟩
      · rintro ⟨i, _, e, _, _, e2⟩
        have : r - base = i := by omega
        rw [this]; exact e2
    · rw [if_neg (by simpa using h1)]
      simp only [List.any_nil, Bool.false_eq_true, false_iff]
      rintro ⟨i, hip, e, e1, e2, _⟩
      exact h1 ⟨hi.1 ⟨e1, e2⟩, by omega, by omega⟩
  · intro t x; rfl
  · intro t x ht hx
    show (if _ then _ else _ : List Nat) = _
    generalize x % lb = n
    generalize x / lb = r
    have hi : (t / M * M ≤ n ∧ n < t / M * M + M) ↔ n / M = t / M := (div_eq_iff' M n (t / M) hM).symm
    by_cases h1 : n / M = t / M ∧ r = 1
    · rw [if_pos (by simpa using h1),
        if_pos (c := r = 1 ∧ t / M * M ≤ n ∧ n < t / M * M + M) ⟨h1.2, hi.2 h1.1⟩]
      unfold midSig
      cases first <;> simp only [Bool.false_eq_true, if_false, if_true] <;>
        apply List.map_congr_left <;> intro i _
      · omega
      · split <;> omega
    · rw [if_neg (by simpa using h1), if_neg fun h => h1 ⟨hi.1 h.2, h.1⟩]
  · intro t x; rfl
  · cases first <;> simp
  · cases first <;> simp; omega
  · intro i hi
    unfold midRho
    cases first <;> simp only [Bool.false_eq_true, if_false, if_true] <;> omega
  · intro i hi
    unfold midSig
    cases first <;> simp only [Bool.false_eq_true, if_false, if_true] <;> (try split) <;> omega
  · intro i j hi hj
    unfold midRho
    omega
  · intro t ht
    exact block_lt hM hMl ht
  · exact hg
  · exact Nat.dvd_trans hd hMl

/-- Sum over the nodes in the same class of a middle group. -/
def classSum {V : Type} [AddCommMonoid V] (lb g W t n : Nat) (inp : Nat → Nat → V) : V :=
  sumOver lb (fun s => s / g % W = t / g % W) fun s => inp s n

theorem class_step {V : Type} [AddCommMonoid V] (lb g p W t n : Nat) (hg : 0 < g) (inp : Nat → Nat → V) :
    classSum lb g ((p + 1) * W) t n inp +
      ∑ i ∈ Finset.range p, classSum lb g ((p + 1) * W) (partner g (g * (p + 1)) t i) n inp =
      classSum lb (g * (p + 1)) W t n inp := by
  have hD : 0 < p + 1 := by omega
  have hq : ∀ q, q / (g * (p + 1)) = t / (g * (p + 1)) → classSum lb g ((p + 1) * W) q n inp =
      sumOver lb (fun s => s / g % ((p + 1) * W) =
        q / g % (p + 1) + (p + 1) * (t / (g * (p + 1)) % W)) fun s => inp s n := by
    intro q e
    unfold classSum
    apply sumOver_congr
    intro s _
    rw [Nat.mod_mul (x := q / g), Nat.div_div_eq_div_mul, e]
  have hsum : ∑ i ∈ Finset.range p, classSum lb g ((p + 1) * W) (partner g (g * (p + 1)) t i) n inp =
      ∑ i ∈ Finset.range (p + 1 - 1), sumOver lb (fun s => s / g % ((p + 1) * W) =
        (t / g % (p + 1) + i + 1) % (p + 1) + (p + 1) * (t / (g * (p + 1)) % W)) fun s => inp s n := by
    apply Finset.sum_congr rfl
    intro i _
    rw [hq _ (partner_group g (p + 1) t i hg hD), partner_digit g (p + 1) t i hg hD]
  rw [hq t rfl, hsum,
    rotate_sum (p + 1) (t / g % (p + 1)) (Nat.mod_lt _ hD)
      (fun j => sumOver lb (fun s => s / g % ((p + 1) * W) =
        j + (p + 1) * (t / (g * (p + 1)) % W)) fun s => inp s n)]
  apply sum_classes lb (p + 1) (fun s => inp s n)
    (fun s => s / (g * (p + 1)) % W = t / (g * (p + 1)) % W) _ (fun s => s / g % (p + 1))
    (fun s => Nat.mod_lt _ hD)
  intro j s hj
  rw [Nat.mod_mul, Nat.div_div_eq_div_mul]
  constructor
  · intro e
    have h1 : s / g % (p + 1) = j := by
      have := congrArg (· % (p + 1)) e
      simpa [Nat.add_mul_mod_self_left, Nat.mod_eq_of_lt hj] using this
    rw [h1] at e
    exact ⟨Nat.eq_of_mul_eq_mul_left hD (Nat.add_left_cancel e), h1⟩
  · rintro ⟨e1, e2⟩
    rw [e1, e2]

/-- The blocks of the middle phase. -/
def midList (lb M t : Nat) : Bool → Nat → List Nat → List Block
  | _, _, [] => []
  | first, g, p :: ps => middleBlock lb M g p t first :: midList lb M t false (g * (p + 1)) ps

theorem middleSteps_eq (lb M t : Nat) (mids gs : List Nat) (hp : ∀ p, p ∈ mids → 0 < p) (first : Bool)
    (g : Nat) (hg : 0 < g) (hM : g * factor mids = M) :
    middleSteps lb M t first g (mids ++ gs) = (midList lb M t first g mids, M, gs) := by
  induction mids generalizing g first with
  | nil =>
    have : g = M := by simpa [factor] using hM
    subst this
    cases gs with
    | nil => rfl
    | cons p ps => simp [middleSteps, midList]
  | cons p ps ih =>
    rw [factor_cons, ← Nat.mul_assoc] at hM
    have hpp := hp p List.mem_cons_self
    have hlt : g < M := by
      have h1 : g * 2 ≤ g * (p + 1) := Nat.mul_le_mul_left g (by omega)
      have h2 : g * (p + 1) * 1 ≤ g * (p + 1) * factor ps := Nat.mul_le_mul_left _ (factor_pos ps)
      omega
    rw [List.cons_append, middleSteps, if_pos hlt,
      ih (fun q hq => hp q (List.mem_cons_of_mem _ hq)) false (g * (p + 1)) (Nat.mul_pos hg (by omega)) hM]
    rfl

theorem middle_phase {V : Type} [AddCommMonoid V] (lb M : Nat) (hMpos : 0 < M) (hMl : M ∣ lb)
    (inp : Nat → Nat → V) (mids : List Nat) (hp : ∀ p, p ∈ mids → 0 < p) (first : Bool)
    (hne : first = true → mids ≠ []) (g : Nat) (hg : 0 < g) (hM : g * factor mids = M) (s : Nat → Nat → V)
    (hs : ∀ t n, t < lb → n < lb → n / M = t / M →
      s t ((if first then 0 else 1) * lb + n) = classSum lb g (factor mids) t n inp) :
    ∃ s', Run lb (fun t => midList lb M t first g mids) s s' ∧
      ∀ t n, t < lb → n < lb → n / M = t / M → s' t (1 * lb + n) = ∑ k ∈ Finset.range lb, inp k n := by
  induction mids generalizing g first s with
  | nil =>
    have hf : first = false := by
      cases first with
      | false => rfl
      | true => exact absurd rfl (hne rfl)
    subst hf
    refine ⟨s, .done fun _ _ => rfl, fun t n ht hn e => ?_⟩
    have := hs t n ht hn e
    simp only [Bool.false_eq_true, if_false] at this
    rw [this]
    unfold classSum
    apply sumOver_true
    intro k _
    have : factor [] = 1 := rfl
    rw [this, Nat.mod_one, Nat.mod_one]
  | cons p ps ih =>
    rw [factor_cons] at hM hs
    rw [← Nat.mul_assoc] at hM
    have hpp := hp p List.mem_cons_self
    have hdM : g * (p + 1) ∣ M := ⟨_, hM.symm⟩
    obtain ⟨s1, h1, h2⟩ := (middleLike lb M g p first hpp hg hMpos hdM hMl).step
      (fun val => mid_sums p hpp first val) s
    have h2' : ∀ t n, t < lb → n < lb → n / M = t / M →
        s1 t (1 * lb + n) = classSum lb (g * (p + 1)) (factor ps) t n inp := by
      intro t n ht hn e
      have hi := (div_eq_iff' M n (t / M) hMpos).1 e
      rw [h2 t n ht hi.1 hi.2, hs t n ht hn e, ← class_step lb g p (factor ps) t n hg inp]
      congr 1
      apply Finset.sum_congr rfl
      intro i _
      apply hs _ n (partner_lt g (p + 1) lb t i hg (by omega) (Nat.dvd_trans hdM hMl) ht) hn
      rw [e]
      exact (div_of_dvd _ M _ _ hdM (partner_group g (p + 1) t i hg (by omega))).symm
    obtain ⟨s2, h3, h4⟩ := ih (fun q hq => hp q (List.mem_cons_of_mem _ hq)) false
      (fun h => by cases h) (g * (p + 1)) (Nat.mul_pos hg (by omega)) hM s1 (by simpa using h2')
    exact ⟨s2, .step _ (fun t => midList lb M t false (g * (p + 1)) ps) s1 (fun t _ => rfl) h1 h3, h4⟩

end ExtMpi.Recursive
