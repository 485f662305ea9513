import Mathlib.Data.Nat.Factorization.Basic
import Mathlib.Data.Nat.Factorization.Defs
import Mathlib.Data.Nat.Prime.Basic
import Mathlib.Data.Nat.Factors
import Mathlib.Tactic.Linarith
import Mathlib.Tactic.Ring
import Verif.Model.Numeric

namespace ExtMpi.Numeric

open Classical in
theorem crossOut_spec (max i : Nat) (hi : 1 ≤ i) : ∀ fuel j (p : Nat → Bool), max ≤ fuel + j → ∀ x,
    crossOut max i fuel j p x = if x < max ∧ ∃ k, j ≤ k ∧ x = i * k then false else p x := by
  intro fuel
  induction fuel with
  | zero =>
    intro j p hf x
    have : ¬ (x < max ∧ ∃ k, j ≤ k ∧ x = i * k) := by
      rintro ⟨h1, k, h2, h3⟩
      have := Nat.le_mul_of_pos_left k hi
      omega
    simp [crossOut, this]
  | succ fuel ih =>
    intro j p hf x
    simp only [crossOut]
    split
    · next hlt =>
      rw [ih _ _ (by omega)]
      by_cases h1 : x < max ∧ ∃ k, j + 1 ≤ k ∧ x = i * k
      · rw [if_pos h1]
        obtain ⟨a, k, b, c⟩ := h1
        rw [if_pos ⟨a, k, by omega, c⟩]
      · rw [if_neg h1]
        by_cases hx : x = i * j
        · subst hx
          rw [if_pos ⟨hlt, j, by omega, rfl⟩]; simp [upd]
        · have : ¬ (x < max ∧ ∃ k, j ≤ k ∧ x = i * k) := by
            rintro ⟨a, k, b, c⟩
            apply h1
            refine ⟨a, k, ?_, c⟩
            rcases Nat.eq_or_lt_of_le b with e | e
            · subst e; exact absurd c hx
            · exact e
          rw [if_neg this]; simp [upd, hx]
    · next hlt =>
      have : ¬ (x < max ∧ ∃ k, j ≤ k ∧ x = i * k) := by
        rintro ⟨a, k, b, c⟩
        have := Nat.mul_le_mul_left i b
        omega
      rw [if_neg this]

/-- No proper multiple of a prime below `k`. -/
def Sieved (k x : Nat) : Prop := ¬ ∃ q c, q.Prime ∧ q < k ∧ 2 ≤ c ∧ x = q * c

theorem sieved_self {k : Nat} (hk : 2 ≤ k) : Sieved k k ↔ k.Prime := by
  constructor
  · intro h
    by_contra hp
    apply h
    have hm := Nat.minFac_prime (show k ≠ 1 by omega)
    have hlt : k.minFac < k := (Nat.not_prime_iff_minFac_lt hk).1 hp
    refine ⟨k.minFac, k / k.minFac, hm, hlt, ?_, (Nat.mul_div_cancel' (Nat.minFac_dvd k)).symm⟩
    have hmul := Nat.mul_div_cancel' (Nat.minFac_dvd k)
    by_contra hc
    generalize k / k.minFac = d at hc hmul
    have : d = 0 ∨ d = 1 := by omega
    rcases this with e | e
    · simp only [e, Nat.mul_zero] at hmul; omega
    · simp only [e, Nat.mul_one] at hmul; omega
  · rintro hp ⟨q, c, hq, hlt, hc, he⟩
    have hd : q ∣ k := ⟨c, he⟩
    rcases (Nat.dvd_prime hp).1 hd with e | e
    · exact hq.one_lt.ne' e
    · omega

open Classical in
theorem primeRost_spec (max : Nat) : ∀ n, 2 + n ≤ max ∨ n = 0 → ∀ x, x < max →
    ((List.range' 2 n).foldl (fun p i => if p i then crossOut max i max 2 p else p)
      (fun _ => true) x = true ↔ Sieved (2 + n) x) := by
  intro n
  induction n with
  | zero =>
    intro _ x _
    simp only [List.range'_zero, List.foldl_nil, true_iff]
    rintro ⟨q, c, hq, hlt, _⟩
    have := hq.two_le
    omega
  | succ n ih =>
    intro hn x hx
    have hn' : 2 + n + 1 ≤ max := by omega
    rw [List.range'_1_concat, List.foldl_append, List.foldl_cons, List.foldl_nil]
    have ih' := ih (by omega)
    generalize (List.range' 2 n).foldl (fun p i => if p i then crossOut max i max 2 p else p)
      (fun _ => true) = P at *
    have hself : P (2 + n) = true ↔ (2 + n).Prime := by
      rw [ih' _ (by omega), sieved_self (by omega)]
    have key : Sieved (2 + (n + 1)) x ↔
        Sieved (2 + n) x ∧ ¬ ((2 + n).Prime ∧ ∃ c, 2 ≤ c ∧ x = (2 + n) * c) := by
      unfold Sieved
      constructor
      · intro h
        refine ⟨fun ⟨q, c, h1, h2, h3⟩ => h ⟨q, c, h1, by omega, h3⟩, ?_⟩
        rintro ⟨hp, c, h1, h2⟩
        exact h ⟨2 + n, c, hp, by omega, h1, h2⟩
      · rintro ⟨h1, h2⟩ ⟨q, c, hq, hlt, hc, he⟩
        by_cases e : q = 2 + n
        · subst e; exact h2 ⟨hq, c, hc, he⟩
        · exact h1 ⟨q, c, hq, by omega, hc, he⟩
    rw [key]
    by_cases hp : P (2 + n) = true
    · rw [if_pos hp, crossOut_spec max (2 + n) (by omega) max 2 P (by omega) x]
      have hprime := hself.1 hp
      by_cases hm : x < max ∧ ∃ k, 2 ≤ k ∧ x = (2 + n) * k
      · rw [if_pos hm]
        constructor
        · intro h; simp at h
        · rintro ⟨_, h⟩; exact absurd ⟨hprime, hm.2⟩ h
      · rw [if_neg hm, ih' x hx]
        constructor
        · intro h; exact ⟨h, fun h' => hm ⟨hx, h'.2⟩⟩
        · exact fun h => h.1
    · rw [if_neg hp, ih' x hx]
      constructor
      · intro h; exact ⟨h, fun h' => hp (hself.2 h'.1)⟩
      · exact fun h => h.1

theorem primeRost_prime (max x : Nat) (h2 : 2 ≤ x) (hx : x < max) :
    primeRost max x = true ↔ x.Prime := by
  unfold primeRost
  rw [primeRost_spec max (max - 2) (by omega) x hx, show 2 + (max - 2) = max by omega]
  rw [← sieved_self h2]
  unfold Sieved
  constructor
  · rintro h ⟨q, c, h1, h2', h3⟩
    exact h ⟨q, c, h1, by omega, h3⟩
  · rintro h ⟨q, c, h1, h2', h3, h4⟩
    apply h
    refine ⟨q, c, h1, ?_, h3, h4⟩
    have : q * 2 ≤ q * c := Nat.mul_le_mul_left q h3
    have := h1.two_le
    omega

theorem mem_primesUpTo (n x : Nat) : x ∈ primesUpTo n ↔ x.Prime ∧ x ≤ n := by
  unfold primesUpTo
  simp only [List.mem_filter, List.mem_range'_1]
  constructor
  · rintro ⟨⟨h1, h2⟩, h3⟩
    exact ⟨(primeRost_prime (n + 1) x h1 (by omega)).1 h3, by omega⟩
  · rintro ⟨h1, h2⟩
    have := h1.two_le
    exact ⟨⟨this, by omega⟩, (primeRost_prime (n + 1) x this (by omega)).2 h1⟩

theorem primesUpTo_sorted (n : Nat) : (primesUpTo n).Pairwise (· < ·) :=
  List.Pairwise.filter _ (List.pairwise_lt_range' (s := 2) (n := n - 1))

theorem primesUpTo_nodup (n : Nat) : (primesUpTo n).Nodup :=
  (primesUpTo_sorted n).imp fun h => Nat.ne_of_lt h

theorem divCount_eq (p : Nat) (hp : p.Prime) : ∀ fuel j, 1 ≤ j → j ≤ fuel →
    divCount p fuel j = j.factorization p := by
  intro fuel
  induction fuel with
  | zero => intro j h1 h2; omega
  | succ fuel ih =>
    intro j h1 h2
    simp only [divCount]
    split
    · next hd =>
      have hdvd : p ∣ j := Nat.dvd_of_mod_eq_zero hd
      have hlt : j / p < j := Nat.div_lt_self (by omega) hp.one_lt
      have hpos : 1 ≤ j / p := Nat.div_pos (Nat.le_of_dvd (by omega) hdvd) hp.pos
      rw [ih _ hpos (by omega)]
      conv_rhs => rw [← Nat.mul_div_cancel' hdvd]
      rw [Nat.factorization_mul hp.ne_zero (by omega), Finsupp.add_apply, hp.factorization_self]
      omega
    · next hd =>
      exact (Nat.factorization_eq_zero_of_not_dvd fun h => hd (Nat.mod_eq_zero_of_dvd h)).symm

/-- Any number is the product of the prime powers over a list of primes containing its divisors. -/
theorem prod_primes (m : Nat) (g : Nat) (hg : g ≠ 0) (hgm : g ≤ m) :
    ((primesUpTo m).map fun p => p ^ g.factorization p).prod = g := by
  rw [← List.prod_toFinset _ (primesUpTo_nodup m)]
  conv_rhs => rw [← Nat.prod_factorization_pow_eq_self hg]
  rw [Finsupp.prod_of_support_subset (s := (primesUpTo m).toFinset)]
  · intro p hp
    rw [List.mem_toFinset, mem_primesUpTo]
    have hp' := Nat.support_factorization g ▸ hp
    have h1 := Nat.prime_of_mem_primeFactors hp'
    exact ⟨h1, (Nat.le_of_dvd (by omega) (Nat.dvd_of_mem_primeFactors hp')).trans hgm⟩
  · intro i _; exact pow_zero i

theorem prod_replicate_flatMap (l : List (Nat × Nat)) :
    (l.flatMap fun (p, c) => List.replicate c p).prod = (l.map fun pc => pc.1 ^ pc.2).prod := by
  induction l with
  | nil => rfl
  | cons a l ih => simp [List.flatMap_cons, List.prod_append, ih]

theorem decomposition_eq (n : Nat) (hn : n ≠ 0) :
    decomposition n = (primesUpTo n).map fun p => (p, n.factorization p) := by
  unfold decomposition
  apply List.map_congr_left
  intro p hp
  rw [divCount_eq p ((mem_primesUpTo n p).1 hp).1 n n (by omega) (Nat.le_refl _)]

theorem plain_prod (n : Nat) (hn : n ≠ 0) : (plainPrimeFactors n).prod = n := by
  unfold plainPrimeFactors
  rw [prod_replicate_flatMap, decomposition_eq n hn, List.map_map]
  exact prod_primes n n hn (Nat.le_refl _)

theorem plain_prime (n x : Nat) (h : x ∈ plainPrimeFactors n) : x.Prime := by
  unfold plainPrimeFactors decomposition at h
  rw [List.mem_flatMap] at h
  obtain ⟨⟨p, c⟩, h1, h2⟩ := h
  obtain ⟨q, hq, he⟩ := List.mem_map.1 h1
  have := (List.mem_replicate.1 h2).2
  injection he with e1 _
  subst e1; subst this
  exact ((mem_primesUpTo n _).1 hq).1

theorem plain_sorted (n : Nat) : (plainPrimeFactors n).Pairwise (· ≤ ·) := by
  unfold plainPrimeFactors decomposition
  rw [List.pairwise_flatMap]
  constructor
  · rintro ⟨p, c⟩ _
    exact List.pairwise_replicate.2 (Or.inr (Nat.le_refl _))
  · rw [List.pairwise_map]
    refine (primesUpTo_sorted n).imp ?_
    intro a b hab x hx y hy
    rw [(List.mem_replicate.1 hx).2, (List.mem_replicate.1 hy).2]
    exact Nat.le_of_lt hab

theorem mulTimes_eq (p c : Nat) : ∀ r, mulTimes p c r = r * p ^ c := by
  induction c with
  | zero => intro r; simp [mulTimes]
  | succ c ih => intro r; simp only [mulTimes, ih, pow_succ]; ring

theorem foldl_mulTimes (l : List Nat) (f : Nat → Nat) : ∀ r,
    l.foldl (fun ret p => mulTimes p (f p) ret) r = r * (l.map fun p => p ^ f p).prod := by
  induction l with
  | nil => intro r; simp
  | cons a l ih => intro r; rw [List.foldl_cons, ih, mulTimes_eq, List.map_cons,
      List.prod_cons]; ring

theorem foldl_mulTimes_pairs (l : List (Nat × Nat)) : ∀ r,
    l.foldl (fun ret pc => mulTimes pc.1 pc.2 ret) r = r * (l.map fun pc => pc.1 ^ pc.2).prod := by
  induction l with
  | nil => intro r; simp
  | cons a l ih => intro r; rw [List.foldl_cons, ih, mulTimes_eq, List.map_cons,
      List.prod_cons]; ring

end ExtMpi.Numeric
