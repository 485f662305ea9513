import Mathlib.Data.Nat.Factorization.Induction
import Mathlib.Data.Nat.GCD.BigOperators
import Mathlib.Algebra.BigOperators.Group.List.Basic
import Mathlib.Tactic.IntervalCases
import Verif.Lemmas.Numeric

/-!
# Properties C24, C25, C26, C35, C36, C42, C43: number helpers
-/
namespace ExtMpi.Numeric

/-! ### C25 -/

/-- **C25 (plain factorisation).** For every positive number: the factors are primes in
non-decreasing order and multiply to the number. -/
theorem plain_spec (n : Nat) (hn : 0 < n) :
    (plainPrimeFactors n).prod = n ∧ (∀ x ∈ plainPrimeFactors n, x.Prime) ∧
    (plainPrimeFactors n).Pairwise (· ≤ ·) :=
  ⟨plain_prod n (by omega), plain_prime n, plain_sorted n⟩

example : plainPrimeFactors 12 = [2, 2, 3] := by decide

theorem insertSorted_perm (x : Nat) (l : List Nat) : (insertSorted x l).Perm (x :: l) := by
  induction l with
  | nil => exact List.Perm.refl _
  | cons y ys ih =>
    simp only [insertSorted]
    split
    · exact List.Perm.refl _
    · exact (ih.cons y).trans (List.Perm.swap x y ys)

theorem insertSorted_sorted (x : Nat) (l : List Nat) (h : l.Pairwise (· ≤ ·)) :
    (insertSorted x l).Pairwise (· ≤ ·) := by
  induction l with
  | nil => simp [insertSorted]
  | cons y ys ih =>
    rw [List.pairwise_cons] at h
    simp only [insertSorted]
    split
    · next hxy =>
      refine List.pairwise_cons.2 ⟨?_, List.pairwise_cons.2 h⟩
      intro z hz
      rcases List.mem_cons.1 hz with e | e
      · omega
      · have := h.1 z e; omega
    · next hxy =>
      refine List.pairwise_cons.2 ⟨?_, ih h.2⟩
      intro z hz
      rcases List.mem_cons.1 ((insertSorted_perm x ys).subset hz) with e | e
      · omega
      · exact h.1 z e

theorem sortAsc_perm (l : List Nat) : (sortAsc l).Perm l := by
  induction l with
  | nil => exact List.Perm.refl _
  | cons x l ih => exact (insertSorted_perm x _).trans (ih.cons x)

theorem sortAsc_sorted (l : List Nat) : (sortAsc l).Pairwise (· ≤ ·) := by
  induction l with
  | nil => exact List.Pairwise.nil
  | cons x l ih => exact insertSorted_sorted x _ ih

theorem mergeMin_spec (fm : Nat) : ∀ fuel (l : List Nat), l.length ≤ fuel → l.Pairwise (· ≤ ·) →
    (mergeMin fm fuel l).prod = l.prod ∧ (mergeMin fm fuel l).Pairwise (· ≤ ·) ∧
    ((∀ x ∈ mergeMin fm fuel l, fm ≤ x) ∨ (mergeMin fm fuel l).length ≤ 1) := by
  intro fuel
  induction fuel with
  | zero =>
    intro l hl hs
    have : l = [] := List.length_eq_zero_iff.1 (by omega)
    subst this
    exact ⟨rfl, hs, Or.inr (by simp [mergeMin])⟩
  | succ fuel ih =>
    intro l hl hs
    match l, hl, hs with
    | [], _, hs => exact ⟨rfl, hs, Or.inr (by simp [mergeMin])⟩
    | [a], _, hs => exact ⟨rfl, hs, Or.inr (by simp [mergeMin])⟩
    | a :: b :: rest, hl, hs =>
      simp only [mergeMin]
      split
      · have hp := sortAsc_perm (a * b :: rest)
        obtain ⟨h1, h2, h3⟩ := ih (sortAsc (a * b :: rest))
          (by rw [hp.length_eq]; simp at hl ⊢; omega) (sortAsc_sorted _)
        refine ⟨?_, h2, h3⟩
        rw [h1, hp.prod_eq]
        simp [Nat.mul_assoc]
      · next ha =>
        refine ⟨rfl, hs, Or.inl ?_⟩
        intro x hx
        rw [List.pairwise_cons] at hs
        rcases List.mem_cons.1 hx with e | e
        · omega
        · have := hs.1 x e; omega

/-- **C25 (minimum-factor variant).** For every positive number and minimum: the factors multiply
to the number, are in non-increasing order, and none is below the minimum unless the list is the
number itself, being below the minimum (or empty, for 1). If no prime factor is below the minimum, the
factors are the prime factors. -/
theorem factorsMinimum_spec (n fm : Nat) (hn : 0 < n) :
    (factorsMinimum n fm).prod = n ∧ (factorsMinimum n fm).Pairwise (· ≥ ·) ∧
    ((∀ x ∈ factorsMinimum n fm, fm ≤ x) ∨ (factorsMinimum n fm = [n] ∧ n < fm)) ∧
    ((∀ p ∈ plainPrimeFactors n, fm ≤ p) → factorsMinimum n fm = (plainPrimeFactors n).reverse) := by
  have hid : (∀ p ∈ plainPrimeFactors n, fm ≤ p) →
      factorsMinimum n fm = (plainPrimeFactors n).reverse := by
    intro hp
    unfold factorsMinimum
    simp only
    congr 1
    generalize plainPrimeFactors n = l at hp
    match l, hp with
    | [], _ => rfl
    | [a], _ => rfl
    | a :: b :: rest, hp =>
      simp only [List.length_cons, mergeMin]
      rw [if_neg (by have := hp a (by simp); omega)]
  refine and_assoc.1 (and_assoc.1 ⟨?_, hid⟩)
  rw [and_assoc]
  clear hid
  obtain ⟨h1, h2, h3⟩ := mergeMin_spec fm _ (plainPrimeFactors n) (Nat.le_refl _) (plain_sorted n)
  rw [plain_prod n (by omega)] at h1
  unfold factorsMinimum
  simp only
  generalize mergeMin fm (plainPrimeFactors n).length (plainPrimeFactors n) = l at *
  refine ⟨by rw [List.prod_reverse]; exact h1, ?_, ?_⟩
  · rw [List.pairwise_reverse]; exact h2
  · rcases h3 with h | h
    · left; intro x hx; exact h x (by simpa using hx)
    · match l, h with
      | [], _ => left; simp
      | [a], _ =>
        have ha : a = n := by simpa using h1
        subst ha
        by_cases hc : a < fm
        · right; exact ⟨rfl, hc⟩
        · left; intro x hx; simp at hx; omega
      | a :: b :: r, h => simp at h

example : factorsMinimum 24 3 = [6, 4] ∧ factorsMinimum 7 10 = [7] ∧ factorsMinimum 15 3 = [5, 3] := by decide

/-! ### C43 -/

theorem sqrtLoop_spec (n : Nat) : ∀ (l : List Nat), l ≠ [] → l.prod = n → (∀ x ∈ l, 0 < x) →
    sqrtLoop n l ∣ n ∧ n ≤ sqrtLoop n l * sqrtLoop n l := by
  intro l
  induction hk : l.length generalizing l with
  | zero => intro h; exact absurd (List.length_eq_zero_iff.1 hk) h
  | succ k ih =>
    intro _ hp hpos
    match l, hk with
    | [a], _ =>
      rw [sqrtLoop]
      have : a = n := by simpa using hp
      subst this
      exact ⟨Nat.dvd_refl a, Nat.le_mul_of_pos_left a (hpos a (by simp))⟩
    | a :: b :: rest, hk =>
      rw [sqrtLoop]
      split
      · apply ih (a * b :: rest) (by simp at hk ⊢; omega) (by simp)
        · rw [← hp]; simp [Nat.mul_assoc]
        · intro x hx
          rcases List.mem_cons.1 hx with e | e
          · subst e; exact Nat.mul_pos (hpos a (by simp)) (hpos b (by simp))
          · exact hpos x (by simp [e])
      · next h =>
        refine ⟨?_, by omega⟩
        rw [← hp, List.prod_cons]
        exact Nat.dvd_mul_right a _

/-- **C43, the part that holds.** For every number of at least 2 the result divides the number and
its square is at least the number.  Missing: the number 1, see `factorSqrt_one_violated`. -/
theorem factorSqrt_partial (n : Nat) (hn : 2 ≤ n) :
    factorSqrt n ∣ n ∧ n ≤ factorSqrt n * factorSqrt n := by
  apply sqrtLoop_spec n _ _ (plain_prod n (by omega))
    (fun x hx => (plain_prime n x hx).pos)
  intro h
  have := plain_prod n (by omega)
  rw [h] at this
  simp at this
  omega

/-- **C43, negation.** For 1 the result is 0, which does not divide 1. -/
theorem factorSqrt_one_violated : factorSqrt 1 = 0 ∧ ¬ (factorSqrt 1 ∣ 1) := by
  have h : factorSqrt 1 = 0 := by
    unfold factorSqrt
    rw [show plainPrimeFactors 1 = [] by decide, sqrtLoop]
  rw [h]; decide

example : factorSqrt 12 = 4 := by
  unfold factorSqrt
  rw [show plainPrimeFactors 12 = [2, 2, 3] by decide, sqrtLoop, if_pos (by decide), sqrtLoop,
    if_neg (by decide)]

/-! ### C26 -/

theorem minCount_eq (cs : List Nat) (c : Nat) : minCount (c :: cs) = cs.foldl min c := by
  simp only [minCount]
  congr 1
  funext m x
  split <;> omega

theorem foldl_gcd_factorization (p : Nat) : ∀ (l : List Nat) (a : Nat), a ≠ 0 → (∀ x ∈ l, x ≠ 0) →
    (l.foldl Nat.gcd a).factorization p =
      (l.map fun n => n.factorization p).foldl min (a.factorization p) ∧ l.foldl Nat.gcd a ≠ 0 := by
  intro l
  induction l with
  | nil => intro a ha _; exact ⟨rfl, ha⟩
  | cons b l ih =>
    intro a ha hl
    have hb := hl b (by simp)
    have hg : Nat.gcd a b ≠ 0 := Nat.gcd_ne_zero_left ha
    simp only [List.foldl_cons, List.map_cons]
    obtain ⟨h1, h2⟩ := ih (Nat.gcd a b) hg fun x hx => hl x (by simp [hx])
    refine ⟨?_, h2⟩
    rw [h1, Nat.factorization_gcd ha hb]
    rfl

theorem foldl_gcd_dvd : ∀ (l : List Nat) (a : Nat),
    l.foldl Nat.gcd a ∣ a ∧ (∀ x ∈ l, l.foldl Nat.gcd a ∣ x) ∧
    ∀ d, d ∣ a → (∀ x ∈ l, d ∣ x) → d ∣ l.foldl Nat.gcd a := by
  intro l
  induction l with
  | nil => intro a; exact ⟨Nat.dvd_refl a, by simp, fun d h _ => h⟩
  | cons b l ih =>
    intro a
    obtain ⟨h1, h2, h3⟩ := ih (Nat.gcd a b)
    simp only [List.foldl_cons]
    refine ⟨h1.trans (Nat.gcd_dvd_left a b), ?_, ?_⟩
    · intro x hx
      rcases List.mem_cons.1 hx with e | e
      · subst e; exact h1.trans (Nat.gcd_dvd_right a x)
      · exact h2 x e
    · intro d hd hl
      exact h3 d (Nat.dvd_gcd hd (hl b (by simp))) fun x hx => hl x (by simp [hx])

theorem foldl_max_ge : ∀ (l : List Nat) (m : Nat),
    m ≤ l.foldl (fun m x => if x > m then x else m) m ∧
    ∀ x ∈ l, x ≤ l.foldl (fun m x => if x > m then x else m) m := by
  intro l
  induction l with
  | nil => intro m; exact ⟨Nat.le_refl _, by simp⟩
  | cons b l ih =>
    intro m
    obtain ⟨h1, h2⟩ := ih (if b > m then b else m)
    simp only [List.foldl_cons]
    refine ⟨?_, ?_⟩
    · refine Nat.le_trans ?_ h1; split <;> omega
    · intro x hx
      rcases List.mem_cons.1 hx with e | e
      · subst e; refine Nat.le_trans ?_ h1; split <;> omega
      · exact h2 x e

/-- **C26.** For every non-empty list of positive sizes the padding factor divides every size, and
every common divisor of the sizes divides it. -/
theorem padding_spec (numbers : List Nat) (hne : numbers ≠ []) (hpos : ∀ x ∈ numbers, 0 < x) :
    ∃ g, primeFactorPadding numbers = some g ∧ (∀ x ∈ numbers, g ∣ x) ∧
      ∀ d, (∀ x ∈ numbers, d ∣ x) → d ∣ g := by
  obtain ⟨a, l, rfl⟩ := List.exists_cons_of_ne_nil hne
  have ha : a ≠ 0 := Nat.pos_iff_ne_zero.1 (hpos a (by simp))
  have hl : ∀ x ∈ l, x ≠ 0 := fun x hx => Nat.pos_iff_ne_zero.1 (hpos x (by simp [hx]))
  obtain ⟨d1, d2, d3⟩ := foldl_gcd_dvd l a
  refine ⟨l.foldl Nat.gcd a, ?_, ?_, ?_⟩
  · unfold primeFactorPadding
    rw [if_neg (by simp), if_neg]
    · simp only
      rw [foldl_mulTimes, Nat.one_mul]
      have hg0 := (foldl_gcd_factorization 0 l a ha hl).2
      generalize hM : (a :: l).foldl (fun m x => if x > m then x else m) 0 = M
      have hle : l.foldl Nat.gcd a ≤ M := by
        refine (Nat.le_of_dvd (by omega) d1).trans ?_
        rw [← hM]; exact (foldl_max_ge (a :: l) 0).2 a (by simp)
      conv_rhs => rw [← prod_primes M _ hg0 hle]
      congr 2
      apply List.map_congr_left
      intro p hp
      have hpp := ((mem_primesUpTo M p).1 hp).1
      rw [(foldl_gcd_factorization p l a ha hl).1, List.map_cons, minCount_eq,
        divCount_eq p hpp a a (by omega) (Nat.le_refl _)]
      congr 2
      apply List.map_congr_left
      intro x hx
      exact divCount_eq p hpp x x (by have := hl x hx; omega) (Nat.le_refl _)
    · simp only [List.any_eq_true, not_exists, not_and]
      intro x hx
      have := hpos x hx
      simp; omega
  · intro x hx
    rcases List.mem_cons.1 hx with e | e
    · subst e; exact d1
    · exact d2 x e
  · intro d hd
    exact d3 d (hd a (by simp)) fun x hx => hd x (by simp [hx])

example : primeFactorPadding [12, 18, 30] = some 6 := by decide

theorem primesUpTo_split (k K : Nat) (h : k ≤ K) :
    ∃ rest, primesUpTo K = primesUpTo k ++ rest ∧ ∀ p ∈ rest, k < p := by
  have hp : ∀ M, primesUpTo M = (List.range' 2 (M - 1)).filter fun i => decide i.Prime := by
    intro M
    unfold primesUpTo
    apply List.filter_congr
    intro x hx
    rw [List.mem_range'_1] at hx
    rw [Bool.eq_iff_iff, decide_eq_true_iff]
    exact primeRost_prime (M + 1) x hx.1 (by omega)
  refine ⟨(List.range' (2 + (k - 1)) (K - 1 - (k - 1))).filter fun i => decide i.Prime, ?_, ?_⟩
  · rw [hp, hp, ← List.filter_append]
    congr 1
    have := List.range'_append (s := 2) (m := k - 1) (n := K - 1 - (k - 1)) (step := 1)
    rw [Nat.one_mul] at this
    rw [this]; congr 1; omega
  · intro p hp
    rw [List.mem_filter, List.mem_range'_1] at hp
    omega

theorem paddedFactors_eq (k K : Nat) (hk : k ≠ 0) (h : k ≤ K) :
    paddedFactors (primesUpTo K).length k =
      (primesUpTo K).map fun p => if p ≤ k then (p, k.factorization p) else (0, 0) := by
  obtain ⟨rest, h1, h2⟩ := primesUpTo_split k K h
  unfold paddedFactors
  rw [decomposition_eq k hk, h1, List.map_append]
  congr 1
  · apply List.map_congr_left
    intro p hp
    rw [if_pos ((mem_primesUpTo k p).1 hp).2]
  · rw [List.length_append, List.length_map, Nat.add_sub_cancel_left]
    symm
    rw [List.eq_replicate_iff]
    refine ⟨by simp, ?_⟩
    intro b hb
    obtain ⟨p, hp, rfl⟩ := List.mem_map.1 hb
    rw [if_neg]
    have := h2 p hp; omega

theorem foldl_minPairs (P : List Nat) (F : Nat → Nat → Nat × Nat) : ∀ (ns : List Nat) (f : Nat → Nat × Nat),
    (ns.map fun k => P.map (F k)).foldl minPairs (P.map f) =
      P.map fun p => (ns.map fun k => F k p).foldl (fun x y => (min x.1 y.1, min x.2 y.2)) (f p) := by
  intro ns
  induction ns with
  | nil => intro f; rfl
  | cons k ns ih =>
    intro f
    simp only [List.map_cons, List.foldl_cons]
    have : minPairs (P.map f) (P.map (F k)) =
        P.map fun p => (min (f p).1 (F k p).1, min (f p).2 (F k p).2) := by
      unfold minPairs
      rw [List.zipWith_map, List.zipWith_self]
    rw [this, ih]

theorem foldl_min_fst : ∀ (l : List (Nat × Nat)) (x : Nat × Nat),
    l.foldl (fun x y => (min x.1 y.1, min x.2 y.2)) x =
      ((l.map (·.1)).foldl min x.1, (l.map (·.2)).foldl min x.2) := by
  intro l
  induction l with
  | nil => intro x; rfl
  | cons a l ih => intro x; simp only [List.foldl_cons, List.map_cons]; rw [ih]

theorem foldl_min_const (p : Nat) (l : List Nat) (h : ∀ x ∈ l, x = p) : l.foldl min p = p := by
  induction l with
  | nil => rfl
  | cons a l ih =>
    have ha := h a (by simp)
    subst ha
    simp only [List.foldl_cons, Nat.min_self]
    exact ih fun x hx => h x (by simp [hx])

theorem foldl_min_zero : ∀ (l : List Nat) (m : Nat), (m = 0 ∨ ∃ x ∈ l, x = 0) → l.foldl min m = 0 := by
  intro l
  induction l with
  | nil => intro m h; simpa using h
  | cons a l ih =>
    intro m h
    simp only [List.foldl_cons]
    apply ih
    rcases h with h | ⟨x, hx, h⟩
    · left; simp [h]
    · rcases List.mem_cons.1 hx with e | e
      · left; subst e; simp [h]
      · right; exact ⟨x, e, h⟩

theorem foldl_max_len : ∀ (ns : List Nat) (n K : Nat), n ≤ K → (∀ k ∈ ns, k ≤ K) →
    (K = n ∨ K ∈ ns) →
    (ns.map fun k => (decomposition k).length).foldl max (decomposition n).length =
      (primesUpTo K).length := by
  have hlen : ∀ k, (decomposition k).length = (primesUpTo k).length := by
    intro k; simp [decomposition]
  have hmono : ∀ k K, k ≤ K → (primesUpTo k).length ≤ (primesUpTo K).length := by
    intro k K h
    obtain ⟨r, h1, _⟩ := primesUpTo_split k K h
    rw [h1]; simp
  have gen : ∀ (ns : List Nat) (m : Nat) (K : Nat), m ≤ (primesUpTo K).length →
      (∀ k ∈ ns, k ≤ K) → (m = (primesUpTo K).length ∨ K ∈ ns) →
      (ns.map fun k => (decomposition k).length).foldl max m = (primesUpTo K).length := by
    intro ns
    induction ns with
    | nil => intro m K _ _ h; simpa using h
    | cons a ns ih =>
      intro m K hm hk h
      simp only [List.map_cons, List.foldl_cons]
      have ha := hmono a K (hk a (by simp))
      rw [hlen]
      apply ih _ K (by omega) (fun k h => hk k (by simp [h]))
      rcases h with h | h
      · left; omega
      · rcases List.mem_cons.1 h with e | e
        · subst e; left; omega
        · right; exact e
  intro ns n K hn hk h
  apply gen
  · rw [hlen]; exact hmono n K hn
  · exact hk
  · rcases h with h | h
    · left; rw [hlen, h]
    · right; exact h

theorem exists_max : ∀ (ns : List Nat) (n : Nat),
    ∃ K, n ≤ K ∧ (∀ k ∈ ns, k ≤ K) ∧ (K = n ∨ K ∈ ns) := by
  intro ns
  induction ns with
  | nil => intro n; exact ⟨n, Nat.le_refl _, by simp, Or.inl rfl⟩
  | cons a ns ih =>
    intro n
    obtain ⟨K, h1, h2, h3⟩ := ih n
    by_cases h : a ≤ K
    · refine ⟨K, h1, ?_, ?_⟩
      · intro k hk; rcases List.mem_cons.1 hk with e | e
        · omega
        · exact h2 k e
      · rcases h3 with e | e
        · exact Or.inl e
        · exact Or.inr (by simp [e])
    · refine ⟨a, by omega, ?_, Or.inr (by simp)⟩
      intro k hk; rcases List.mem_cons.1 hk with e | e
      · omega
      · have := h2 k e; omega

/-- **C26 (across ranks).** For every number of ranks and positive per-rank sizes, the value
`ext_mpi_padding_factor` returns everywhere divides every rank's size, and every common divisor of
the sizes divides it. -/
theorem paddingFactor_spec (n : Nat) (ns : List Nat) (hpos : ∀ x ∈ n :: ns, 0 < x) :
    (∀ x ∈ n :: ns, paddingFactor n ns ∣ x) ∧
    ∀ d, (∀ x ∈ n :: ns, d ∣ x) → d ∣ paddingFactor n ns := by
  have hn : n ≠ 0 := Nat.pos_iff_ne_zero.1 (hpos n (by simp))
  have hns : ∀ x ∈ ns, x ≠ 0 := fun x hx => Nat.pos_iff_ne_zero.1 (hpos x (by simp [hx]))
  have key : paddingFactor n ns = ns.foldl Nat.gcd n := by
    obtain ⟨K, h1, h2, h3⟩ := exists_max ns n
    unfold paddingFactor
    simp only
    rw [foldl_max_len ns n K h1 h2 h3]
    have hmap : ns.map (paddedFactors (primesUpTo K).length) =
        ns.map fun k => (primesUpTo K).map fun p => if p ≤ k then (p, k.factorization p) else (0, 0) := by
      apply List.map_congr_left
      intro k hk
      exact paddedFactors_eq k K (hns k hk) (h2 k hk)
    rw [hmap, paddedFactors_eq n K hn h1,
      foldl_minPairs (primesUpTo K) (fun k p => if p ≤ k then (p, k.factorization p) else (0, 0)),
      foldl_mulTimes_pairs, Nat.one_mul, List.map_map]
    have hg0 := (foldl_gcd_factorization 0 ns n hn hns).2
    have hle : ns.foldl Nat.gcd n ≤ K :=
      (Nat.le_of_dvd (by omega) (foldl_gcd_dvd ns n).1).trans h1
    conv_rhs => rw [← prod_primes K _ hg0 hle]
    congr 1
    apply List.map_congr_left
    intro p hp
    have hpp := ((mem_primesUpTo K p).1 hp).1
    simp only [Function.comp]
    rw [foldl_min_fst, (foldl_gcd_factorization p ns n hn hns).1]
    simp only [List.map_map]
    have hsnd : ∀ k, (if p ≤ k then (p, k.factorization p) else (0, 0) : Nat × Nat).2 =
        k.factorization p := by
      intro k
      split
      · rfl
      · next h => exact (Nat.factorization_eq_zero_of_lt (by omega)).symm
    have e2 : (ns.map ((fun x : Nat × Nat => x.2) ∘ fun k =>
        if p ≤ k then (p, k.factorization p) else (0, 0))) = ns.map fun k => k.factorization p := by
      apply List.map_congr_left
      intro k _
      exact hsnd k
    rw [e2, hsnd]
    by_cases hall : p ≤ n ∧ ∀ k ∈ ns, p ≤ k
    · have : (ns.map ((fun x : Nat × Nat => x.1) ∘ fun k =>
          if p ≤ k then (p, k.factorization p) else (0, 0))).foldl min
          (if p ≤ n then (p, n.factorization p) else (0, 0) : Nat × Nat).1 = p := by
        rw [if_pos hall.1]
        apply foldl_min_const
        intro x hx
        obtain ⟨k, hk, rfl⟩ := List.mem_map.1 hx
        simp [hall.2 k hk]
      rw [this]
    · have : (ns.map fun k => k.factorization p).foldl min (n.factorization p) = 0 := by
        apply foldl_min_zero
        by_cases hpn : p ≤ n
        · right
          have : ¬ ∀ k ∈ ns, p ≤ k := fun h => hall ⟨hpn, h⟩
          simp only [not_forall] at this
          obtain ⟨k, hk, hlt⟩ := this
          exact ⟨0, List.mem_map.2 ⟨k, hk, Nat.factorization_eq_zero_of_lt (by omega)⟩, rfl⟩
        · left; exact Nat.factorization_eq_zero_of_lt (by omega)
      rw [this]; simp
  rw [key]
  obtain ⟨d1, d2, d3⟩ := foldl_gcd_dvd ns n
  refine ⟨?_, fun d hd => d3 d (hd n (by simp)) fun x hx => hd x (by simp [hx])⟩
  intro x hx
  rcases List.mem_cons.1 hx with e | e
  · subst e; exact d1
  · exact d2 x e

example : paddingFactor 12 [18, 30, 6] = 6 := by decide

/-! ### C42 -/

theorem cancelOne_one (ys : List Nat) : cancelOne 1 ys = (1, ys) := by
  induction ys with
  | nil => rfl
  | cons y ys ih =>
    simp only [cancelOne, ih]
    split
    · next h => subst h; rfl
    · rfl

theorem cancelOne_notMem (x : Nat) (ys : List Nat) (h : x ∉ ys) : cancelOne x ys = (x, ys) := by
  induction ys with
  | nil => rfl
  | cons y ys ih =>
    simp only [List.mem_cons, not_or] at h
    simp [cancelOne, h.1, ih h.2]

theorem cancelOne_mem (x : Nat) (ys : List Nat) (h : x ∈ ys) :
    (cancelOne x ys).1 = 1 ∧ x * (cancelOne x ys).2.prod = ys.prod ∧
    ∀ y ∈ (cancelOne x ys).2, y = 1 ∨ y ∈ ys := by
  induction ys with
  | nil => simp at h
  | cons y ys ih =>
    simp only [cancelOne]
    split
    · next e =>
      subst e
      rw [cancelOne_one]
      refine ⟨rfl, by simp, ?_⟩
      intro z hz
      rcases List.mem_cons.1 hz with e | e
      · exact Or.inl e
      · exact Or.inr (by simp [e])
    · next e =>
      have hm : x ∈ ys := by
        rcases List.mem_cons.1 h with e' | e'
        · exact absurd e' e
        · exact e'
      obtain ⟨h1, h2, h3⟩ := ih hm
      refine ⟨h1, ?_, ?_⟩
      · simp only [List.prod_cons]; rw [← h2]; ring
      · intro z hz
        rcases List.mem_cons.1 hz with e' | e'
        · exact Or.inr (by simp [e'])
        · rcases h3 z e' with e'' | e''
          · exact Or.inl e''
          · exact Or.inr (by simp [e''])

theorem cancelAll_lcm : ∀ (xs ys : List Nat), (∀ x ∈ xs, x.Prime) → (∀ y ∈ ys, y = 1 ∨ y.Prime) →
    (cancelAll xs ys).prod * ys.prod = Nat.lcm xs.prod ys.prod := by
  intro xs
  induction xs with
  | nil => intro ys _ _; simp [cancelAll]
  | cons x xs ih =>
    intro ys hx hy
    have hxp := hx x (by simp)
    have hxs : ∀ x ∈ xs, x.Prime := fun z hz => hx z (by simp [hz])
    simp only [cancelAll, List.prod_cons]
    by_cases hm : x ∈ ys
    · obtain ⟨h1, h2, h3⟩ := cancelOne_mem x ys hm
      have := ih (cancelOne x ys).2 hxs (by
        intro y hyy
        rcases h3 y hyy with e | e
        · exact Or.inl e
        · exact hy y e)
      rw [h1, Nat.one_mul, ← h2, Nat.lcm_mul_left, ← this]
      ring
    · rw [cancelOne_notMem x ys hm]
      simp only
      have hcop : Nat.Coprime x ys.prod := by
        apply Nat.Coprime.symm
        apply Nat.Coprime.symm
        rw [Nat.coprime_list_prod_right_iff]
        intro y hyy
        rcases hy y hyy with e | e
        · subst e; exact Nat.coprime_one_right x
        · exact (Nat.coprime_primes hxp e).2 fun e' => hm (e' ▸ hyy)
      rw [Nat.mul_assoc, ih ys hxs hy]
      have hg : Nat.gcd (x * xs.prod) ys.prod = Nat.gcd xs.prod ys.prod :=
        Nat.Coprime.gcd_mul_left_cancel _ hcop
      unfold Nat.lcm
      rw [hg, Nat.mul_assoc,
        Nat.mul_div_assoc x ((Nat.gcd_dvd_left _ _).trans (Nat.dvd_mul_right _ _))]

/-- **C42, negation.** `ext_mpi_greatest_common_divisor` computes the least common multiple, for
all positive arguments. -/
theorem gcd_is_lcm (a b : Nat) (ha : 0 < a) (hb : 0 < b) :
    greatestCommonDivisor a b = Nat.lcm a b := by
  unfold greatestCommonDivisor
  have h := cancelAll_lcm (plainPrimeFactors a) (plainPrimeFactors b) (plain_prime a)
    (fun y hy => Or.inr (plain_prime b y hy))
  rw [plain_prod a (by omega), plain_prod b (by omega)] at h
  rw [← h]
  generalize cancelAll (plainPrimeFactors a) (plainPrimeFactors b) = l
  have : ∀ (l : List Nat) r, l.foldl (· * ·) r = l.prod * r := by
    intro l
    induction l with
    | nil => intro r; simp
    | cons x l ih => intro r; simp only [List.foldl_cons, ih, List.prod_cons]; ring
  exact this l b

/-- **C42, the claim is false** for every pair of different positive numbers. -/
theorem gcd_violated (a b : Nat) (ha : 0 < a) (hb : 0 < b) (hne : a ≠ b) :
    greatestCommonDivisor a b ≠ Nat.gcd a b := by
  rw [gcd_is_lcm a b ha hb]
  intro h
  have h1 : a ∣ Nat.gcd a b := h ▸ Nat.dvd_lcm_left a b
  have h2 : b ∣ Nat.gcd a b := h ▸ Nat.dvd_lcm_right a b
  exact hne (Nat.dvd_antisymm (h1.trans (Nat.gcd_dvd_right a b)) (h2.trans (Nat.gcd_dvd_left a b)))

example : greatestCommonDivisor 4 6 = 12 := by decide

/-! ### C24 -/

theorem sum_split (q r : Nat) : ∀ n, r ≤ n →
    ((List.range n).map fun i => q + if i < r then 1 else 0).sum = n * q + r := by
  intro n
  induction n generalizing r with
  | zero => intro h; have : r = 0 := by omega
            subst this; simp
  | succ n ih =>
    intro h
    rw [List.range_succ, List.map_append, List.sum_append]
    by_cases hr : r ≤ n
    · rw [ih r hr]
      simp only [List.map_cons, List.map_nil, List.sum_cons, List.sum_nil, if_neg (show ¬ n < r by omega)]
      ring
    · have e : r = n + 1 := by omega
      subst e
      have hc : ((List.range n).map fun i => q + if i < n + 1 then 1 else 0) =
          (List.range n).map fun i => q + if i < n then 1 else 0 := by
        apply List.map_congr_left
        intro i hi
        have : i < n := by simpa using hi
        rw [if_pos (by omega), if_pos this]
      rw [hc, ih n (Nat.le_refl _)]
      simp
      ring

theorem sum_map_mul (l : List Nat) (t : Nat) : (l.map (· * t)).sum = l.sum * t := by
  induction l with
  | nil => simp
  | cons a l ih => simp [ih]; ring

/-- **C24.** For every element count, element size and number of nodes: there is one portion per
node, they sum to the message, each is a multiple of the element size, and any two differ by at
most one element. -/
theorem messageSizes_spec (count typeSize nodes : Nat) (ht : 0 < typeSize) (hn : 0 < nodes) :
    let ms := messageSizes (count * typeSize) typeSize nodes
    ms.length = nodes ∧ ms.sum = count * typeSize ∧ (∀ x ∈ ms, typeSize ∣ x) ∧
    ∀ x ∈ ms, ∀ y ∈ ms, x ≤ y + typeSize := by
  simp only [messageSizes, Nat.mul_div_cancel _ ht]
  refine ⟨by simp, ?_, ?_, ?_⟩
  · rw [sum_map_mul, sum_split _ _ _ (Nat.le_of_lt (Nat.mod_lt _ hn)), Nat.div_add_mod]
  · intro x hx
    obtain ⟨k, _, rfl⟩ := List.mem_map.1 hx
    exact Nat.dvd_mul_left typeSize k
  · intro x hx y hy
    obtain ⟨k, hk, rfl⟩ := List.mem_map.1 hx
    obtain ⟨k', hk', rfl⟩ := List.mem_map.1 hy
    obtain ⟨i, _, rfl⟩ := List.mem_map.1 hk
    obtain ⟨j, _, rfl⟩ := List.mem_map.1 hk'
    rw [← Nat.succ_mul]
    apply Nat.mul_le_mul_right
    split <;> split <;> omega

example : messageSizes (10 * 8) 8 4 = [24, 24, 16, 16] := by decide

/-! ### C35 -/

/-- **C35.** For every list of node sizes: the number found divides every node size and is the
largest number that does; with `sockets` sockets it is that number divided by `sockets`. -/
theorem tasksPerSocket_spec (c : Nat) (cores : List Nat) (hc : 0 < c) (sockets : Nat) :
    ∃ j, tasksPerSocket (c :: cores) sockets = some (j / sockets) ∧ 0 < j ∧
      (∀ x ∈ c :: cores, j ∣ x) ∧ ∀ d, (∀ x ∈ c :: cores, d ∣ x) → d ≤ j := by
  have gen : ∀ (l : List Nat) (j : Nat), 0 < j → ∃ r, tasksLoop l j = some r ∧ 0 < r ∧ r ≤ j ∧
      (∀ x ∈ l, r ∣ x) ∧ ∀ d, d ≤ j → (∀ x ∈ l, d ∣ x) → d ≤ r := by
    intro l j
    induction j with
    | zero => intro h; omega
    | succ j ih =>
      intro _
      simp only [tasksLoop]
      by_cases hall : l.all (fun c => c % (j + 1) == 0) = true
      · rw [if_pos hall]
        refine ⟨j + 1, rfl, by omega, Nat.le_refl _, ?_, fun d h _ => h⟩
        intro x hx
        rw [List.all_eq_true] at hall
        exact Nat.dvd_of_mod_eq_zero (by simpa using hall x hx)
      · rw [if_neg hall]
        by_cases hj : j = 0
        · subst hj
          exfalso; apply hall
          rw [List.all_eq_true]
          intro x _; simp [Nat.mod_one]
        · obtain ⟨r, h1, h2, h3, h4, h5⟩ := ih (by omega)
          refine ⟨r, h1, h2, by omega, h4, ?_⟩
          intro d hd hdl
          by_cases e : d = j + 1
          · subst e
            exfalso; apply hall
            rw [List.all_eq_true]
            intro x hx
            simpa using Nat.mod_eq_zero_of_dvd (hdl x hx)
          · exact h5 d (by omega) hdl
  obtain ⟨r, h1, h2, h3, h4, h5⟩ := gen (c :: cores) c hc
  refine ⟨r, ?_, h2, h4, ?_⟩
  · simp [tasksPerSocket, h1]
  · intro d hd
    exact h5 d (Nat.le_of_dvd hc (hd c (by simp))) hd

example : tasksPerSocket [12, 12, 18, 18] 1 = some 6 := by decide

/-! ### C36 -/

theorem swap_step (l : List Int) (n : Nat) (hn : l.length = n) : ∀ k, k ≤ n / 2 →
    let l' := (List.range k).foldl swapStep l
    l'.length = n ∧ ∀ i, i < n → l'[i]? = if i < k ∨ n - 1 - i < k then l[n - 1 - i]? else l[i]? := by
  intro k
  induction k with
  | zero => intro _; exact ⟨hn, fun i _ => by simp⟩
  | succ k ih =>
    intro hk
    obtain ⟨h1, h2⟩ := ih (by omega)
    simp only [List.range_succ, List.foldl_append, List.foldl_cons, List.foldl_nil]
    generalize (List.range k).foldl swapStep l = l' at *
    have ha : l'[k]? = l[k]? := by
      rw [h2 k (by omega), if_neg (by omega)]
    have hb : l'[n - 1 - k]? = l[n - 1 - k]? := by
      rw [h2 _ (by omega), if_neg (by omega)]
    have hka : l[k]? = some (l[k]'(by omega)) := List.getElem?_eq_getElem (by omega)
    have hkb : l[n - 1 - k]? = some (l[n - 1 - k]'(by omega)) := List.getElem?_eq_getElem (by omega)
    unfold swapStep
    rw [h1, ha, hb, hka, hkb]
    simp only
    refine ⟨by simp [h1], ?_⟩
    intro i hi
    rw [List.getElem?_set, List.getElem?_set]
    by_cases e1 : n - 1 - k = i
    · subst e1
      rw [if_pos rfl, if_pos (by rw [List.length_set]; omega), if_pos (by omega)]
      rw [show n - 1 - (n - 1 - k) = k by omega, hka]
    · rw [if_neg e1]
      by_cases e2 : k = i
      · subst e2
        rw [if_pos rfl, if_pos (by omega), if_pos (by omega), hkb]
      · rw [if_neg e2, h2 i hi]
        by_cases hc : i < k ∨ n - 1 - i < k
        · rw [if_pos hc, if_pos (by omega)]
        · rw [if_neg hc, if_neg (by omega)]

theorem swapLoop_reverse (l : List Int) : swapLoop l = l.reverse := by
  obtain ⟨h1, h2⟩ := swap_step l l.length rfl (l.length / 2) (Nat.le_refl _)
  unfold swapLoop
  apply List.ext_getElem?
  intro i
  by_cases hi : i < l.length
  · rw [h2 i hi, List.getElem?_reverse hi]
    split
    · rfl
    · next hc =>
      congr 1
      omega
  · rw [List.getElem?_eq_none (by rw [h1]; omega), List.getElem?_eq_none (by simp; omega)]

namespace Spec

/-- A setting: groups of consecutive steps, each step given by its port number and group size.
In the zero-terminated `groups` array the last step of each group carries a minus sign. -/
def encodeGroup : List Nat → List Int
  | [] => []
  | [a] => [-(a : Int)]
  | a :: b :: r => (a : Int) :: encodeGroup (b :: r)

def encode (gs : List (List Nat)) : List Int := gs.flatMap encodeGroup

/-- Reversal of the order of the groups and of the steps within each group. -/
def reverseGroups (gs : List (List Nat)) : List (List Nat) := (gs.map List.reverse).reverse

end Spec
open Spec

theorem encodeGroup_append (l : List Nat) (a : Nat) :
    encodeGroup (l ++ [a]) = l.map (fun (x : Nat) => (x : Int)) ++ [-(a : Int)] := by
  induction l with
  | nil => rfl
  | cons b l ih =>
    cases l with
    | nil => rfl
    | cons c l =>
      have : encodeGroup (b :: (c :: l ++ [a])) = (b : Int) :: encodeGroup (c :: l ++ [a]) := rfl
      rw [List.cons_append, this, ih]; rfl

/-- One group read backwards: the sign is on the first entry. -/
def encodeRev : List Nat → List Int
  | [] => []
  | a :: r => -(a : Int) :: r.map (fun (x : Nat) => (x : Int))

theorem reverse_encodeGroup (l : List Nat) : (encodeGroup l).reverse = encodeRev l.reverse := by
  rcases List.eq_nil_or_concat l with e | ⟨r, a, e⟩
  · subst e; rfl
  · subst e
    rw [List.concat_eq_append, encodeGroup_append, List.reverse_append, List.reverse_append]
    simp [encodeRev]

theorem reverse_encode (gs : List (List Nat)) :
    (encode gs).reverse = (reverseGroups gs).flatMap encodeRev := by
  unfold encode reverseGroups
  induction gs with
  | nil => rfl
  | cons g gs ih =>
    rw [List.flatMap_cons, List.reverse_append, ih, List.map_cons, List.reverse_cons,
      List.flatMap_append, reverse_encodeGroup]
    simp

theorem absI_nat (a : Nat) : absI (a : Int) = a := by
  unfold absI; rw [if_neg (by omega)]

theorem absI_neg (a : Nat) : absI (-(a : Int)) = a := by
  unfold absI; split <;> omega

theorem moveSigns_group (r : List Nat) (hr : ∀ x ∈ r, 0 < x) (rest : List Int) : ∀ a : Nat, 0 < a →
    (rest = [] ∨ ∃ b t, rest = b :: t ∧ b < 0) →
    moveSigns (a : Int) (r.map (fun (x : Nat) => (x : Int)) ++ rest) =
      encodeGroup (a :: r) ++ (match rest with
        | [] => []
        | b :: t => moveSigns (absI b) t) := by
  induction r with
  | nil =>
    intro a ha hrest
    rcases hrest with h | ⟨b, t, h, hb⟩
    · subst h; simp [moveSigns, encodeGroup, absI_nat]
    · subst h; simp [moveSigns, encodeGroup, absI_nat, hb]
  | cons c r ih =>
    intro a ha hrest
    have hc := hr c (by simp)
    have : encodeGroup (a :: c :: r) = (a : Int) :: encodeGroup (c :: r) := rfl
    rw [List.map_cons, List.cons_append, moveSigns, if_neg (by omega),
      ih (fun x hx => hr x (by simp [hx])) c hc hrest, this, List.cons_append]

theorem moveSigns_groups : ∀ (gs : List (List Nat)) (g : List Nat),
    (∀ g' ∈ g :: gs, g' ≠ [] ∧ ∀ x ∈ g', 0 < x) →
    (match (g :: gs).flatMap encodeRev with
      | [] => []
      | b :: t => moveSigns (absI b) t) = encode (g :: gs) := by
  intro gs
  induction gs with
  | nil =>
    intro g h
    obtain ⟨hne, hpos⟩ := h g (by simp)
    obtain ⟨a, r, rfl⟩ := List.exists_cons_of_ne_nil hne
    have := moveSigns_group r (fun x hx => hpos x (by simp [hx])) [] a (hpos a (by simp)) (Or.inl rfl)
    simpa [encodeRev, encode, absI_neg] using this
  | cons g2 gs ih =>
    intro g h
    obtain ⟨hne, hpos⟩ := h g (by simp)
    obtain ⟨hne2, hpos2⟩ := h g2 (by simp)
    obtain ⟨a, r, rfl⟩ := List.exists_cons_of_ne_nil hne
    have ih' := ih g2 fun g' hg' => h g' (by simp at hg' ⊢; tauto)
    obtain ⟨b, t, rfl⟩ := List.exists_cons_of_ne_nil hne2
    have hb := hpos2 b (by simp)
    have := moveSigns_group r (fun x hx => hpos x (by simp [hx]))
      ((( b :: t) :: gs).flatMap encodeRev) a (hpos a (by simp)) (Or.inr ⟨-(b : Int), _, by
        rw [List.flatMap_cons]; rfl, by omega⟩)
    rw [List.flatMap_cons]
    have e : encodeRev (a :: r) ++ ((b :: t) :: gs).flatMap encodeRev =
      -(a : Int) :: (r.map (fun (x : Nat) => (x : Int)) ++ ((b :: t) :: gs).flatMap encodeRev) := rfl
    rw [e]
    simp only [absI_neg]
    rw [this, ih']
    rfl

/-- **C36.** For every setting (any number of non-empty groups of steps): reverting reverses the
order of the steps and negates the ports (gather steps become reduce steps and vice versa), and
reverses the groups together with the steps inside them. -/
theorem revert_spec (ports : List Int) (gs : List (List Nat)) (hgs : gs ≠ [])
    (hpos : ∀ g ∈ gs, g ≠ [] ∧ ∀ x ∈ g, 0 < x) :
    revertNumPorts ports (encode gs) =
      some ((ports.map fun x => -x).reverse, encode (reverseGroups gs)) := by
  unfold revertNumPorts
  rw [swapLoop_reverse, reverse_encode]
  have hne : reverseGroups gs ≠ [] := by simp [reverseGroups, hgs]
  have hpos' : ∀ g ∈ reverseGroups gs, g ≠ [] ∧ ∀ x ∈ g, 0 < x := by
    intro g hg
    simp only [reverseGroups, List.mem_reverse, List.mem_map] at hg
    obtain ⟨g', hg', rfl⟩ := hg
    obtain ⟨h1, h2⟩ := hpos g' hg'
    exact ⟨by simpa using h1, fun x hx => h2 x (by simpa using hx)⟩
  obtain ⟨g, gs', he⟩ := List.exists_cons_of_ne_nil hne
  rw [he] at hpos' ⊢
  have key := moveSigns_groups gs' g hpos'
  obtain ⟨a, r, rfl⟩ := List.exists_cons_of_ne_nil (hpos' g (by simp)).1
  have e : ((a :: r) :: gs').flatMap encodeRev =
    -(a : Int) :: (r.map (fun (x : Nat) => (x : Int)) ++ gs'.flatMap encodeRev) := rfl
  rw [e] at key ⊢
  simp only at key ⊢
  rw [key, swapLoop_reverse]
  congr 4
  funext x
  omega

/-- **C36 (twice restores).** -/
theorem revert_revert (ports : List Int) (gs : List (List Nat)) (hgs : gs ≠ [])
    (hpos : ∀ g ∈ gs, g ≠ [] ∧ ∀ x ∈ g, 0 < x) :
    (revertNumPorts ports (encode gs)).bind (fun pg => revertNumPorts pg.1 pg.2) =
      some (ports, encode gs) := by
  rw [revert_spec ports gs hgs hpos]
  simp only [Option.bind_some]
  rw [revert_spec _ (reverseGroups gs) (by simp [reverseGroups, hgs])]
  · have h1 : reverseGroups (reverseGroups gs) = gs := by
      simp [reverseGroups, Function.comp_def]
    rw [h1]
    congr 2
    rw [← List.map_reverse]
    simp [Function.comp_def]
  · intro g hg
    simp only [reverseGroups, List.mem_reverse, List.mem_map] at hg
    obtain ⟨g', hg', rfl⟩ := hg
    obtain ⟨h1, h2⟩ := hpos g' hg'
    exact ⟨by simpa using h1, fun x hx => h2 x (by simpa using hx)⟩

example : encode [[4, 4, 4], [3, 3]] = [4, 4, -4, 3, -3] ∧
    revertNumPorts [1, -2, 3, 5, -1] (encode [[4, 4, 4], [3, 3]]) =
      some ([1, -5, -3, 2, -1], [3, -3, 4, 4, -4]) := by decide

end ExtMpi.Numeric
