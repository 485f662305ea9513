import Verif.Model.CyclicReduce
import Verif.Lemmas.Cyclic
import Verif.Lemmas.ScheduleLists
import Mathlib.Algebra.BigOperators.Group.Finset.Sigma
import Mathlib.Algebra.BigOperators.Group.Finset.Piecewise
import Mathlib.Data.Nat.ModEq
/-! The reduction steps of the cyclic algorithms. -/
namespace ExtMpi.CyclicReduce
open Schedule Cyclic

/-! ## Sizes of the chunks -/

theorem chunk_pos (a p : Nat) : 0 < chunk a p := Nat.succ_pos _

theorem chunk_le (a p : Nat) (ha : 0 < a) : chunk a p ≤ a := by
  unfold chunk
  have := Nat.div_le_self (a - 1) (p + 1)
  omega

theorem le_chunk_mul (a p : Nat) : a ≤ chunk a p * (p + 1) := by
  unfold chunk
  have h := Nat.div_add_mod (a - 1) (p + 1)
  have h2 := Nat.mod_lt (a - 1) (by omega : 0 < p + 1)
  rw [Nat.add_mul, Nat.one_mul, Nat.mul_comm]
  omega

theorem chunk_le_of (a p b : Nat) (hb : 0 < b) (h : a ≤ (p + 1) * b) : chunk a p ≤ b := by
  unfold chunk
  have : (a - 1) / (p + 1) < b := by
    rw [Nat.div_lt_iff_lt_mul (by omega : 0 < p + 1), Nat.mul_comm]
    have := Nat.mul_pos (by omega : 0 < p + 1) hb
    omega
  omega

theorem chunks_pos (a : Nat) (ha : 0 < a) (ps : List Nat) : 0 < chunks a ps := by
  induction ps generalizing a with
  | nil => exact ha
  | cons p ps ih => exact ih _ (chunk_pos a p)

theorem chunks_le (a : Nat) (ha : 0 < a) (ps : List Nat) : chunks a ps ≤ a := by
  induction ps generalizing a with
  | nil => exact Nat.le_refl _
  | cons p ps ih => exact Nat.le_trans (ih _ (chunk_pos a p)) (chunk_le a p ha)

/-- With enough ports one line is left. -/
theorem chunks_one (a : Nat) (ha : 0 < a) (ps : List Nat) (h : a ≤ (ps.map (· + 1)).prod) :
    chunks a ps = 1 := by
  induction ps generalizing a with
  | nil => simp at h; simp [chunks]; omega
  | cons p ps ih =>
    refine ih _ (chunk_pos a p) (chunk_le_of a p _ ?_ ?_)
    · exact Recursive.factor_pos ps
    · simpa using h

/-! ## Exchange -/

theorem mod_sub_div (j x : Nat) : x % j = x - x / j * j := by
  have := Nat.div_add_mod x j
  rw [Nat.mul_comm] at this
  omega

theorem scatter_exchange (N S p : Nat) (hS : 0 < S) (hSN : S ≤ N) :
    Exchange N (fun t => scatterBlock N (chunk S p) S p t fun line => (line + t) % N)
      (fun q t => if msgLen (chunk S p) S (dist N t q) = 0 then 0 else dist N t q)
      (fun q t => if msgLen (chunk S p) S (dist N t q) = 0 then 0 else S - chunk S p + dist N t q)
      (fun q t => msgLen (chunk S p) S (dist N t q)) := by
  obtain ⟨j, hj⟩ : ∃ j, j = chunk S p := ⟨_, rfl⟩
  have hj0 : 0 < j := hj ▸ chunk_pos S p
  have hjS : j ≤ S := hj ▸ chunk_le S p hS
  have hlen : ∀ d, msgLen j S d ≠ 0 → d % j = 0 ∧ j ≤ d ∧ d < S ∧ msgLen j S d = min j (S - d) := by
    intro d h
    unfold msgLen at h ⊢
    split at h
    · rename_i hc; rw [if_pos hc]; omega
    · exact absurd rfl h
  have hmem : ∀ d x, d < N → x < S → (j ≤ x ∧ x / j * j = d ↔
      msgLen j S d ≠ 0 ∧ d ≤ x ∧ x < d + msgLen j S d) := by
    intro d x hd hx
    have h2 := (Recursive.div_eq_iff' j x (x / j) hj0).1 rfl
    constructor
    · rintro ⟨h1, rfl⟩
      have h3 : 1 ≤ x / j := (Nat.one_le_div_iff hj0).2 h1
      have h4 : j ≤ x / j * j := Nat.le_mul_of_pos_left j h3
      have : msgLen j S (x / j * j) = min j (S - x / j * j) := by
        unfold msgLen
        rw [if_pos ⟨Nat.mul_mod_left _ _, h4, by omega⟩]
      rw [this]
      omega
    · rintro ⟨h1, h3, h4⟩
      obtain ⟨a1, a2, a3, a4⟩ := hlen d h1
      have hdd := Nat.div_add_mod d j
      rw [a1, Nat.mul_comm] at hdd
      have : x / j = d / j := (Recursive.div_eq_iff' j x (d / j) hj0).2 ⟨by omega, by omega⟩
      rw [this]
      omega
  unfold scatterBlock
  simp only [← hj]
  constructor
  · intro q t hq ht hne
    have hd := dist_lt N t q ht hq
    show sendIdx ((List.range _).map _) t = _
    rw [sendIdx_mk]
    apply flatMap_range_interval
    · by_cases h : msgLen j S (dist N t q) = 0
      · rw [if_pos h, h]; omega
      · rw [if_neg h]; have := hlen _ h; omega
    · intro x hx
      by_cases hxS : x < S
      · rw [if_pos hxS]
        have hk := hmem (dist N t q) x hd hxS
        have hdm : x / j * j ≤ x := Nat.div_mul_le_self x j
        have hr := ring_iff N t q (x / j * j) ht hq (by omega)
        have e : (q + j * (x / j)) % N = t ↔ x / j * j = dist N t q := by
          rw [← hr, Nat.mul_comm j]
          have : q + N + x / j * j = q + x / j * j + N := by omega
          rw [this, Nat.add_mod_right]
        by_cases h1 : x / j > 0
        · rw [if_pos h1]
          have h1' : j ≤ x := by
            have := Nat.le_mul_of_pos_left j h1; omega
          by_cases h2 : (q + j * (x / j)) % N = t
          · have h3 := hk.1 ⟨h1', e.1 h2⟩
            rw [if_neg h3.1, if_pos h3.2]
            simp [h2]
          · have h3 : ¬(msgLen j S (dist N t q) ≠ 0 ∧ dist N t q ≤ x ∧
                x < dist N t q + msgLen j S (dist N t q)) := fun h => h2 (e.2 (hk.2 h).2)
            have h4 : (((q + j * (x / j)) % N : Nat) : Int) ≠ (t : Int) := by
              rwa [Ne, Nat.cast_inj]
            have : (((((q + j * (x / j)) % N : Nat) : Int)) == (t : Int)) = false := by
              simpa using h4
            rw [List.filter_cons_of_neg (by simp only [this]; simp), List.filter_nil]
            by_cases h5 : msgLen j S (dist N t q) = 0
            · rw [if_pos h5, h5, if_neg (by omega)]; rfl
            · rw [if_neg h5, if_neg (by tauto)]; rfl
        · rw [if_neg h1]
          have hxj : x < j := by
            by_contra hc
            exact h1 ((Nat.one_le_div_iff hj0).2 (by omega))
          by_cases h5 : msgLen j S (dist N t q) = 0
          · rw [if_pos h5, h5, if_neg (by omega)]; rfl
          · have := hlen _ h5
            rw [if_neg h5, if_neg (by omega)]; rfl
      · rw [if_neg hxS]
        by_cases h5 : msgLen j S (dist N t q) = 0
        · rw [if_pos h5, h5, if_neg (by omega)]; rfl
        · have := hlen _ h5
          rw [if_neg h5, if_neg (by omega)]; rfl
  · intro q t hq ht hne
    have hd := dist_lt N t q ht hq
    show recvIdx ((List.range _).map _) q = _
    rw [recvIdx_mk]
    apply filter_range_interval
    · by_cases h : msgLen j S (dist N t q) = 0
      · rw [if_pos h, h]; omega
      · rw [if_neg h]; have := hlen _ h; omega
    · intro x hx
      by_cases hxS : x < S
      · rw [if_pos hxS]
        simp only [List.any_nil, Bool.false_eq_true, false_iff]
        by_cases h5 : msgLen j S (dist N t q) = 0
        · rw [if_pos h5, h5]; omega
        · have := hlen _ h5
          rw [if_neg h5]; omega
      · rw [if_neg hxS]
        obtain ⟨z, hz⟩ : ∃ z, z = x - S + j := ⟨_, rfl⟩
        rw [← hz]
        have hk := hmem (dist N t q) z hd (by omega)
        have hdm : z / j * j ≤ z := Nat.div_mul_le_self z j
        have hr := ring_back N t q (z / j * j) ht hq (Ne.symm hne) (by omega)
        have e : ((N : Int) + t - (j : Int) * ((z / j : Nat) : Int)).tmod N = (q : Int) ↔
            z / j * j = dist N t q := by
          rw [← hr]
          have : (N : Int) + t - (j : Int) * ((z / j : Nat) : Int) = (t : Int) + N - ((z / j * j : Nat) : Int) := by
            push_cast; ring
          rw [this]
        simp only [List.any_cons, List.any_nil, Bool.or_false, beq_iff_eq]
        rw [e]
        by_cases h5 : msgLen j S (dist N t q) = 0
        · rw [if_pos h5, h5]
          constructor
          · intro h; exact absurd h5 (hk.1 ⟨by omega, h⟩).1
          · omega
        · rw [if_neg h5]
          constructor
          · intro h
            have := hk.1 ⟨by omega, h⟩
            omega
          · intro h
            exact (hk.2 ⟨h5, by omega, by omega⟩).2
  · intro q t hq ht hne
    apply Recursive.reduces_mk
    intro x hx e he
    by_cases hxS : x < S
    · rw [if_pos hxS] at he; cases he
    · rw [if_neg hxS] at he
      obtain ⟨z, hz⟩ : ∃ z, z = x - S + j := ⟨_, rfl⟩
      rw [← hz] at he
      rw [List.mem_singleton.1 he]
      have hdm : z / j * j ≤ z := Nat.div_mul_le_self z j
      have h3 : 1 ≤ z / j := (Nat.one_le_div_iff hj0).2 (by omega)
      have h4 : j ≤ z / j * j := Nat.le_mul_of_pos_left j h3
      have e1 : (N : Int) + t - (j : Int) * ((z / j : Nat) : Int) = ((N + t - z / j * j : Nat) : Int) := by
        have : ((N + t - z / j * j : Nat) : Int) = (N : Int) + t - ((z / j * j : Nat) : Int) := by omega
        rw [this]; push_cast; ring
      have e2 : ((N + t - z / j * j : Nat) : Int).tmod N = (((N + t - z / j * j) % N : Nat) : Int) := rfl
      rw [e1, e2, Ne, Nat.cast_inj]
      by_cases c : N + t - z / j * j < N
      · rw [Nat.mod_eq_of_lt c]; omega
      · rw [Nat.mod_eq_sub_mod (by omega), Nat.mod_eq_of_lt (by omega)]; omega
  · intro q t k hq ht hne hk
    have h0 : msgLen j S (dist N t q) ≠ 0 := by omega
    obtain ⟨h1, h2, h3, h4⟩ := hlen _ h0
    show fracOf ((List.range _).map _) _ = fracOf ((List.range _).map _) _
    rw [fracOf_mk, fracOf_mk, if_neg h0, if_neg h0]
    have g1 : dist N t q + k < S := by omega
    have g2 : ¬S - j + dist N t q + k < S := by omega
    have g3 : dist N t q + k < S + (S - j) := by omega
    have g4 : S - j + dist N t q + k < S + (S - j) := by omega
    simp only [if_pos g1, if_neg g2, if_pos g3, if_pos g4, Option.some.injEq]
    have e1 : S - j + dist N t q + k - S + j = dist N t q + k := by omega
    have e2 : (dist N t q + k) % j = k := by
      rw [Nat.add_mod, h1, Nat.zero_add, Nat.mod_mod, Nat.mod_eq_of_lt (by omega)]
    rw [e1, e2]
    have hd := (ring_iff N t q (dist N t q) ht hq (dist_lt N t q ht hq)).2 rfl
    have e3 : q + N + dist N t q = q + dist N t q + N := by omega
    rw [e3, Nat.add_mod_right] at hd
    have e4 : dist N t q + k + q = q + dist N t q + k := by omega
    rw [e4, Nat.add_mod (q + dist N t q), hd, ← Nat.mod_eq_of_lt ht, ← Nat.add_mod, Nat.mod_eq_of_lt ht,
      Nat.add_comm]
  · intro q q' t n hq hq' ht hne hne' h1 h2 h3 h4
    have a1 : msgLen j S (dist N t q) ≠ 0 := by
      intro h; rw [if_pos h, h] at h2; rw [if_pos h] at h1; omega
    have a2 : msgLen j S (dist N t q') ≠ 0 := by
      intro h; rw [if_pos h, h] at h4; rw [if_pos h] at h3; omega
    rw [if_neg a1] at h1 h2
    rw [if_neg a2] at h3 h4
    obtain ⟨b1, b2, b3, b4⟩ := hlen _ a1
    obtain ⟨c1, c2, c3, c4⟩ := hlen _ a2
    have k1 := (hmem (dist N t q) (n - S + j) (dist_lt N t q ht hq) (by omega)).2 ⟨a1, by omega, by omega⟩
    have k2 := (hmem (dist N t q') (n - S + j) (dist_lt N t q' ht hq') (by omega)).2 ⟨a2, by omega, by omega⟩
    have key : dist N t q = dist N t q' := k1.2.symm.trans k2.2
    unfold dist at key
    split at key <;> split at key <;> omega

/-! ## One step -/

theorem add_mod_inj (N t a b : Nat) (ha : a < N) (hb : b < N) (h : (a + t) % N = (b + t) % N) : a = b := by
  have h2 : a % N = b % N := Nat.ModEq.add_right_cancel' (n := N) t h
  rwa [Nat.mod_eq_of_lt ha, Nat.mod_eq_of_lt hb] at h2

theorem dist_back (N t k : Nat) (ht : t < N) (hk : k < N) (h0 : 0 < k) :
    (t + N - k) % N < N ∧ (t + N - k) % N ≠ t ∧ dist N t ((t + N - k) % N) = k := by
  by_cases c : t + N - k < N
  · rw [Nat.mod_eq_of_lt c]
    unfold dist
    split <;> omega
  · rw [Nat.mod_eq_sub_mod (by omega), Nat.mod_eq_of_lt (by omega)]
    unfold dist
    split <;> omega

theorem foldl_filter_sum {V : Type} [AddCommMonoid V] (a K : Nat) (P : Nat → Bool) (v : Nat → V) (z : V) :
    ((List.range' a K).filter P).foldl (fun x r => x + v r) z =
      z + ∑ k ∈ Finset.range K, if P (a + k) then v (a + k) else 0 := by
  induction K with
  | zero => simp
  | succ K ih =>
    rw [← List.range'_append_1, List.filter_append, List.foldl_append, ih, Finset.sum_range_succ, ← add_assoc]
    by_cases h : P (a + K) = true
    · simp [h]
    · simp [h]

/-- The two blocks of a reduction step: the first `chunk S p` lines collect the chunks of the
partners. -/
theorem scatter_step {V : Type} [AddCommMonoid V] (N S p : Nat) (hS : 0 < S) (hSN : S ≤ N)
    (s : Nat → Nat → V) :
    ∃ s1 s2 : Nat → Nat → V,
      (∀ t, t < N → nodeStep N
        (fun t => scatterBlock N (chunk S p) S p t fun line => (line + t) % N) s t = some (s1 t)) ∧
      (∀ t, t < N → nodeStep N (fun t => scatterReduce S p fun line => (line + t) % N) s1 t = some (s2 t)) ∧
      ∀ t n, t < N → n < chunk S p →
        s2 t n = ∑ y ∈ (Finset.range S).filter (fun y => y % chunk S p = n),
          s ((t + N - y / chunk S p * chunk S p) % N) y := by
  obtain ⟨j, hj⟩ : ∃ j, j = chunk S p := ⟨_, rfl⟩
  have hj0 : 0 < j := hj ▸ chunk_pos S p
  have hjS : j ≤ S := hj ▸ chunk_le S p hS
  obtain ⟨s1, hs1⟩ := Recursive.exists_state N s (fun t v => nodeStep N
      (fun t => scatterBlock N (chunk S p) S p t fun line => (line + t) % N) s t = some v ∧
      (∀ n, n < S → v n = s t n) ∧
      ∀ x, j ≤ x → x < S → v (S - j + x) = s ((t + N - x / j * j) % N) x) (by
    intro t ht
    obtain ⟨v, h1, h2, h3⟩ := (scatter_exchange N S p hS hSN).recvAll s t ht
    refine ⟨v, ?_, ?_, ?_⟩
    · rw [nodeStep_ok _ _ _ _ (reduceOk_mk_nil _ _ (fun n => by dsimp only; split <;> rfl)
        (fun n => by dsimp only; split <;> rfl)), h1]
      show some (copyReduceAll ((List.range _).map _) (reduceAll ((List.range _).map _) v)) = some v
      rw [copyReduceAll_mk _ _ _ (by intro n _; split <;> rfl), reduceAll_mk _ _ _ (by
        intro n _ r hr
        split at hr <;> cases hr)]
      congr 1
      funext n
      split
      · split <;> rfl
      · rfl
    · intro n hn
      apply h3
      intro q hq hne hc
      rw [← hj] at hc
      by_cases h5 : msgLen j S (dist N t q) = 0
      · rw [if_pos h5, h5] at hc; omega
      · rw [if_neg h5] at hc
        unfold msgLen at h5
        split at h5
        · omega
        · exact h5 rfl
    · intro x hx1 hx2
      have hdm : x / j * j ≤ x := Nat.div_mul_le_self x j
      have h6 : 1 ≤ x / j := (Nat.one_le_div_iff hj0).2 hx1
      have h7 : j ≤ x / j * j := Nat.le_mul_of_pos_left j h6
      have h8 := (Recursive.div_eq_iff' j x (x / j) hj0).1 rfl
      obtain ⟨q, hq⟩ : ∃ q, q = (t + N - x / j * j) % N := ⟨_, rfl⟩
      obtain ⟨d1, d2, d3⟩ := dist_back N t (x / j * j) ht (by omega) (by omega)
      rw [← hq] at d1 d2 d3 ⊢
      have hl : msgLen j S (x / j * j) = min j (S - x / j * j) := by
        unfold msgLen
        rw [if_pos ⟨Nat.mul_mod_left _ _, h7, by omega⟩]
      have hl0 : msgLen j S (x / j * j) ≠ 0 := by rw [hl]; omega
      have := h2 q (S - j + x) d1 d2
      rw [← hj, d3, if_neg hl0, if_neg hl0] at this
      rw [this (by omega) (by rw [hl]; omega)]
      congr 1
      omega)
  refine ⟨s1, fun t => reduceAll (scatterReduce S p fun line => (line + t) % N) (s1 t),
    fun t ht => (hs1 t ht).1, ?_, ?_⟩
  · intro t ht
    apply local_step N _ s1 t ht
    · intro t _ l hl
      obtain ⟨x, _, rfl⟩ := List.mem_map.1 hl
      rfl
    · intro t _ l hl e he
      obtain ⟨x, _, rfl⟩ := List.mem_map.1 hl
      cases he
    · intro l hl
      obtain ⟨x, _, rfl⟩ := List.mem_map.1 hl
      rfl
    · apply reduceOk_mk
      intro n _ r hr
      dsimp only at hr ⊢
      rw [List.append_nil] at hr
      by_cases hn : n < S
      · rw [if_pos hn] at hr
        obtain ⟨a1, a2⟩ := List.mem_filter.1 hr
        have := List.mem_range'_1.1 a1
        exact ⟨by omega, by omega, (beq_iff_eq.1 a2).symm⟩
      · rw [if_neg hn] at hr; cases hr
  · intro t n ht hn
    rw [← hj] at hn
    show reduceAll ((List.range _).map _) (s1 t) n = _
    rw [reduceAll_mk]
    · simp only [← hj]
      rw [if_pos (by omega), if_pos (by omega), foldl_filter_sum]
      have hK : S + (S - j) - S = S - j := by omega
      rw [hK, (hs1 t ht).2.1 n (by omega)]
      have hsplit : Finset.range S = Finset.range (j + (S - j)) := by congr 1; omega
      rw [Finset.sum_filter, hsplit, Finset.sum_range_add]
      congr 1
      · rw [Finset.sum_eq_single n]
        · rw [Nat.mod_eq_of_lt hn, if_pos rfl, Nat.div_eq_of_lt hn, Nat.zero_mul, Nat.sub_zero,
            Nat.add_mod_right, Nat.mod_eq_of_lt ht]
        · intro y hy hne
          rw [Nat.mod_eq_of_lt (Finset.mem_range.1 hy), if_neg hne]
        · intro h
          exact absurd (Finset.mem_range.2 hn) h
      · apply Finset.sum_congr rfl
        intro k hk
        have hk := Finset.mem_range.1 hk
        have h1 := (hs1 t ht).2.2 (j + k) (by omega) (by omega)
        have e : S - j + (j + k) = S + k := by omega
        rw [e] at h1
        rw [h1]
        apply if_congr ?_ rfl rfl
        unfold scatterNum
        rw [if_pos (by omega), if_neg (by omega), beq_iff_eq, ← hj]
        have e2 : S + k - S + j = j + k := by omega
        rw [e2]
        have hm : (j + k) % j < j := Nat.mod_lt _ hj0
        obtain ⟨y, hy⟩ : ∃ y, y = (j + k) % j := ⟨_, rfl⟩
        rw [← hy] at hm ⊢
        constructor
        · intro h
          exact (add_mod_inj N t n y (by omega) (by omega) h).symm
        · intro h; rw [h]
    · intro x _ r hr _
      by_cases hx : x < S
      · rw [if_pos hx] at hr
        have := List.mem_range'_1.1 (List.mem_of_mem_filter hr)
        rw [if_neg (by omega)]
      · rw [if_neg hx] at hr; cases hr

/-! ## The phase -/

/-- What line `n` of node `t` has collected if the contribution at distance `e` from the block is
collected by line `c e`. -/
def collect {V : Type} [AddCommMonoid V] (N : Nat) (c : Nat → Nat) (inp : Nat → Nat → V) (t n : Nat) : V :=
  ∑ e ∈ (Finset.range N).filter (fun e => c e = n), inp ((t + n + (N - e)) % N) ((t + n) % N)

theorem collect_step {V : Type} [AddCommMonoid V] (N S j : Nat) (hjN : j ≤ S) (hSN : S ≤ N)
    (c : Nat → Nat) (hc : ∀ e, e < N → c e < S) (inp : Nat → Nat → V) (t n : Nat) (hn : n < j) :
    ∑ y ∈ (Finset.range S).filter (fun y => y % j = n), collect N c inp ((t + N - y / j * j) % N) y =
      collect N (fun e => c e % j) inp t n := by
  unfold collect
  rw [← Finset.sum_fiberwise_of_maps_to (s := (Finset.range N).filter fun e => c e % j = n)
    (t := (Finset.range S).filter fun y => y % j = n) (g := c)]
  · apply Finset.sum_congr rfl
    intro y hy
    obtain ⟨hy1, hy2⟩ := Finset.mem_filter.1 hy
    have hy1 := Finset.mem_range.1 hy1
    rw [Finset.filter_filter]
    apply Finset.sum_congr
    · apply Finset.filter_congr
      intro e _
      constructor
      · intro h; exact ⟨by rw [h, hy2], h⟩
      · intro h; exact h.2
    · intro e he
      have he := Finset.mem_range.1 (Finset.mem_filter.1 he).1
      have hdm : y / j * j ≤ y := Nat.div_mul_le_self y j
      have hyn : y / j * j + n = y := by
        have := Nat.div_add_mod y j
        rw [hy2, Nat.mul_comm] at this; omega
      have e1 : (t + N - y / j * j) % N + y + (N - e) = (t + N - y / j * j) % N + (y + (N - e)) := by omega
      rw [e1, Nat.mod_add_mod, Nat.mod_add_mod]
      have e2 : t + N - y / j * j + (y + (N - e)) = t + n + (N - e) + N := by omega
      have e3 : t + N - y / j * j + y = t + n + N := by omega
      rw [e2, e3, Nat.add_mod_right, Nat.add_mod_right]
  · intro e he
    obtain ⟨h1, h2⟩ := Finset.mem_filter.1 he
    exact Finset.mem_filter.2 ⟨Finset.mem_range.2 (hc e (Finset.mem_range.1 h1)), h2⟩

theorem scatter_phase {V : Type} [AddCommMonoid V] (N : Nat) (inp : Nat → Nat → V) (ps : List Nat)
    (S : Nat) (hS : 0 < S) (hSN : S ≤ N) (c : Nat → Nat) (hc : ∀ e, e < N → c e < S)
    (s : Nat → Nat → V) (hs : ∀ t n, t < N → n < S → s t n = collect N c inp t n) :
    ∃ s' c', Run N (fun t => scatterSteps N t (fun line => (line + t) % N) S S ps) s s' ∧
      (∀ e, e < N → c' e < chunks S ps) ∧
      ∀ t n, t < N → n < chunks S ps → s' t n = collect N c' inp t n := by
  induction ps generalizing S c s with
  | nil => exact ⟨s, c, .done fun _ _ => rfl, hc, hs⟩
  | cons p ps ih =>
    obtain ⟨s1, s2, h1, h2, h3⟩ := scatter_step N S p hS hSN s
    have hj := chunk_le S p hS
    have hj0 := chunk_pos S p
    obtain ⟨s', c', r1, r2, r3⟩ := ih (chunk S p) hj0 (by omega) (fun e => c e % chunk S p)
      (fun e _ => Nat.mod_lt _ hj0) s2 (by
        intro t n ht hn
        rw [h3 t n ht hn, ← collect_step N S (chunk S p) hj hSN c hc inp t n hn]
        apply Finset.sum_congr rfl
        intro y hy
        exact hs _ _ (Nat.mod_lt _ (by omega)) (Finset.mem_range.1 (Finset.mem_filter.1 hy).1))
    refine ⟨s', c', ?_, r2, r3⟩
    exact .step _ _ s1 (fun _ _ => rfl) h1 (.step _ _ s2 (fun _ _ => rfl) h2 r1)

theorem collect_id {V : Type} [AddCommMonoid V] (N : Nat) (inp : Nat → Nat → V) (t n : Nat) (ht : t < N)
    (hn : n < N) : collect N (fun e => e) inp t n = inp t ((n + t) % N) := by
  unfold collect
  rw [Finset.sum_filter, Finset.sum_eq_single n]
  · rw [if_pos rfl]
    have : t + n + (N - n) = t + N := by omega
    rw [this, Nat.add_mod_right, Nat.mod_eq_of_lt ht, Nat.add_comm]
  · intro e _ h; rw [if_neg h]
  · intro h; exact absurd (Finset.mem_range.2 hn) h

/-- Sum over all distances is the sum over all nodes. -/
theorem sum_ring {V : Type} [AddCommMonoid V] (N b : Nat) (hb : b < N) (f : Nat → V) :
    ∑ e ∈ Finset.range N, f ((b + (N - e)) % N) = ∑ x ∈ Finset.range N, f x := by
  refine Finset.sum_bij (fun e _ => (b + (N - e)) % N) ?_ ?_ ?_ fun _ _ => rfl
  · intro e _
    exact Finset.mem_range.2 (Nat.mod_lt _ (by omega))
  · intro e he e' he' h
    have he := Finset.mem_range.1 he
    have he' := Finset.mem_range.1 he'
    by_cases c1 : b + (N - e) < N <;> by_cases c2 : b + (N - e') < N
    · rw [Nat.mod_eq_of_lt c1, Nat.mod_eq_of_lt c2] at h; omega
    · rw [Nat.mod_eq_of_lt c1, Nat.mod_eq_sub_mod (by omega), Nat.mod_eq_of_lt (by omega)] at h; omega
    · rw [Nat.mod_eq_of_lt c2, Nat.mod_eq_sub_mod (by omega), Nat.mod_eq_of_lt (by omega)] at h; omega
    · rw [Nat.mod_eq_sub_mod (by omega), Nat.mod_eq_of_lt (by omega),
        Nat.mod_eq_sub_mod (by omega : b + (N - e') ≥ N), Nat.mod_eq_of_lt (by omega)] at h; omega
  · intro x hx
    have hx := Finset.mem_range.1 hx
    refine ⟨if x ≤ b then b - x else b + N - x, ?_, ?_⟩
    · rw [Finset.mem_range]; split <;> omega
    · split
      · have : b + (N - (b - x)) = x + N := by omega
        rw [this, Nat.add_mod_right, Nat.mod_eq_of_lt hx]
      · have : b + (N - (b + N - x)) = x := by omega
        rw [this, Nat.mod_eq_of_lt hx]

end ExtMpi.CyclicReduce
