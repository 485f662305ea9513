import Verif.Model.Recursive
import Verif.Lemmas.Schedule
import Mathlib.Tactic.Ring
/-! Arithmetic of the partner formula of the recursive algorithms. -/
namespace ExtMpi.Recursive
open Schedule

/-- `q` and `t` exchange messages in a step with stride `g` and group size `D`. -/
def Rel (g D q t : Nat) : Prop := q / (g * D) = t / (g * D) ∧ q % g = t % g

instance (g D q t : Nat) : Decidable (Rel g D q t) := inferInstanceAs (Decidable (_ ∧ _))

theorem Rel.symm {g D q t : Nat} (h : Rel g D q t) : Rel g D t q := ⟨h.1.symm, h.2.symm⟩

theorem rel_comm {g D q t : Nat} : Rel g D q t ↔ Rel g D t q := ⟨Rel.symm, Rel.symm⟩

/-- Which partner of `t` node `q` is. -/
def pidx (g D t q : Nat) : Nat := (q / g % D + D - t / g % D - 1) % D

theorem digits (g D t : Nat) : t / g = D * (t / (g * D)) + t / g % D := by
  rw [← Nat.div_div_eq_div_mul]
  exact (Nat.div_add_mod (t / g) D).symm

theorem compose_div (g D B A R : Nat) (hg : 0 < g) (hR : R < g) :
    ((D * B + A) * g + R) / g = D * B + A := by
  rw [Nat.add_comm, Nat.add_mul_div_right _ _ hg, Nat.div_eq_of_lt hR, Nat.zero_add]

theorem compose_mod (g D B A R : Nat) (hR : R < g) : ((D * B + A) * g + R) % g = R := by
  rw [Nat.add_comm, Nat.add_mul_mod_self_right, Nat.mod_eq_of_lt hR]

theorem compose_group (g D B A R : Nat) (hg : 0 < g) (hR : R < g) (hA : A < D) :
    ((D * B + A) * g + R) / (g * D) = B := by
  rw [← Nat.div_div_eq_div_mul, compose_div g D B A R hg hR, Nat.add_comm,
    Nat.add_mul_div_left _ _ (by omega), Nat.div_eq_of_lt hA, Nat.zero_add]

theorem partner_eq (g D t i : Nat) (hg : 0 < g) :
    partner g (g * D) t i = (D * (t / (g * D)) + (t / g % D + i + 1) % D) * g + t % g := by
  unfold partner
  rw [Nat.mod_mul, Nat.add_mul_mod_self_left, Nat.add_mul_div_left _ _ hg]
  have : (t / g + (i + 1)) % D = (t / g % D + i + 1) % D := by
    rw [Nat.add_assoc (t / g % D), Nat.mod_add_mod]
  rw [this]
  ring

theorem partner_div (g D t i : Nat) (hg : 0 < g) :
    partner g (g * D) t i / g = D * (t / (g * D)) + (t / g % D + i + 1) % D := by
  rw [partner_eq g D t i hg, compose_div _ _ _ _ _ hg (Nat.mod_lt _ hg)]

theorem partner_mod (g D t i : Nat) (hg : 0 < g) : partner g (g * D) t i % g = t % g := by
  rw [partner_eq g D t i hg, compose_mod _ _ _ _ _ (Nat.mod_lt _ hg)]

theorem partner_group (g D t i : Nat) (hg : 0 < g) (hD : 0 < D) :
    partner g (g * D) t i / (g * D) = t / (g * D) := by
  rw [partner_eq g D t i hg, compose_group _ _ _ _ _ hg (Nat.mod_lt _ hg) (Nat.mod_lt _ hD)]

theorem partner_digit (g D t i : Nat) (hg : 0 < g) (hD : 0 < D) :
    partner g (g * D) t i / g % D = (t / g % D + i + 1) % D := by
  rw [partner_div g D t i hg, Nat.mul_add_mod, Nat.mod_mod]

theorem eq_of_digits (g q t : Nat) (h1 : q / g = t / g) (h2 : q % g = t % g) : q = t := by
  rw [← Nat.div_add_mod q g, ← Nat.div_add_mod t g, h1, h2]

theorem partner_iff (g D t q i : Nat) (hg : 0 < g) (hi : i + 1 < D) :
    partner g (g * D) t i = q ↔ q ≠ t ∧ Rel g D q t ∧ i = pidx g D t q := by
  have hD : 0 < D := by omega
  have hA : t / g % D < D := Nat.mod_lt _ hD
  constructor
  · intro h
    have h1 := partner_group g D t i hg hD
    have h2 := partner_mod g D t i hg
    have h3 := partner_digit g D t i hg hD
    rw [h] at h1 h2 h3
    refine ⟨?_, ⟨h1, h2⟩, ?_⟩
    · intro e
      rw [e] at h3
      generalize t / g % D = A at *
      by_cases c : A + i + 1 < D
      · rw [Nat.mod_eq_of_lt c] at h3; omega
      · rw [Nat.mod_eq_sub_mod (by omega), Nat.mod_eq_of_lt (by omega)] at h3; omega
    · unfold pidx
      rw [h3]
      generalize t / g % D = A at *
      by_cases c : A + i + 1 < D
      · rw [Nat.mod_eq_of_lt c]
        have : A + i + 1 + D - A - 1 = i + D := by omega
        rw [this, Nat.add_mod_right, Nat.mod_eq_of_lt (by omega)]
      · rw [Nat.mod_eq_sub_mod (a := A + i + 1) (by omega), Nat.mod_eq_of_lt (a := A + i + 1 - D) (by omega)]
        have : A + i + 1 - D + D - A - 1 = i := by omega
        rw [this, Nat.mod_eq_of_lt (by omega)]
  · rintro ⟨hne, ⟨h1, h2⟩, hi2⟩
    apply eq_of_digits g
    · rw [partner_div g D t i hg, digits g D q, h1]
      congr 1
      have hA' : q / g % D < D := Nat.mod_lt _ hD
      have hAne : q / g % D ≠ t / g % D := by
        intro e
        apply hne
        apply eq_of_digits g _ _ _ h2
        rw [digits g D q, digits g D t, h1, e]
      unfold pidx at hi2
      generalize q / g % D = A' at *
      generalize t / g % D = A at *
      by_cases c : A < A'
      · have e : A' + D - A - 1 = (A' - A - 1) + D := by omega
        rw [e, Nat.add_mod_right, Nat.mod_eq_of_lt (by omega)] at hi2
        have : A + i + 1 = A' := by omega
        rw [this, Nat.mod_eq_of_lt hA']
      · rw [Nat.mod_eq_of_lt (by omega)] at hi2
        have : A + i + 1 = A' + D := by omega
        rw [this, Nat.add_mod_right, Nat.mod_eq_of_lt hA']
    · rw [partner_mod g D t i hg, h2]

theorem pidx_lt (g D t q : Nat) (hD : 0 < D) (hne : q ≠ t) (h : Rel g D q t) :
    pidx g D t q + 1 < D := by
  have hA : t / g % D < D := Nat.mod_lt _ hD
  have hA' : q / g % D < D := Nat.mod_lt _ hD
  have hAne : q / g % D ≠ t / g % D := by
    intro e
    apply hne
    apply eq_of_digits g _ _ _ h.2
    rw [digits g D q, digits g D t, h.1, e]
  unfold pidx
  generalize q / g % D = A' at *
  generalize t / g % D = A at *
  by_cases c : A < A'
  · have e : A' + D - A - 1 = (A' - A - 1) + D := by omega
    rw [e, Nat.add_mod_right, Nat.mod_eq_of_lt (by omega)]; omega
  · rw [Nat.mod_eq_of_lt (by omega)]; omega

theorem partner_pidx (g D t q : Nat) (hg : 0 < g) (hD : 0 < D) (hne : q ≠ t) (h : Rel g D q t) :
    partner g (g * D) t (pidx g D t q) = q :=
  (partner_iff g D t q _ hg (pidx_lt g D t q hD hne h)).2 ⟨hne, h, rfl⟩

theorem index_arith (M D B A A' : Nat) (hM : D ≤ M) (hdvd : D ∣ M) (hA : A < D) (hA' : A' < D)
    (hne : A' ≠ A) :
    (A + (if B + A' > B + A then (M + (B + A') - (B + A) - 1) % M
      else (M + (B + A') - (B + A)) % M - 1) + 1) % D = A' := by
  by_cases c : A < A'
  · rw [if_pos (by omega)]
    have e : M + (B + A') - (B + A) - 1 = (A' - A - 1) + M := by omega
    rw [e, Nat.add_mod_right, Nat.mod_eq_of_lt (a := A' - A - 1) (by omega)]
    have : A + (A' - A - 1) + 1 = A' := by omega
    rw [this, Nat.mod_eq_of_lt hA']
  · rw [if_neg (by omega)]
    have e : M + (B + A') - (B + A) = M - (A - A') := by omega
    rw [e, Nat.mod_eq_of_lt (a := M - (A - A')) (by omega)]
    have : A + (M - (A - A') - 1) + 1 = A' + M := by omega
    obtain ⟨k, rfl⟩ := hdvd
    rw [this, Nat.add_mul_mod_self_left, Nat.mod_eq_of_lt hA']

/-- The partner chosen for a line is the node of the same residue in the subgroup of the line. -/
theorem partner_index (g D t n : Nat) (hg : 0 < g) (hD : 0 < D) (hgrp : n / (g * D) = t / (g * D))
    (hne : n / g ≠ t / g) :
    partner g (g * D) t (partnerIndex g (g * D) t n) = n / g * g + t % g := by
  have hA : t / g % D < D := Nat.mod_lt _ hD
  have hA' : n / g % D < D := Nat.mod_lt _ hD
  have hn := digits g D n
  have ht := digits g D t
  rw [hgrp] at hn
  have hAne : n / g % D ≠ t / g % D := by
    intro e; apply hne; rw [hn, ht]; omega
  have key := index_arith (g * D) D (D * (t / (g * D))) (t / g % D) (n / g % D)
    (Nat.le_mul_of_pos_left D hg) ⟨g, Nat.mul_comm _ _⟩ hA hA' hAne
  rw [← hn, ← ht] at key
  rw [partner_eq g D t _ hg]
  unfold partnerIndex
  rw [key, ← hn]

theorem div_eq_iff' (g n k : Nat) (hg : 0 < g) : n / g = k ↔ k * g ≤ n ∧ n < k * g + g := by
  rw [Nat.div_eq_iff hg]
  constructor <;> intro h <;> omega

/-- Sends of a list of partners to one node. -/
theorem partner_filter (g p q t : Nat) (l : Int) (x : Nat) (hg : 0 < g) :
    ((((List.range p).map fun i => ((partner g (g * (p + 1)) q i : Int), l)).filter
      fun e => e.1 == (t : Int)).map fun _ => x) =
      if t ≠ q ∧ Rel g (p + 1) t q then [x] else [] := by
  rw [List.filter_map, List.map_map]
  by_cases h : t ≠ q ∧ Rel g (p + 1) t q
  · rw [if_pos h, filter_range_interval p _ (pidx g (p + 1) q t) 1]
    · rfl
    · have := pidx_lt g (p + 1) q t (by omega) h.1 h.2; omega
    · intro i hi
      have := partner_iff g (p + 1) q t i hg (by omega)
      simp only [Function.comp, beq_iff_eq, Nat.cast_inj]
      rw [this]
      constructor
      · rintro ⟨_, _, e⟩; omega
      · intro e; exact ⟨h.1, h.2, by omega⟩
  · rw [if_neg h]
    have : (List.range p).filter ((fun e : Int × Int => e.1 == (t : Int)) ∘
        fun i => ((partner g (g * (p + 1)) q i : Int), l)) = [] := by
      rw [List.filter_eq_nil_iff]
      intro i hi
      have := partner_iff g (p + 1) q t i hg (by have := List.mem_range.1 hi; omega)
      simp only [Function.comp, beq_iff_eq, Nat.cast_inj]
      rw [this]
      exact fun e => h ⟨e.1, e.2.1⟩
    rw [this]; rfl

/-! ## Sums over residue classes -/

theorem rotate_sum {V : Type} [AddCommMonoid V] (D A : Nat) (hA : A < D) (Y : Nat → V) :
    Y A + ∑ i ∈ Finset.range (D - 1), Y ((A + i + 1) % D) = ∑ j ∈ Finset.range D, Y j := by
  have h1 : Y A + ∑ i ∈ Finset.range (D - 1), Y ((A + i + 1) % D) =
      ∑ i ∈ Finset.range D, Y ((A + i) % D) := by
    obtain ⟨k, rfl⟩ : ∃ k, D = k + 1 := ⟨D - 1, by omega⟩
    rw [Finset.sum_range_succ' _ k, add_comm]
    show _ = _ + Y (A % (k + 1))
    rw [Nat.mod_eq_of_lt hA]
    rfl
  rw [h1]
  apply Finset.sum_nbij' (fun i => (A + i) % D) (fun j => (j + D - A) % D)
  · intro i hi
    exact Finset.mem_range.2 (Nat.mod_lt _ (by omega))
  · intro i hi
    exact Finset.mem_range.2 (Nat.mod_lt _ (by omega))
  · intro i hi
    have hi := Finset.mem_range.1 hi
    show ((A + i) % D + D - A) % D = i
    by_cases c : A + i < D
    · rw [Nat.mod_eq_of_lt c]
      have : A + i + D - A = i + D := by omega
      rw [this, Nat.add_mod_right, Nat.mod_eq_of_lt hi]
    · rw [Nat.mod_eq_sub_mod (a := A + i) (by omega), Nat.mod_eq_of_lt (a := A + i - D) (by omega)]
      have : A + i - D + D - A = i := by omega
      rw [this, Nat.mod_eq_of_lt hi]
  · intro j hj
    have hj := Finset.mem_range.1 hj
    show (A + (j + D - A) % D) % D = j
    by_cases c : A ≤ j
    · have e : j + D - A = (j - A) + D := by omega
      rw [e, Nat.add_mod_right, Nat.mod_eq_of_lt (a := j - A) (by omega)]
      have : A + (j - A) = j := by omega
      rw [this, Nat.mod_eq_of_lt hj]
    · rw [Nat.mod_eq_of_lt (a := j + D - A) (by omega)]
      have : A + (j + D - A) = j + D := by omega
      rw [this, Nat.add_mod_right, Nat.mod_eq_of_lt hj]
  · intro i _; rfl

/-- Sum over the nodes that satisfy `c`. -/
def sumOver {V : Type} [AddCommMonoid V] (N : Nat) (c : Nat → Prop) [DecidablePred c] (f : Nat → V) : V :=
  ∑ s ∈ (Finset.range N).filter c, f s

theorem sum_classes {V : Type} [AddCommMonoid V] (N D : Nat) (f : Nat → V) (c : Nat → Prop)
    [DecidablePred c] (cj : Nat → Nat → Prop) [∀ j, DecidablePred (cj j)] (dig : Nat → Nat)
    (hdig : ∀ s, dig s < D) (h : ∀ j s, j < D → (cj j s ↔ c s ∧ dig s = j)) :
    ∑ j ∈ Finset.range D, sumOver N (cj j) f = sumOver N c f := by
  unfold sumOver
  rw [← Finset.sum_fiberwise_of_maps_to (s := (Finset.range N).filter c) (t := Finset.range D) (g := dig)
    (fun s _ => Finset.mem_range.2 (hdig s))]
  apply Finset.sum_congr rfl
  intro j hj
  apply Finset.sum_congr _ fun _ _ => rfl
  ext s
  simp only [Finset.mem_filter]
  rw [h j s (Finset.mem_range.1 hj)]
  tauto

theorem sumOver_congr {V : Type} [AddCommMonoid V] (N : Nat) (c c' : Nat → Prop) [DecidablePred c]
    [DecidablePred c'] (f : Nat → V) (h : ∀ s, s < N → (c s ↔ c' s)) :
    sumOver N c f = sumOver N c' f := by
  unfold sumOver
  apply Finset.sum_congr _ fun _ _ => rfl
  ext s
  simp only [Finset.mem_filter, Finset.mem_range]
  constructor
  · exact fun ⟨a, b⟩ => ⟨a, (h s a).1 b⟩
  · exact fun ⟨a, b⟩ => ⟨a, (h s a).2 b⟩

theorem sumOver_single {V : Type} [AddCommMonoid V] (N t : Nat) (ht : t < N) (f : Nat → V) :
    sumOver N (fun s => s = t) f = f t := by
  unfold sumOver
  rw [Finset.filter_eq' (Finset.range N) t, if_pos (Finset.mem_range.2 ht), Finset.sum_singleton]

theorem sumOver_true {V : Type} [AddCommMonoid V] (N : Nat) (c : Nat → Prop) [DecidablePred c]
    (f : Nat → V) (h : ∀ s, s < N → c s) : sumOver N c f = ∑ s ∈ Finset.range N, f s := by
  unfold sumOver
  rw [Finset.filter_true_of_mem fun s hs => h s (Finset.mem_range.1 hs)]

end ExtMpi.Recursive
