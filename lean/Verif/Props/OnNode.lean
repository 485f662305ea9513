import Verif.Lemmas.OnNodeSim
import Verif.Lemmas.Numeric
import Verif.Model.CyclicReduce
import Mathlib.Algebra.Order.BigOperators.Group.List
/-! # Properties C57 to C60: the program of the processes of a node -/
namespace ExtMpi.OnNode
open Schedule

/-- Block 0 of the schedule of a single node. -/
theorem singleBlock_core : (CyclicReduce.core 1 [1] [] 0).map (·.head?) = some (some singleBlock) := by decide +kernel

/-! ### Parameters with a correct program -/

/-- Parameters that the theorems cover: elements of 1, 2, 4 or 8 bytes, at least one element, and
 * either the plain method with positive factors, the first of which divides the number of processes, and
   whose product is the number of processes, or, for small messages, at least the number of processes,
 * or the almost-half method for large messages with the factors `1, 2, …, 2`. -/
def Par.Sound (P : Par) : Prop :=
  0 < P.n ∧ 0 < P.len ∧ P.ts ∣ 8 ∧
  ((P.method ≠ 1 ∧ 0 ∉ P.factors ∧ (∃ f0 fs, P.factors = f0 :: fs ∧ f0 ∣ P.n) ∧
      (P.factors.prod = P.n ∨ (P.n ≤ P.factors.prod ∧ P.len * P.ts ≤ 56 ∧ ∀ f ∈ P.factors, f ≤ P.n))) ∨
    (P.method = 1 ∧ 2 ≤ P.n ∧ 56 < P.len * P.ts ∧ P.factors = 1 :: List.replicate (Nat.clog 2 P.n) 2))

theorem isFast_iff (P : Par) : P.isFast = true ↔ P.len * P.ts ≤ 56 := by
  unfold Par.isFast
  rw [decide_eq_true_eq]
  rfl

theorem Par.Sound.good {P : Par} (h : P.Sound) : ∃ f0 fs, P.Good f0 fs ∧
    (P.n < f0 * fs.prod → P.n < P.factors.prod ∧ P.method ≠ 1) := by
  obtain ⟨hn, hl, hts, ⟨hm, hz, ⟨f0, fs, hf, hd⟩, hp⟩ | ⟨hm, hn2, hbig, hf⟩⟩ := h
  · have hs : P.s = P.n := by unfold Par.s; rw [if_neg hm]
    have hprod : P.factors.prod = f0 * fs.prod := by rw [hf, List.prod_cons]
    have hle : ∀ f ∈ P.factors, f ≤ P.n := by
      rcases hp with hp | ⟨_, _, hp⟩
      · intro f hfm
        exact Nat.le_of_dvd hn (hp ▸ List.dvd_prod hfm)
      · exact hp
    have hz0 : f0 ≠ 0 := by rintro rfl; exact hz (by rw [hf]; simp)
    refine ⟨f0, fs, ⟨by rw [hs]; exact hn, by rw [hs], hl, hts, hz, Nat.pos_of_ne_zero hz0,
      fun hc => hz (by rw [hf]; simp [hc]), hd, by rw [← hf, hs]; exact hle, ?_, ?_, Or.inl ⟨hm, hf⟩⟩, ?_⟩
    · rw [hs, ← hprod]
      rcases hp with hp | hp
      · omega
      · exact hp.1
    · rw [hs, ← hprod]
      rcases hp with hp | hp
      · exact Or.inl hp
      · exact Or.inr ((isFast_iff P).2 hp.2.1)
    · intro hlt
      rw [← hprod] at hlt
      exact ⟨hlt, hm⟩
  · have hc1 : 0 < Nat.clog 2 P.n := Nat.clog_pos (by omega) hn2
    obtain ⟨c, hc⟩ : ∃ c, Nat.clog 2 P.n = c + 1 := ⟨_, (Nat.succ_pred_eq_of_pos hc1).symm⟩
    have hs : P.s = 2 ^ c := by
      unfold Par.s; rw [if_pos hm, hc, Nat.pow_succ, Nat.mul_div_cancel _ (by omega)]
    have hlt : 2 ^ c < P.n := by
      have := Nat.pow_pred_clog_lt_self (b := 2) (by omega) (show 1 < P.n by omega)
      rwa [hc] at this
    have hge : P.n ≤ 2 * 2 ^ c := by
      have := Nat.le_pow_clog (b := 2) (by omega) P.n
      rw [hc, Nat.pow_succ] at this
      omega
    have hfast : P.isFast = false := by
      rw [Bool.eq_false_iff]
      intro hc
      rw [isFast_iff] at hc
      omega
    have hpow := Nat.pow_pos (n := c) (show 0 < 2 by omega)
    refine ⟨1, List.replicate c 2, ⟨by rw [hs]; exact hpow, by rw [hs]; omega, hl, hts, ?_, Nat.one_pos, ?_,
      Nat.one_dvd _, ?_, ?_, ?_, Or.inr ⟨hm, rfl, by rw [hs]; exact hge, by rw [hs]; exact hlt, hfast, 2, ?_⟩⟩, ?_⟩
    · rw [hf]; simp
    · simp
    · intro f hfm
      rw [hs]
      simp only [List.mem_cons, List.mem_replicate] at hfm
      rcases hfm with rfl | ⟨h0, rfl⟩
      · exact hpow
      · obtain ⟨d, rfl⟩ : ∃ d, c = d + 1 := ⟨c - 1, by omega⟩
        have := Nat.pow_pos (n := d) (show 0 < 2 by omega)
        rw [Nat.pow_succ]
        omega
    · rw [hs]; simp
    · left; rw [hs]; simp
    · rw [hf, hc, List.replicate_succ']
      rfl
    · intro hc
      simp at hc
      omega

/-- The number of processes is a product of the factors unless the message is small; then the shared memory is zero at
the start. -/
def ZeroPadding {X : Type} [Zero X] (P : Par) (m : Cell → X) : Prop :=
  P.n < P.factors.prod → ∀ b x, m (.fast b x) = 0

/-- **C57, C58 (general form).** -/
theorem onNode_correct {X : Type} [AddCommMonoid X] {P : Par} (h : P.Sound) (alternate : Bool) (N : Nat) {m : Cell → X}
    (hz : ZeroPadding P m) :
    ∃ progs : Nat → Nat → List Instr,
      (∀ j, j < N → ∀ p, p < P.n →
        allreduce P (leadBarriers alternate) (bankOf alternate j) j p = some (progs j p)) ∧
      Correct P.n (fun p => (List.range N).flatMap fun j => progs j p) m fun mem =>
        ∀ k, k < N → AllreduceNode P.n P.len k m mem := by
  obtain ⟨f0, fs, hg, hpad⟩ := h.good
  have hprog : ∀ j p, ∃ pr, p < P.n → allreduce P (leadBarriers alternate) (bankOf alternate j) j p = some pr := by
    intro j p
    by_cases hp : p < P.n
    · obtain ⟨pr, h1, _⟩ := hg.program (leadBarriers alternate) (bankOf alternate j) j hp
      exact ⟨pr, fun _ => h1⟩
    · exact ⟨[], fun h => absurd h hp⟩
  choose progs hprogs using hprog
  refine ⟨progs, fun j _ p hp => hprogs j p hp, ?_⟩
  have hinv := seqInv hg (lead := leadBarriers alternate) (alternate := alternate)
    (by intro h; subst h; decide) (by intro h; subst h; rfl) (m := m) (fun hlt => hz (hpad hlt).1) N
  refine correct_of_raceFree (sk := P.seq f0 fs (leadBarriers alternate) alternate N) ?_ hinv.partners hinv.race _ ?_
  · intro p hp
    exact seq_program hg _ alternate N progs (fun j _ p hp => hprogs j p hp) hp
  · intro k hk p hp
    refine ⟨fun e he => hinv.sum p k e hp hk he, fun e he => hinv.recv p k e (Or.inr he), fun e => hinv.send p k e⟩

/-! ### C57: the choices of the library -/

theorem split_prod (n i : Nat) (hn : 0 < n) : (splitFactors n i).prod = n := by
  unfold splitFactors
  rw [List.prod_cons, List.prod_take_mul_prod_drop, Numeric.plain_prod n (by omega)]

theorem small_le (n f : Nat) (h : f ∈ smallFactors n) (hn : 0 < n) : f ≤ n := by
  simp only [smallFactors, List.mem_cons, List.mem_replicate] at h
  rcases h with rfl | ⟨h0, rfl⟩
  · omega
  · by_contra hc
    have : n = 1 := by omega
    subst this
    simp at h0

theorem measured_sound {n ts len : Nat} (hn : 0 < n) (hl : 0 < len) (hts : ts ∣ 8) {P : Par}
    (hP : P ∈ measuredChoices n ts len) : P.Sound ∧ P.n = n ∧ P.len = len := by
  have hsm : (smallFactors n).prod = 2 ^ Nat.clog 2 n := by simp [smallFactors]
  unfold measuredChoices at hP
  split at hP
  · rename_i hsmall
    simp only [List.mem_singleton] at hP
    subst hP
    refine ⟨⟨hn, hl, hts, Or.inl ⟨by simp, by simp [smallFactors], ⟨_, _, rfl, Nat.one_dvd _⟩, Or.inr ⟨?_, hsmall, ?_⟩⟩⟩,
      rfl, rfl⟩
    · show n ≤ (smallFactors n).prod
      rw [hsm]
      exact Nat.le_pow_clog (by omega) n
    · intro f hf
      exact small_le n f hf hn
  · rename_i hbig
    unfold largeChoices at hP
    rw [List.mem_append] at hP
    rcases hP with hP | hP
    · split at hP
      · rename_i hpow
        simp only [List.mem_singleton] at hP
        subst hP
        refine ⟨⟨hn, hl, hts, Or.inr ⟨rfl, ?_, ?_, rfl⟩⟩, rfl, rfl⟩
        · show 2 ≤ n
          by_contra hc
          have : n = 1 := by omega
          subst this
          simp at hpow
        · show 56 < len * ts
          have : cacheLine - offsetFast = 56 := rfl
          omega
      · simp at hP
    · simp only [List.mem_map, List.mem_range] at hP
      obtain ⟨i, hi, rfl⟩ := hP
      have hp := split_prod n i hn
      refine ⟨⟨hn, hl, hts, Or.inl ⟨by simp, ?_, ⟨_, _, rfl, ?_⟩, Or.inl hp⟩⟩, rfl, rfl⟩
      · intro hc
        have : (splitFactors n i).prod = 0 := List.prod_eq_zero hc
        omega
      · exact ⟨((Numeric.plainPrimeFactors n).drop i).prod, by
          rw [List.prod_take_mul_prod_drop, Numeric.plain_prod n (by omega)]⟩

/-- **C57.** Allreduce of any number of elements on a single node with any number of processes, with any of the choices
that the library makes by itself: the programs exist, and in any number of executions of them, with or without alternating
shared memories, whatever the order of the actions of the processes, no execution gets stuck, all executions end, and
every process gets the sum of the data of all processes in each of the executions. -/
theorem onNode_allreduce {X : Type} [AddCommMonoid X] {n ts len : Nat} (hn : 0 < n) (hl : 0 < len) (hts : ts ∣ 8)
    {P : Par} (hP : P ∈ measuredChoices n ts len) (alternate : Bool) (N : Nat) (m : Cell → X)
    (hz : ∀ b x, m (.fast b x) = 0) :
    ∃ progs : Nat → Nat → List Instr,
      (∀ j, j < N → ∀ p, p < n →
        allreduce P (leadBarriers alternate) (bankOf alternate j) j p = some (progs j p)) ∧
      Correct n (fun p => (List.range N).flatMap fun j => progs j p) m fun mem =>
        ∀ k, k < N → AllreduceNode n len k m mem := by
  obtain ⟨hs, rfl, rfl⟩ := measured_sound hn hl hts hP
  exact onNode_correct hs alternate N (fun _ => hz)

/-- The library always has a choice. -/
theorem measured_ne_nil (n ts len : Nat) : measuredChoices n ts len ≠ [] := by
  unfold measuredChoices
  split
  · simp
  · unfold largeChoices; rw [List.range_succ]; simp

example : measuredChoices 6 8 100 =
    [⟨6, 8, 100, [1, 2, 2, 2], 1⟩, ⟨6, 8, 100, [1, 2, 3], 0⟩, ⟨6, 8, 100, [2, 3], 0⟩, ⟨6, 8, 100, [6], 0⟩] := by
  decide +kernel

example : measuredChoices 5 8 7 = [⟨5, 8, 7, [1, 2, 2, 2], 0⟩] := by decide +kernel

example (m : Cell → Int) (hz : ∀ b x, m (.fast b x) = 0) := onNode_allreduce (n := 6) (ts := 8) (len := 100)
  (by omega) (by omega) (by omega) (P := ⟨6, 8, 100, [1, 2, 2, 2], 1⟩) (by decide +kernel) true 1000 m hz

/-! ### C58: factors of the user -/

/-- **C58, proved part.** With factors given by the user whose product is the number of processes (the plain method), the program is
correct for messages of any size and whatever is in the shared memory at the start. Missing: other settings, which the
library accepts as well; `onNode_deadlock_violated` and the following theorems show that they do not work. -/
theorem onNode_userFactors_partial {X : Type} [AddCommMonoid X] {P : Par} (hl : 0 < P.len) (hts : P.ts ∣ 8)
    (hn : 0 < P.n) (hm : P.method = 0) (hne : P.factors ≠ []) (hprod : P.factors.prod = P.n) (alternate : Bool) (N : Nat)
    (m : Cell → X) :
    ∃ progs : Nat → Nat → List Instr,
      (∀ j, j < N → ∀ p, p < P.n →
        allreduce P (leadBarriers alternate) (bankOf alternate j) j p = some (progs j p)) ∧
      Correct P.n (fun p => (List.range N).flatMap fun j => progs j p) m fun mem =>
        ∀ k, k < N → AllreduceNode P.n P.len k m mem := by
  refine onNode_correct ⟨hn, hl, hts, Or.inl ⟨by omega, ?_, ?_, Or.inl hprod⟩⟩ alternate N (fun hlt => ?_)
  · intro hc
    have : P.factors.prod = 0 := List.prod_eq_zero hc
    omega
  · obtain ⟨f0, fs, hf⟩ := List.exists_cons_of_ne_nil hne
    refine ⟨f0, fs, hf, ?_⟩
    rw [← hprod, hf, List.prod_cons]
    exact Dvd.intro _ rfl
  · omega

example (m : Cell → Int) := onNode_userFactors_partial (P := ⟨12, 4, 1000, [3, 4], 0⟩) (by decide) (by decide) (by decide)
  rfl (by simp) (by decide) false 5 m

/-! ### C59: small messages and flags share memory -/

/-- **C59.** The data of small messages never touches the flags of the barriers, which are in the same memory; elements of
different instances and different elements do not overlap, and element `x` of instance `inst` is in the cache line
`inst`. -/
theorem fast_bytes {P : Par} (hf : P.len * P.ts ≤ 56) (hts : P.ts ∣ 8) {inst x : Nat} (hx : x < P.len) :
    (∀ r, flagByte r + 4 ≤ fastByte P inst x ∨ fastByte P inst x + P.ts ≤ flagByte r) ∧
    (∀ inst' x', x' < P.len → (inst', x') ≠ (inst, x) →
      fastByte P inst x + P.ts ≤ fastByte P inst' x' ∨ fastByte P inst' x' + P.ts ≤ fastByte P inst x) ∧
    64 * inst ≤ fastByte P inst x ∧ fastByte P inst x + P.ts ≤ 64 * (inst + 1) := by
  have hfast := (isFast_iff P).2 hf
  have hbyte : ∀ i y, fastByte P i y = 8 + i * 64 + y * P.ts := by
    intro i y
    unfold fastByte Par.place
    rw [if_pos hfast]
    simp only [Nat.add_mul]
    have h1 : offsetFast / P.ts * P.ts = 8 := Nat.div_mul_cancel (by exact hts)
    have h2 : cacheLine / P.ts * P.ts = 64 := Nat.div_mul_cancel (Nat.dvd_trans hts (by decide))
    rw [h1, Nat.mul_assoc, h2]
  have hflag : ∀ r, flagByte r = 64 * r := by
    intro r
    unfold flagByte
    rw [show cacheLine / 4 = 16 from rfl]
    omega
  have hend : ∀ y, y < P.len → y * P.ts + P.ts ≤ 56 := by
    intro y hy
    calc y * P.ts + P.ts = (y + 1) * P.ts := by rw [Nat.add_mul, Nat.one_mul]
      _ ≤ P.len * P.ts := Nat.mul_le_mul_right _ hy
      _ ≤ 56 := hf
  have hxe := hend x hx
  refine ⟨?_, ?_, ?_⟩
  · intro r
    rw [hflag, hbyte]
    omega
  · intro inst' x' hx' hne
    have hxe' := hend x' hx'
    rw [hbyte, hbyte]
    rcases Nat.lt_trichotomy inst inst' with h | h | h
    · left; omega
    · subst h
      rcases Nat.lt_trichotomy x x' with h | h | h
      · left
        have : (x + 1) * P.ts ≤ x' * P.ts := Nat.mul_le_mul_right _ h
        rw [Nat.add_mul, Nat.one_mul] at this
        omega
      · exact absurd (by rw [h]) hne
      · right
        have : (x' + 1) * P.ts ≤ x * P.ts := Nat.mul_le_mul_right _ h
        rw [Nat.add_mul, Nat.one_mul] at this
        omega
    · right; omega
  · rw [hbyte]
    omega

example : fastByte ⟨5, 8, 7, [1, 2, 2, 2], 0⟩ 4 6 = 312 ∧ flagByte 4 = 256 ∧ flagByte 5 = 320 := by decide

/-! ### C60: no data -/

/-- **C60, negation.** On a single node there is no program for an empty message: the generator divides by zero. -/
theorem onNode_empty_violated (P : Par) (hl : P.len = 0) (lead b k own : Nat) : allreduce P lead b k own = none := by
  have hfast : P.isFast = true := (isFast_iff P).2 (by rw [hl]; omega)
  have hu : P.unit = 0 := by unfold Par.unit; rw [if_pos hfast, hl]
  unfold allreduce copyIn copyInWith
  split
  · rfl
  · rw [if_pos (Or.inl hu)]
    rfl

example : allreduce ⟨4, 8, 0, [1, 2, 2], 0⟩ 2 0 0 0 = none := onNode_empty_violated _ rfl _ _ _ _

/-! ### C58: settings of the user without a correct program -/

/-- Data of a counterexample: process `p` sends `10 ^ p`; the shared memory has been used before. -/
def sample : Cell → Nat
  | .send p _ _ => 10 ^ p
  | .shm _ _ => 1000
  | _ => 0

def programs (P : Par) (p : Nat) : List Instr := (allreduce P 2 0 0 p).getD []

/-- **C58, negation (a).** The processes of a node wait for each other for ever if the first factor does not divide the number of
processes. -/
theorem onNode_deadlock_violated : (∀ p, p < 3 → (allreduce ⟨3, 8, 1, [2, 2], 0⟩ 2 0 0 p).isSome) ∧
    ∃ k s, Steps 3 k (start 3 (programs ⟨3, 8, 1, [2, 2], 0⟩) sample) s ∧ ¬ Finished 3 s ∧
      ∀ p, p < 3 → ∀ s', ¬ Step p s s' := by
  refine ⟨by decide +kernel, ?_⟩
  obtain ⟨i, hi⟩ := steps_inTurn 3 30 6 (start 3 (programs ⟨3, 8, 1, [2, 2], 0⟩) sample)
  refine ⟨i, _, hi, ?_, ?_⟩
  · intro hf
    have := hf 0 (by omega)
    revert this
    decide +kernel
  · have hend : ∀ p, p < 3 → (stepFn p (inTurn 3 30 6 (start 3 (programs ⟨3, 8, 1, [2, 2], 0⟩) sample))).isNone = true := by
      decide +kernel
    intro p hp s' hs
    have := hend p hp
    rw [stepFn_of_step hs] at this
    cases this

/-- **C58, negation (b).** Wrong result if the product of the factors is smaller than the number of processes. -/
theorem onNode_product_small_violated : (∀ p, p < 2 → (allreduce ⟨2, 8, 1, [1], 0⟩ 2 0 0 p).isSome) ∧
    ¬ Correct 2 (programs ⟨2, 8, 1, [1], 0⟩) sample (AllreduceNode 2 1 0 sample) := by
  refine ⟨by decide +kernel, not_correct 30 6 (by decide +kernel) ?_⟩
  intro _ hp
  have h0 := (hp 0 (by omega)).1 0 (by omega)
  revert h0
  decide +kernel

/-- **C58, negation (c).** Wrong result if the product of the factors is larger than the number of processes and the message is not
small. -/
theorem onNode_product_large_violated : (∀ p, p < 2 → (allreduce ⟨2, 8, 8, [2, 2], 0⟩ 2 0 0 p).isSome) ∧
    ¬ Correct 2 (programs ⟨2, 8, 8, [2, 2], 0⟩) sample (AllreduceNode 2 8 0 sample) := by
  refine ⟨by decide +kernel, not_correct 60 6 (by decide +kernel) ?_⟩
  intro _ hp
  have h0 := (hp 0 (by omega)).1 0 (by omega)
  revert h0
  decide +kernel

/-- **C58, negation (d).** Wrong result if the almost-half method is used for a small message. -/
theorem onNode_half_small_violated : (∀ p, p < 3 → (allreduce ⟨3, 8, 1, [1, 2, 2], 1⟩ 2 0 0 p).isSome) ∧
    ¬ Correct 3 (programs ⟨3, 8, 1, [1, 2, 2], 1⟩) sample (AllreduceNode 3 1 0 sample) := by
  refine ⟨by decide +kernel, not_correct 60 6 (by decide +kernel) ?_⟩
  intro _ hp
  have h0 := (hp 0 (by omega)).1 0 (by omega)
  revert h0
  decide +kernel

end ExtMpi.OnNode
