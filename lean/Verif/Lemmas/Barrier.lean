import Mathlib.Data.Nat.Log
import Mathlib.Tactic.Ring
import Verif.Model.Barrier

/-! Auxiliary development for the barrier: a copy of the protocol with unbounded
counters, its invariant, and the simulation of the 32-bit protocol by it. -/
namespace ExtMpi.Barrier

/-- Number of rounds of the barrier of `n` processes. -/
abbrev rounds (n : Nat) : Nat := Nat.clog 2 n

theorem lt_rounds_iff (n k : Nat) : k < rounds n ↔ 2 ^ k < n := by
  have := Nat.clog_le_iff_le_pow (b := 2) (by omega) (x := n) (y := k)
  unfold rounds
  omega

/-- Process with unbounded counter. -/
structure NProc where
  pc : PC
  count : Nat
  done : Nat

structure NState where
  slot : Nat → Nat
  proc : Nat → NProc

def ninit : NState := { slot := fun _ => 0, proc := fun _ => ⟨.out, 1, 0⟩ }

def nstep (partner : Nat → Nat → Nat → Nat) (n : Nat) (s : NState) (r : Nat) : NState :=
  let p := s.proc r
  match p.pc with
  | .out => { s with proc := upd s.proc r { p with pc := .loop 1 } }
  | .loop st =>
    if st < n then
      { slot := upd s.slot r p.count, proc := upd s.proc r { p with pc := .spin st } }
    else
      { s with proc := upd s.proc r { p with pc := .out, done := p.done + 1 } }
  | .spin st =>
    if s.slot (partner n r st) < p.count then s
    else { s with proc := upd s.proc r { p with pc := .loop (st * 2), count := p.count + 1 } }

theorem upd_same {α : Type} (f : Nat → α) (i : Nat) (v : α) : upd f i v i = v := by simp [upd]
theorem upd_other {α : Type} (f : Nat → α) (i j : Nat) (v : α) (h : j ≠ i) :
    upd f i v j = f j := by simp [upd, h]

/-- Shape of one process. -/
def Shape (n : Nat) (slot : Nat) (p : NProc) : Prop :=
  match p.pc with
  | .out => p.count = rounds n * p.done + 1 ∧ slot + 1 = p.count
  | .loop st => ∃ k, k ≤ rounds n ∧ st = 2 ^ k ∧ p.count = rounds n * p.done + k + 1 ∧
      slot + 1 = p.count
  | .spin st => ∃ k, k < rounds n ∧ st = 2 ^ k ∧ p.count = rounds n * p.done + k + 1 ∧
      slot = p.count

/-- Direction of a partner function: `partner n r st = r + u * st` modulo `n`,
and walking in steps of `u` reaches everybody. -/
structure Dir (partner : Nat → Nat → Nat → Nat) (n u : Nat) : Prop where
  eq : ∀ r st, r < n → st < n → partner n r st = (r + u * st) % n
  reach : ∀ r q, r < n → q < n → ∃ j, j < n ∧ (r + u * j) % n = q

theorem dir_socket (n : Nat) : Dir socketPartner n 1 := by
  constructor
  · intro r st _ _; simp [socketPartner]
  · intro r q hr hq
    by_cases h : r ≤ q
    · exact ⟨q - r, by omega, by rw [Nat.one_mul, Nat.add_sub_cancel' h]; exact Nat.mod_eq_of_lt hq⟩
    · refine ⟨q + n - r, by omega, ?_⟩
      have : r + 1 * (q + n - r) = q + n := by omega
      rw [this, Nat.add_mod_right]; exact Nat.mod_eq_of_lt hq

theorem node_arith (n r st : Nat) (h : st < n) : (r + n - st) % n = (r + (n - 1) * st) % n := by
  obtain ⟨m, rfl⟩ : ∃ m, n = m + 1 := ⟨n - 1, by omega⟩
  have e : r + (m + 1 - 1) * st + (m + 1) = (r + (m + 1) - st) + (m + 1) * st := by
    have : (m + 1) * st = m * st + st := by ring
    simp only [Nat.add_sub_cancel]
    omega
  have := congrArg (· % (m + 1)) e
  simp only [Nat.add_mod_right, Nat.add_mul_mod_self_left] at this
  exact this.symm

theorem dir_node (n : Nat) : Dir nodePartner n (n - 1) := by
  constructor
  · intro r st _ h; exact node_arith n r st h
  · intro r q hr hq
    by_cases h : q ≤ r
    · refine ⟨r - q, by omega, ?_⟩
      rw [← node_arith n r (r - q) (by omega)]
      have : r + n - (r - q) = q + n := by omega
      rw [this, Nat.add_mod_right]; exact Nat.mod_eq_of_lt hq
    · refine ⟨r + n - q, by omega, ?_⟩
      rw [← node_arith n r (r + n - q) (by omega)]
      have : r + n - (r + n - q) = q := by omega
      rw [this]; exact Nat.mod_eq_of_lt hq

structure Inv (n u : Nat) (s : NState) : Prop where
  shape : ∀ r, r < n → Shape n (s.slot r) (s.proc r)
  know : ∀ r, r < n → ∀ b k, 1 ≤ k → k ≤ rounds n → rounds n * b + k + 1 ≤ (s.proc r).count →
    ∀ j, j < 2 ^ k → rounds n * b + 1 ≤ s.slot ((r + u * j) % n)

theorem inv_init (n u : Nat) : Inv n u ninit := by
  constructor
  · intro r _; simp [Shape, ninit]
  · intro r _ b k hk _ h; simp [ninit] at h; omega

theorem Shape.slot_le {n slot p} (h : Shape n slot p) : slot ≤ p.count := by
  unfold Shape at h; split at h
  · omega
  · obtain ⟨k, _, _, _, _⟩ := h; omega
  · obtain ⟨k, _, _, _, _⟩ := h; omega

theorem Shape.slot_ge {n slot p} (h : Shape n slot p) : p.count ≤ slot + 1 := by
  unfold Shape at h; split at h
  · omega
  · obtain ⟨k, _, _, _, _⟩ := h; omega
  · obtain ⟨k, _, _, _, _⟩ := h; omega

theorem mod_add_mul (n r u a b : Nat) : ((r + u * a) % n + u * b) % n = (r + u * (a + b)) % n := by
  rw [Nat.mod_add_mod]; congr 1; ring

theorem inv_step {partner : Nat → Nat → Nat → Nat} {n u : Nat} (hd : Dir partner n u)
    {s : NState} (h : Inv n u s) {r : Nat} (hr : r < n) : Inv n u (nstep partner n s r) := by
  have hsh := h.shape r hr
  unfold nstep
  simp only
  cases hpc : (s.proc r).pc with
  | out =>
    simp only
    simp only [Shape, hpc] at hsh
    constructor
    · intro q hq
      by_cases e : q = r
      · subst e; simp only [upd_same, Shape]; exact ⟨0, by omega, by simp, by omega, by omega⟩
      · simp only [upd_other _ _ _ _ e]; exact h.shape q hq
    · intro q hq b k hk1 hk2 hc
      have hc' : rounds n * b + k + 1 ≤ (s.proc q).count := by
        by_cases e : q = r
        · subst e; simpa [upd_same] using hc
        · simpa [upd_other _ _ _ _ e] using hc
      exact h.know q hq b k hk1 hk2 hc'
  | loop st =>
    simp only
    simp only [Shape, hpc] at hsh
    obtain ⟨k0, hk0, hst, hcount, hslot⟩ := hsh
    split
    next hlt =>
      constructor
      · intro q hq
        by_cases e : q = r
        · subst e
          simp only [upd_same, Shape]
          exact ⟨k0, (lt_rounds_iff n k0).2 (hst ▸ hlt), hst, hcount, trivial⟩
        · simp only [upd_other _ _ _ _ e]; exact h.shape q hq
      · intro q hq b k hk1 hk2 hc j hj
        have hc' : rounds n * b + k + 1 ≤ (s.proc q).count := by
          by_cases e : q = r
          · subst e; simpa [upd_same] using hc
          · simpa [upd_other _ _ _ _ e] using hc
        have := h.know q hq b k hk1 hk2 hc' j hj
        simp only
        by_cases e : (q + u * j) % n = r
        · rw [e, upd_same]; rw [e] at this; omega
        · rw [upd_other _ _ _ _ e]; exact this
    next hge =>
      have hkL : k0 = rounds n := by
        have := (lt_rounds_iff n k0).not
        rw [← hst] at this
        have := this.2 hge
        omega
      constructor
      · intro q hq
        by_cases e : q = r
        · subst e
          simp only [upd_same, Shape]
          refine ⟨?_, hslot⟩
          rw [hcount, hkL]; ring
        · simp only [upd_other _ _ _ _ e]; exact h.shape q hq
      · intro q hq b k hk1 hk2 hc
        have hc' : rounds n * b + k + 1 ≤ (s.proc q).count := by
          by_cases e : q = r
          · subst e; simpa [upd_same] using hc
          · simpa [upd_other _ _ _ _ e] using hc
        exact h.know q hq b k hk1 hk2 hc'
  | spin st =>
    simp only
    simp only [Shape, hpc] at hsh
    obtain ⟨k0, hk0, hst, hcount, hslot⟩ := hsh
    split
    next => exact h
    next hnb =>
      have hn : 0 < n := by omega
      have hstn : st < n := by rw [hst]; exact (lt_rounds_iff n k0).1 hk0
      rw [hd.eq r st hr hstn] at hnb
      constructor
      · intro q hq
        by_cases e : q = r
        · subst e
          simp only [upd_same, Shape]
          exact ⟨k0 + 1, by omega, by rw [hst, pow_succ], by omega, by omega⟩
        · simp only [upd_other _ _ _ _ e]; exact h.shape q hq
      · intro q hq b k hk1 hk2 hc j hj
        by_cases e : q = r
        · subst e
          simp only [upd_same] at hc
          by_cases hold : rounds n * b + k + 1 ≤ (s.proc q).count
          · exact h.know q hq b k hk1 hk2 hold j hj
          · -- the round just completed is round k-1 of barrier b
            have hnew : rounds n * b + k = (s.proc q).count := by omega
            have hq2 : rounds n * b + k ≤ s.slot ((q + u * st) % n) := by omega
            -- identify b and k
            have hbk : b = (s.proc q).done ∧ k = k0 + 1 := by
              have hh : rounds n * b + k = rounds n * (s.proc q).done + (k0 + 1) := by omega
              have hL : 0 < rounds n := by omega
              rcases Nat.lt_trichotomy b (s.proc q).done with hlt | heq | hgt
              · have : rounds n * b + rounds n ≤ rounds n * (s.proc q).done := by
                  rw [← Nat.mul_succ]; exact Nat.mul_le_mul_left _ hlt
                omega
              · exact ⟨heq, by rw [heq] at hh; omega⟩
              · have : rounds n * (s.proc q).done + rounds n ≤ rounds n * b := by
                  rw [← Nat.mul_succ]; exact Nat.mul_le_mul_left _ hgt
                omega
            obtain ⟨_, hkk⟩ := hbk
            subst hkk
            show rounds n * b + 1 ≤ s.slot ((q + u * j) % n)
            by_cases hj1 : j < 2 ^ k0
            · rcases Nat.eq_zero_or_pos k0 with hz | hpos
              · subst hz
                have : j = 0 := by simpa using hj1
                subst this
                simp only [Nat.mul_zero, Nat.add_zero, Nat.mod_eq_of_lt hq]
                omega
              · exact h.know q hq b k0 hpos (by omega) (by omega) j hj1
            · have hj2 : j - 2 ^ k0 < 2 ^ k0 := by rw [pow_succ] at hj; omega
              have hq' : (q + u * st) % n < n := Nat.mod_lt _ hn
              have hle := (h.shape _ hq').slot_le
              have heq : (q + u * j) % n = ((q + u * st) % n + u * (j - 2 ^ k0)) % n := by
                rw [mod_add_mul, hst]; congr 3; omega
              rcases Nat.eq_zero_or_pos k0 with hz | hpos
              · subst hz
                have : j = 1 := by simp at hj hj1; omega
                subst this
                simp only [hst, pow_zero] at hq2 ⊢
                omega
              · rw [heq]
                exact h.know _ hq' b k0 hpos (by omega) (by omega) _ hj2
        · simp only [upd_other _ _ _ _ e] at hc
          exact h.know q hq b k hk1 hk2 hc j hj

def nrun (partner : Nat → Nat → Nat → Nat) (n : Nat) (sched : List Nat) : NState :=
  sched.foldl (nstep partner n) ninit

theorem inv_foldl {partner : Nat → Nat → Nat → Nat} {n u : Nat} (hd : Dir partner n u)
    (sched : List Nat) : ∀ s, Inv n u s → (∀ r ∈ sched, r < n) →
      Inv n u (sched.foldl (nstep partner n) s) := by
  induction sched with
  | nil => intro s h _; exact h
  | cons r rs ih =>
    intro s h hs
    exact ih _ (inv_step hd h (hs r (by simp))) (fun q hq => hs q (by simp [hq]))

theorem inv_nrun {partner : Nat → Nat → Nat → Nat} {n u : Nat} (hd : Dir partner n u)
    (sched : List Nat) (hs : ∀ r ∈ sched, r < n) : Inv n u (nrun partner n sched) :=
  inv_foldl hd sched _ (inv_init n u) hs

def NState.left (s : NState) (r : Nat) : Nat := (s.proc r).done
def NState.entered (s : NState) (r : Nat) : Nat :=
  (s.proc r).done + (if (s.proc r).pc = .out then 0 else 1)

theorem Shape.count_bounds {n slot p} (h : Shape n slot p) :
    rounds n * p.done + 1 ≤ p.count ∧ p.count ≤ rounds n * p.done + rounds n + 1 := by
  unfold Shape at h; split at h
  · omega
  · obtain ⟨k, _, _, _, _⟩ := h; omega
  · obtain ⟨k, _, _, _, _⟩ := h; omega

/-- a process that has begun a round of barrier `b` has entered `b+1` barriers -/
theorem Shape.entered_of_slot {n slot p} (h : Shape n slot p) (b : Nat)
    (hs : rounds n * b + 1 ≤ slot) : b + 1 ≤ p.done + (if p.pc = .out then 0 else 1) := by
  unfold Shape at h; split at h
  · rename_i hpc
    simp only [hpc, if_true]
    by_contra hlt
    have : p.done ≤ b := by omega
    have := Nat.mul_le_mul_left (rounds n) this
    omega
  · rename_i st hpc
    obtain ⟨k, _, _, _, _⟩ := h
    simp only [hpc, reduceCtorEq, if_false]
    by_contra hlt
    have : p.done + 1 ≤ b := by omega
    have := Nat.mul_le_mul_left (rounds n) this
    rw [Nat.mul_succ] at this
    omega
  · rename_i st hpc
    obtain ⟨k, _, _, _, _⟩ := h
    simp only [hpc, reduceCtorEq, if_false]
    by_contra hlt
    have : p.done + 1 ≤ b := by omega
    have := Nat.mul_le_mul_left (rounds n) this
    rw [Nat.mul_succ] at this
    omega

theorem inv_safe {partner : Nat → Nat → Nat → Nat} {n u : Nat} (hd : Dir partner n u) {s : NState}
    (h : Inv n u s) {r q : Nat} (hr : r < n) (hq : q < n) : s.left r ≤ s.entered q := by
  unfold NState.left NState.entered
  rcases Nat.eq_zero_or_pos (s.proc r).done with hz | hpos
  · omega
  rcases Nat.eq_zero_or_pos (rounds n) with hL | hL
  · -- a single process
    have : n ≤ 1 := by
      have := (lt_rounds_iff n 0).not
      rw [hL] at this; simp at this; omega
    have : q = r := by omega
    subst this; omega
  · obtain ⟨b, hb⟩ : ∃ b, (s.proc r).done = b + 1 := ⟨(s.proc r).done - 1, by omega⟩
    obtain ⟨j, hj, hjq⟩ := hd.reach r q hr hq
    have hc := (h.shape r hr).count_bounds.1
    have hjL : j < 2 ^ rounds n := by
      have := (lt_rounds_iff n (rounds n)).not.1 (by omega); omega
    have hk := h.know r hr b (rounds n) hL (le_refl _) (by rw [hb, Nat.mul_succ] at hc; omega) j hjL
    rw [hjq] at hk
    rw [hb]
    exact (h.shape q hq).entered_of_slot b hk

/-! ### 32-bit counters -/

/-- The counters of any two processes stay close. -/
theorem inv_skew {partner : Nat → Nat → Nat → Nat} {n u : Nat} (hd : Dir partner n u) {s : NState}
    (h : Inv n u s) {r q : Nat} (hr : r < n) (hq : q < n) :
    (s.proc r).count ≤ s.slot q + 2 * rounds n + 1 := by
  have h1 := inv_safe hd h hr hq
  unfold NState.left NState.entered at h1
  have hb := (h.shape r hr).count_bounds.2
  have hq1 := (h.shape q hq).count_bounds.1
  have hge := (h.shape q hq).slot_ge
  have hle : (s.proc r).done ≤ (s.proc q).done + 1 := by split at h1 <;> omega
  have := Nat.mul_le_mul_left (rounds n) hle
  rw [Nat.mul_succ] at this
  omega

/-- The wrap-around comparison agrees with the comparison of unbounded counters
as long as the two are less than `2^31` apart. -/
theorem behind_ofNat (a b : Nat) (h1 : a < b + 2 ^ 31) (h2 : b < a + 2 ^ 31) :
    behind (BitVec.ofNat 32 a) (BitVec.ofNat 32 b) = decide (a < b) := by
  unfold behind INT_MAX
  congr 1
  rw [BitVec.toNat_sub, BitVec.toNat_ofNat, BitVec.toNat_ofNat, eq_iff_iff]
  norm_num at *
  omega

/-- Relation between the 32-bit system and the unbounded one. -/
structure Rel (t : State) (s : NState) : Prop where
  slot : ∀ r, t.slot r = BitVec.ofNat 32 (s.slot r)
  pc : ∀ r, (t.proc r).pc = (s.proc r).pc
  count : ∀ r, (t.proc r).count = BitVec.ofNat 32 (s.proc r).count
  done : ∀ r, (t.proc r).done = (s.proc r).done

theorem rel_init : Rel init ninit := by
  constructor <;> intro r <;> rfl

theorem rounds_le (n : Nat) (hn : n ≤ 2 ^ 30) : rounds n ≤ 30 :=
  (Nat.clog_le_iff_le_pow (by omega)).2 hn

theorem rel_step {partner : Nat → Nat → Nat → Nat} {n u : Nat} (hd : Dir partner n u)
    (hn : n ≤ 2 ^ 30) {t : State} {s : NState} (hrel : Rel t s) (h : Inv n u s)
    {r : Nat} (hr : r < n) : Rel (step partner n t r) (nstep partner n s r) := by
  unfold step nstep
  simp only [hrel.pc r]
  cases hpc : (s.proc r).pc with
  | out =>
    simp only
    constructor
    · exact hrel.slot
    all_goals
      intro q; by_cases e : q = r
      · subst e; simp [upd_same, hrel.count, hrel.done]
      · simp [upd_other _ _ _ _ e, hrel.count, hrel.done, hrel.pc]
  | loop st =>
    simp only
    split
    · constructor
      · intro q; by_cases e : q = r
        · subst e; simp [upd_same, hrel.count]
        · simp [upd_other _ _ _ _ e, hrel.slot]
      all_goals
        intro q; by_cases e : q = r
        · subst e; simp [upd_same, hrel.count, hrel.done]
        · simp [upd_other _ _ _ _ e, hrel.count, hrel.done, hrel.pc]
    · constructor
      · exact hrel.slot
      all_goals
        intro q; by_cases e : q = r
        · subst e; simp [upd_same, hrel.count, hrel.done]
        · simp [upd_other _ _ _ _ e, hrel.count, hrel.done, hrel.pc]
  | spin st =>
    simp only
    have hsh := h.shape r hr
    simp only [Shape, hpc] at hsh
    obtain ⟨k0, hk0, hst, hcount, hslot⟩ := hsh
    have hstn : st < n := by rw [hst]; exact (lt_rounds_iff n k0).1 hk0
    have hq : partner n r st < n := by
      rw [hd.eq r st hr hstn]; exact Nat.mod_lt _ (by omega)
    have hL := rounds_le n hn
    have hs1 := inv_skew hd h hr hq
    have hs2 := inv_skew hd h hq hr
    have hq2 := (h.shape _ hq).slot_le
    rw [hrel.slot, hrel.count,
      behind_ofNat _ _ (by omega) (by omega)]
    by_cases hb : s.slot (partner n r st) < (s.proc r).count
    · simp only [hb, decide_true, if_true]; exact hrel
    · simp only [hb, decide_false, if_false]
      constructor
      · exact hrel.slot
      · intro q; by_cases e : q = r
        · subst e; simp [upd_same]
        · simp [upd_other _ _ _ _ e, hrel.pc]
      · intro q; by_cases e : q = r
        · subst e; simp [upd_same, BitVec.ofNat_add]
        · simp [upd_other _ _ _ _ e, hrel.count]
      · intro q; by_cases e : q = r
        · subst e; simp [upd_same, hrel.done]
        · simp [upd_other _ _ _ _ e, hrel.done]

theorem rel_foldl {partner : Nat → Nat → Nat → Nat} {n u : Nat} (hd : Dir partner n u)
    (hn : n ≤ 2 ^ 30) (sched : List Nat) : ∀ t s, Rel t s → Inv n u s → (∀ r ∈ sched, r < n) →
      Rel (sched.foldl (step partner n) t) (sched.foldl (nstep partner n) s) := by
  induction sched with
  | nil => intro t s h _ _; exact h
  | cons r rs ih =>
    intro t s h hi hs
    exact ih _ _ (rel_step hd hn h hi (hs r (by simp))) (inv_step hd hi (hs r (by simp)))
      (fun q hq => hs q (by simp [hq]))

theorem rel_run {partner : Nat → Nat → Nat → Nat} {n u : Nat} (hd : Dir partner n u)
    (hn : n ≤ 2 ^ 30) (sched : List Nat) (hs : ∀ r ∈ sched, r < n) :
    Rel (run partner n sched) (nrun partner n sched) :=
  rel_foldl hd hn sched _ _ rel_init (inv_init n u) hs

end ExtMpi.Barrier
