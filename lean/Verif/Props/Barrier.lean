import Verif.Lemmas.BarrierLive

/-!
# Properties C01, C02, C03, C04: on-node barriers

All statements are about the 32-bit protocol of the code (`run`), with counters
that wrap around, for the barrier of the processes of a socket (`socketPartner`)
and for the barrier between the sockets of a node (`nodePartner`).
-/
namespace ExtMpi.Barrier

/-- The two barriers of the code. -/
def CodePartner (partner : Nat → Nat → Nat → Nat) : Prop :=
  partner = socketPartner ∨ partner = nodePartner

theorem CodePartner.dir {partner} (h : CodePartner partner) (n : Nat) : ∃ u, Dir partner n u := by
  rcases h with rfl | rfl
  · exact ⟨1, dir_socket n⟩
  · exact ⟨n - 1, dir_node n⟩

/-- **C01 / C03.** For every group size, every schedule (of any length, so also past the
wrap-around of the counters) and all pairs of processes: the number of barriers
`r` has left never exceeds the number of barriers `q` has entered. -/
theorem barrier_separates (partner : Nat → Nat → Nat → Nat) (hp : CodePartner partner)
    (n : Nat) (hn : n ≤ 2 ^ 30) (sched : List Nat) (hs : ∀ r ∈ sched, r < n)
    (r q : Nat) (hr : r < n) (hq : q < n) :
    (run partner n sched).left r ≤ (run partner n sched).entered q := by
  obtain ⟨u, hd⟩ := hp.dir n
  have hrel := rel_run hd hn sched hs
  have h := inv_safe hd (inv_nrun hd sched hs) hr hq
  unfold State.left State.entered
  unfold NState.left NState.entered at h
  rw [hrel.done, hrel.done, hrel.pc]
  exact h

/-- non-vacuity: two processes, process 0 has left its first barrier because 1 has entered it -/
example : (run socketPartner 2 [0, 1, 0, 1, 0, 0]).left 0 = 1 ∧
    (run socketPartner 2 [0, 1, 0, 1, 0, 0]).entered 1 = 1 ∧
    (run socketPartner 2 [0, 1, 0, 1, 0, 0]).left 1 = 0 := by decide
/-- ... and without process 1 it never leaves it, however often it is scheduled. -/
example : (run socketPartner 2 (List.replicate 50 0)).left 0 = 0 := by decide

/-- **C01 (corollary).** No two processes are ever more than one barrier apart. -/
theorem barrier_lockstep (partner : Nat → Nat → Nat → Nat) (hp : CodePartner partner)
    (n : Nat) (hn : n ≤ 2 ^ 30) (sched : List Nat) (hs : ∀ r ∈ sched, r < n)
    (r q : Nat) (hr : r < n) (hq : q < n) :
    (run partner n sched).left r ≤ (run partner n sched).left q + 1 := by
  have := barrier_separates partner hp n hn sched hs r q hr hq
  unfold State.left State.entered at *
  split at this <;> omega

/-- **C02 (no deadlock).** In every reachable state some process can take a step
that changes its program point. -/
theorem barrier_no_deadlock (partner : Nat → Nat → Nat → Nat) (hp : CodePartner partner)
    (n : Nat) (hpos : 0 < n) (hn : n ≤ 2 ^ 30) (sched : List Nat) (hs : ∀ r ∈ sched, r < n) :
    ∃ r, r < n ∧ ((step partner n (run partner n sched) r).proc r).pc ≠
      ((run partner n sched).proc r).pc := by
  obtain ⟨u, hd⟩ := hp.dir n
  have hrel := rel_run hd hn sched hs
  have hinv := inv_nrun hd sched hs
  obtain ⟨r, hr, hready⟩ := inv_progress hd hpos hinv
  have hstep := rel_step hd hn hrel hinv hr
  refine ⟨r, hr, ?_⟩
  rw [hstep.pc, hrel.pc]
  generalize nrun partner n sched = s at *
  unfold nstep
  simp only
  cases hpc : (s.proc r).pc with
  | out => simp [upd_same]
  | loop st => simp only; split <;> simp [upd_same]
  | spin st =>
    have := hready st hpc
    simp only
    rw [if_neg (by omega)]
    simp [upd_same]

/-- **C02 (liveness) / C03.** Under every schedule that keeps scheduling every process,
every process leaves every barrier: for every `B` there is a time at which all have
left at least `B` barriers. -/
theorem barrier_live (partner : Nat → Nat → Nat → Nat) (hp : CodePartner partner)
    (n : Nat) (hn : n ≤ 2 ^ 30) (σ : Nat → Nat) (hσ : ∀ t, σ t < n)
    (fair : ∀ r, r < n → ∀ t, ∃ t', t ≤ t' ∧ σ t' = r) (B : Nat) :
    ∃ t, ∀ r, r < n → B ≤ (run partner n ((List.range t).map σ)).left r := by
  obtain ⟨u, hd⟩ := hp.dir n
  obtain ⟨t, ht⟩ := ev_done hd σ hσ fair B
  refine ⟨t, fun r hr => ?_⟩
  have hrel := rel_run hd hn ((List.range t).map σ) (by
    intro q hq; simp at hq; obtain ⟨a, _, rfl⟩ := hq; exact hσ a)
  unfold State.left
  rw [hrel.done, ← nat_eq]
  exact ht r hr

/-- non-vacuity: round-robin is fair -/
example (n : Nat) (hn : 0 < n) : (∀ t : Nat, t % n < n) ∧
    ∀ r, r < n → ∀ t, ∃ t', t ≤ t' ∧ t' % n = r :=
  ⟨fun t => Nat.mod_lt _ hn, fun r hr t => ⟨t * n + r, by
    have := Nat.mul_le_mul_left t (show 1 ≤ n by omega); omega, by
    rw [Nat.mul_comm, Nat.mul_add_mod]; exact Nat.mod_eq_of_lt hr⟩⟩

/-! ### C04: `EXT_MPI_Test` at a barrier -/

/-- Specification: a barrier instruction of process `r` with counter `count` is *satisfied*
when every round finds its partner's slot not behind, i.e. when the blocking function would
run through without spinning. -/
def Satisfied (partner : Nat → Nat → Nat → Nat) (n r : Nat)
    (slot : Nat → BitVec 32) (count : BitVec 32) : Prop :=
  ∀ k, 2 ^ k < n → behind (slot (partner n r (2 ^ k))) (count + BitVec.ofNat 32 k) = false

/-- The property C04 at full strength: under `EXT_MPI_Test` (`active_wait = 1`) the
interpreter yields at an unsatisfied barrier and does not yield at a satisfied one. -/
def TestSpec (partner : Nat → Nat → Nat → Nat) : Prop :=
  ∀ n r slot count, 2 ≤ n → r < n →
    ((execBarrier partner n r 1 slot count).1 = .yield ↔ ¬ Satisfied partner n r slot count)

theorem partner_ne {partner} (hp : CodePartner partner) {n r st : Nat} (hr : r < n) (h0 : 0 < st)
    (hst : st < n) : partner n r st ≠ r := by
  rcases hp with rfl | rfl
  · unfold socketPartner
    by_cases h : r + st < n
    · rw [Nat.mod_eq_of_lt h]; omega
    · rw [Nat.mod_eq_sub_mod (by omega), Nat.mod_eq_of_lt (by omega)]; omega
  · unfold nodePartner
    by_cases h : r + n - st < n
    · rw [Nat.mod_eq_of_lt h]; omega
    · rw [Nat.mod_eq_sub_mod (by omega), Nat.mod_eq_of_lt (by omega)]; omega

theorem testLoop_zero_iff {partner} (hp : CodePartner partner) {n r : Nat} (hr : r < n)
    (fuel : Nat) : ∀ k (slot : Nat → BitVec 32) (count : BitVec 32), n ≤ 2 ^ (k + fuel) →
    ((barrierTestLoop partner n r fuel (2 ^ k) slot count).1 = 0 ↔
      ∀ i, 2 ^ (k + i) < n →
        behind (slot (partner n r (2 ^ (k + i)))) (count + BitVec.ofNat 32 i) = false) := by
  induction fuel with
  | zero =>
    intro k slot count h
    simp only [barrierTestLoop, true_iff]
    intro i hi
    have : 2 ^ k ≤ 2 ^ (k + i) := Nat.pow_le_pow_right (by omega) (by omega)
    simp at h; omega
  | succ fuel ih =>
    intro k slot count h
    unfold barrierTestLoop
    split
    next hlt =>
      have hne := partner_ne hp hr (Nat.two_pow_pos k) hlt
      simp only [upd_other _ _ _ _ hne]
      split
      next hb =>
        simp only [Int.reduceEq, Int.one_ne_zero, false_iff]
        intro hall
        have := hall 0 (by simpa using hlt)
        simp [hb] at this
      next hb =>
        have hb' : behind (slot (partner n r (2 ^ k))) count = false := by simpa using hb
        have := ih (k + 1) (upd slot r count) (count + 1) (by
          rw [show k + 1 + fuel = k + (fuel + 1) by omega]; exact h)
        rw [pow_succ] at this
        rw [this]
        constructor
        · intro hall i hi
          rcases Nat.eq_zero_or_pos i with hz | hpos
          · subst hz; simpa using hb'
          · obtain ⟨j, rfl⟩ : ∃ j, i = j + 1 := ⟨i - 1, by omega⟩
            have h2 := hall j (by rw [show k + 1 + j = k + (j + 1) by omega]; exact hi)
            rw [show k + 1 + j = k + (j + 1) by omega] at h2
            rw [upd_other _ _ _ _ (partner_ne hp hr (Nat.two_pow_pos _) hi)] at h2
            rw [BitVec.ofNat_add, BitVec.add_comm (BitVec.ofNat 32 j), ← BitVec.add_assoc]
            exact h2
        · intro hall i hi
          rw [show k + 1 + i = k + (i + 1) by omega] at hi ⊢
          rw [upd_other _ _ _ _ (partner_ne hp hr (Nat.two_pow_pos _) hi)]
          have h2 := hall (i + 1) hi
          rw [BitVec.ofNat_add, BitVec.add_comm (BitVec.ofNat 32 i), ← BitVec.add_assoc] at h2
          exact h2
    next hge =>
      simp only [true_iff]
      intro i hi
      have : 2 ^ k ≤ 2 ^ (k + i) := Nat.pow_le_pow_right (by omega) (by omega)
      omega

/-- The test function itself reports "0" exactly for satisfied barriers. -/
theorem barrierTest_zero_iff (partner : Nat → Nat → Nat → Nat) (hp : CodePartner partner)
    (n r : Nat) (hr : r < n) (slot : Nat → BitVec 32) (count : BitVec 32) :
    (barrierTest partner n r slot count).1 = 0 ↔ Satisfied partner n r slot count := by
  have := testLoop_zero_iff hp hr n 0 slot count (by simpa using Nat.lt_two_pow_self.le)
  simpa [barrierTest, Satisfied] using this

/-- **C04 is violated by the code in every case**: under `EXT_MPI_Test` (and
`EXT_MPI_Progress` of a handle that is not waited for) the interpreter yields exactly at
the *satisfied* barriers and calls the blocking function exactly at the unsatisfied ones. -/
theorem exec_test_inverted (partner : Nat → Nat → Nat → Nat) (hp : CodePartner partner)
    (n r : Nat) (hr : r < n) (w : Nat) (hw : w &&& 2 = 0) (slot : Nat → BitVec 32)
    (count : BitVec 32) :
    ((execBarrier partner n r w slot count).1 = .yield ↔ Satisfied partner n r slot count) ∧
    ((execBarrier partner n r w slot count).1 = .block ↔ ¬ Satisfied partner n r slot count) := by
  have h := barrierTest_zero_iff partner hp n r hr slot count
  unfold execBarrier
  simp only [hw, ne_eq, not_true_eq_false, if_false]
  by_cases hs : Satisfied partner n r slot count
  · simp [h.2 hs, hs]
  · have : ¬ (barrierTest partner n r slot count).1 = 0 := fun e => hs (h.1 e)
    simp [this, hs]

/-- **C04, negation.** -/
theorem test_spec_violated : ¬ TestSpec socketPartner ∧ ¬ TestSpec nodePartner := by
  have key : ∀ partner, CodePartner partner → ¬ TestSpec partner := by
    intro partner hp h
    have h1 := h 2 0 (fun _ => 0) 1 (by omega) (by omega)
    have h2 := (exec_test_inverted partner hp 2 0 (by omega) 1 (by decide) (fun _ => 0) 1).1
    rw [h2] at h1
    tauto
  exact ⟨key _ (Or.inl rfl), key _ (Or.inr rfl)⟩

/-- non-vacuity: both a satisfied and an unsatisfied barrier exist -/
example : Satisfied socketPartner 2 0 (fun _ => 1) 1 ∧ ¬ Satisfied socketPartner 2 0 (fun _ => 0) 1 := by
  constructor
  · intro k hk
    have : k = 0 := by
      rcases Nat.eq_zero_or_pos k with h | h
      · exact h
      · have : 2 ^ 1 ≤ 2 ^ k := Nat.pow_le_pow_right (by omega) h
        omega
    subst this; decide
  · intro h; have := h 0 (by omega); revert this; decide

/-- **C04, consequence.** A process that only polls with `EXT_MPI_Test` never gets past a
satisfied barrier: every poll at which the barrier is satisfied yields without progress,
whatever the other processes write. -/
theorem polling_never_advances (partner : Nat → Nat → Nat → Nat) (hp : CodePartner partner)
    (n r : Nat) (hr : r < n) (count : BitVec 32) (views : List (Nat → BitVec 32))
    (hsat : ∀ v ∈ views, Satisfied partner n r v count) :
    ∀ v ∈ views, (execBarrier partner n r 1 v count).1 = .yield :=
  fun v hv => (exec_test_inverted partner hp n r hr 1 (by decide) v count).1.2 (hsat v hv)

/-- **C04, the part that holds**: under `EXT_MPI_Wait` (`active_wait` 2 or 3) the blocking
barrier is called at once, so the guarantees of `barrier_separates` and `barrier_live` apply.
Missing for the full property: the behaviour under `EXT_MPI_Test`, which is inverted. -/
theorem exec_wait_partial (partner : Nat → Nat → Nat → Nat) (n r : Nat) (slot : Nat → BitVec 32)
    (count : BitVec 32) (w : Nat) (hw : w = 2 ∨ w = 3) :
    (execBarrier partner n r w slot count) = (.block, slot) := by
  rcases hw with rfl | rfl <;> simp [execBarrier]

end ExtMpi.Barrier
