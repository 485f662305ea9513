import Verif.Lemmas.Barrier

/-! Liveness of the barrier with unbounded counters. -/
namespace ExtMpi.Barrier

/-- State after the first `t` steps of an infinite schedule. -/
def nat (partner : Nat → Nat → Nat → Nat) (n : Nat) (σ : Nat → Nat) : Nat → NState
  | 0 => ninit
  | t + 1 => nstep partner n (nat partner n σ t) (σ t)

theorem nat_eq (partner : Nat → Nat → Nat → Nat) (n : Nat) (σ : Nat → Nat) (t : Nat) :
    nat partner n σ t = nrun partner n ((List.range t).map σ) := by
  induction t with
  | zero => rfl
  | succ t ih => simp [nat, nrun, List.range_succ, ih]

theorem ev_all (n : Nat) (P : Nat → Nat → Prop) (mono : ∀ r t, P r t → P r (t + 1)) (t0 : Nat)
    (ev : ∀ r, r < n → ∃ t, t0 ≤ t ∧ P r t) : ∃ t, t0 ≤ t ∧ ∀ r, r < n → P r t := by
  have monos : ∀ r t d, P r t → P r (t + d) := by
    intro r t d h
    induction d with
    | zero => exact h
    | succ d ih => exact mono _ _ ih
  induction n with
  | zero => exact ⟨t0, le_refl _, fun r hr => by omega⟩
  | succ m ih =>
    obtain ⟨t1, h1, p1⟩ := ih (fun r hr => ev r (by omega))
    obtain ⟨t2, h2, p2⟩ := ev m (by omega)
    refine ⟨max t1 t2, by omega, fun r hr => ?_⟩
    by_cases e : r = m
    · subst e
      have := monos r t2 (max t1 t2 - t2) p2
      rwa [show t2 + (max t1 t2 - t2) = max t1 t2 by omega] at this
    · have := monos r t1 (max t1 t2 - t1) (p1 r (by omega))
      rwa [show t1 + (max t1 t2 - t1) = max t1 t2 by omega] at this

section
variable {partner : Nat → Nat → Nat → Nat} {n u : Nat}

theorem nstep_other (s : NState) (r q : Nat) (h : q ≠ r) :
    (nstep partner n s r).proc q = s.proc q ∧ (nstep partner n s r).slot q = s.slot q := by
  unfold nstep
  simp only
  split
  · simp [upd_other _ _ _ _ h]
  · split <;> simp [upd_other _ _ _ _ h]
  · split <;> simp [upd_other _ _ _ _ h]

theorem nstep_mono {s : NState} (hi : Inv n u s) {r q : Nat} (hr : r < n) :
    s.slot q ≤ (nstep partner n s r).slot q ∧
    (s.proc q).count ≤ ((nstep partner n s r).proc q).count ∧
    (s.proc q).done ≤ ((nstep partner n s r).proc q).done := by
  by_cases e : q = r
  · subst e
    have hle := (hi.shape q hr).slot_le
    unfold nstep
    simp only
    split
    · simp [upd_same]
    · split <;> simp [upd_same, hle]
    · split <;> simp [upd_same]
  · have := nstep_other (partner := partner) (n := n) s r q e
    rw [this.1, this.2]; simp

/-- Distance of a process from writing its slot. -/
def dist (n : Nat) : PC → Nat
  | .spin _ => 0
  | .loop st => if st < n then 1 else 3
  | .out => 2

variable (hd : Dir partner n u) (σ : Nat → Nat) (hσ : ∀ t, σ t < n)
include hd hσ

theorem nat_inv (t : Nat) : Inv n u (nat partner n σ t) := by
  induction t with
  | zero => exact inv_init n u
  | succ t ih => exact inv_step hd ih (hσ t)

variable (fair : ∀ r, r < n → ∀ t, ∃ t', t ≤ t' ∧ σ t' = r)
include fair

/-- The state of `r` just before the next time `r` is scheduled. -/
theorem next_sched (r : Nat) (hr : r < n) (t : Nat) : ∃ t', t ≤ t' ∧ σ t' = r ∧
    (nat partner n σ t').proc r = (nat partner n σ t).proc r ∧
    (nat partner n σ t').slot r = (nat partner n σ t).slot r := by
  have key : ∀ d t, σ (t + d) = r → ∃ t', t ≤ t' ∧ σ t' = r ∧
      (nat partner n σ t').proc r = (nat partner n σ t).proc r ∧
      (nat partner n σ t').slot r = (nat partner n σ t).slot r := by
    intro d
    induction d with
    | zero => intro t h; exact ⟨t, le_refl _, h, rfl, rfl⟩
    | succ d ih =>
      intro t h
      by_cases e : σ t = r
      · exact ⟨t, le_refl _, e, rfl, rfl⟩
      · obtain ⟨t', h1, h2, h3, h4⟩ := ih (t + 1) (by rw [← h]; congr 1; omega)
        have := nstep_other (partner := partner) (n := n) (nat partner n σ t) (σ t) r (fun h => e h.symm)
        exact ⟨t', by omega, h2, by rw [h3]; exact this.1, by rw [h4]; exact this.2⟩
  obtain ⟨t', h1, h2⟩ := fair r hr t
  exact key (t' - t) t (by rw [show t + (t' - t) = t' by omega]; exact h2)

theorem ev_slot (hn : 2 ≤ n) (c r : Nat) (hr : r < n) : ∀ d t,
    dist n ((nat partner n σ t).proc r).pc ≤ d → c ≤ ((nat partner n σ t).proc r).count →
    ∃ t', t ≤ t' ∧ c ≤ (nat partner n σ t').slot r := by
  intro d
  induction d with
  | zero =>
    intro t hdist hc
    refine ⟨t, le_refl _, ?_⟩
    have hsh := (nat_inv hd σ hσ t).shape r hr
    cases hpc : ((nat partner n σ t).proc r).pc with
    | out => rw [hpc] at hdist; simp [dist] at hdist
    | loop st => rw [hpc] at hdist; simp [dist] at hdist; split at hdist <;> omega
    | spin st =>
      simp only [Shape, hpc] at hsh
      obtain ⟨k, _, _, _, h⟩ := hsh
      omega
  | succ d ih =>
    intro t hdist hc
    obtain ⟨t', h1, h2, h3, h4⟩ := next_sched hd σ hσ fair r hr t
    have hsh := (nat_inv hd σ hσ t).shape r hr
    have hstep : nat partner n σ (t' + 1) = nstep partner n (nat partner n σ t') r := by
      rw [nat, h2]
    cases hpc : ((nat partner n σ t).proc r).pc with
    | spin st =>
      simp only [Shape, hpc] at hsh
      obtain ⟨k, _, _, _, h⟩ := hsh
      exact ⟨t, le_refl _, by omega⟩
    | out =>
      have hproc : ((nat partner n σ (t' + 1)).proc r).pc = .loop 1 ∧
          ((nat partner n σ (t' + 1)).proc r).count = ((nat partner n σ t).proc r).count := by
        rw [hstep]; unfold nstep; simp only [h3, hpc, upd_same, and_self]
      obtain ⟨t'', h5, h6⟩ := ih (t' + 1) (by
        rw [hproc.1]; rw [hpc] at hdist; simp [dist] at hdist ⊢; rw [if_pos (by omega)]; omega)
        (by rw [hproc.2]; exact hc)
      exact ⟨t'', by omega, h6⟩
    | loop st =>
      by_cases hst : st < n
      · refine ⟨t' + 1, by omega, ?_⟩
        rw [hstep]; unfold nstep; simp only [h3, hpc, hst, if_true, upd_same]; exact hc
      · have hproc : ((nat partner n σ (t' + 1)).proc r).pc = .out ∧
            ((nat partner n σ (t' + 1)).proc r).count = ((nat partner n σ t).proc r).count := by
          rw [hstep]; unfold nstep; simp only [h3, hpc, hst, if_false, upd_same, and_self]
        obtain ⟨t'', h5, h6⟩ := ih (t' + 1) (by
          rw [hproc.1]; rw [hpc] at hdist; simp [dist, hst] at hdist ⊢; omega)
          (by rw [hproc.2]; exact hc)
        exact ⟨t'', by omega, h6⟩

theorem mono_le (r : Nat) (t t' : Nat) (h : t ≤ t') :
    (nat partner n σ t).slot r ≤ (nat partner n σ t').slot r ∧
    ((nat partner n σ t).proc r).count ≤ ((nat partner n σ t').proc r).count ∧
    ((nat partner n σ t).proc r).done ≤ ((nat partner n σ t').proc r).done := by
  obtain ⟨d, rfl⟩ := Nat.exists_eq_add_of_le h
  clear h
  induction d with
  | zero => simp
  | succ d ih =>
    have := nstep_mono (partner := partner) (q := r) (nat_inv hd σ hσ (t + d)) (hσ (t + d))
    rw [show t + (d + 1) = (t + d) + 1 by omega, nat]
    omega

theorem ev_count_one (c r : Nat) (hr : r < n) (t : Nat)
    (hall : ∀ q, q < n → c ≤ (nat partner n σ t).slot q) :
    ∃ t', t ≤ t' ∧ c + 1 ≤ ((nat partner n σ t').proc r).count := by
  by_cases hdone : c + 1 ≤ ((nat partner n σ t).proc r).count
  · exact ⟨t, le_refl _, hdone⟩
  have hsh := (nat_inv hd σ hσ t).shape r hr
  have hsl := hall r hr
  obtain ⟨t', h1, h2, h3, h4⟩ := next_sched hd σ hσ fair r hr t
  refine ⟨t' + 1, by omega, ?_⟩
  have hstep : nat partner n σ (t' + 1) = nstep partner n (nat partner n σ t') r := by
    rw [nat, h2]
  rw [hstep]
  cases hpc : ((nat partner n σ t).proc r).pc with
  | out => simp only [Shape, hpc] at hsh; omega
  | loop st => simp only [Shape, hpc] at hsh; obtain ⟨k, _, _, _, h⟩ := hsh; omega
  | spin st =>
    simp only [Shape, hpc] at hsh
    obtain ⟨k, hk, hst, hcnt, hslot⟩ := hsh
    have hstn : st < n := by rw [hst]; exact (lt_rounds_iff n k).1 hk
    have hq : partner n r st < n := by
      rw [hd.eq r st hr hstn]; exact Nat.mod_lt _ (by omega)
    have hge := le_trans (hall _ hq) (mono_le hd σ hσ fair (partner n r st) t t' h1).1
    have hnb : ¬ (nat partner n σ t').slot (partner n r st) < ((nat partner n σ t).proc r).count := by
      omega
    unfold nstep
    simp only [h3, hpc, hnb, if_false, upd_same]
    omega

theorem ev_count (hn : 2 ≤ n) (c : Nat) :
    ∃ t, ∀ r, r < n → c ≤ ((nat partner n σ t).proc r).count := by
  induction c with
  | zero => exact ⟨0, fun _ _ => Nat.zero_le _⟩
  | succ c ih =>
    obtain ⟨t0, h0⟩ := ih
    obtain ⟨t1, h1, h1'⟩ := ev_all n (fun r t => c ≤ (nat partner n σ t).slot r)
      (fun r t h => le_trans h (mono_le hd σ hσ fair r t (t + 1) (by omega)).1) t0
      (fun r hr => ev_slot hd σ hσ fair hn c r hr _ t0 (le_refl _) (h0 r hr))
    obtain ⟨t2, h2, h2'⟩ := ev_all n (fun r t => c + 1 ≤ ((nat partner n σ t).proc r).count)
      (fun r t h => le_trans h (mono_le hd σ hσ fair r t (t + 1) (by omega)).2.1) t1
      (fun r hr => ev_count_one hd σ hσ fair c r hr t1 h1')
    exact ⟨t2, h2'⟩

theorem ev_done_single (hn : n = 1) (B : Nat) : ∃ t, B ≤ ((nat partner n σ t).proc 0).done := by
  subst hn
  have hz : ∀ t, σ t = 0 := fun t => by have := hσ t; omega
  have key : ∀ t, ((nat partner 1 σ (2 * t)).proc 0).pc = .out ∧
      ((nat partner 1 σ (2 * t)).proc 0).done = t := by
    intro t
    induction t with
    | zero => simp [nat, ninit]
    | succ t ih =>
      rw [show 2 * (t + 1) = 2 * t + 1 + 1 by omega, nat, nat, hz, hz]
      have h1 : (nstep partner 1 (nat partner 1 σ (2 * t)) 0).proc 0 =
          { ((nat partner 1 σ (2 * t)).proc 0) with pc := .loop 1 } := by
        unfold nstep; simp only [ih.1, upd_same]
      generalize nstep partner 1 (nat partner 1 σ (2 * t)) 0 = s1 at *
      unfold nstep
      simp only [h1, Nat.lt_irrefl, if_false, upd_same, ih.2, and_self]
  exact ⟨2 * B, by rw [(key B).2]⟩

theorem ev_done (B : Nat) : ∃ t, ∀ r, r < n → B ≤ ((nat partner n σ t).proc r).done := by
  rcases Nat.lt_or_ge n 2 with h | hn
  · rcases Nat.eq_zero_or_pos n with h0 | hpos
    · exact ⟨0, fun r hr => by omega⟩
    · obtain ⟨t, ht⟩ := ev_done_single hd σ hσ fair (by omega) B
      exact ⟨t, fun r hr => by rw [show r = 0 by omega]; exact ht⟩
  · obtain ⟨t, ht⟩ := ev_count hd σ hσ fair hn (rounds n * B + 2)
    refine ⟨t, fun r hr => ?_⟩
    have h1 := ht r hr
    have h2 := ((nat_inv hd σ hσ t).shape r hr).count_bounds.2
    by_contra hlt
    have : ((nat partner n σ t).proc r).done + 1 ≤ B := by omega
    have := Nat.mul_le_mul_left (rounds n) this
    rw [Nat.mul_succ] at this
    omega

end

/-- In every state satisfying the invariant somebody can move. -/
theorem inv_progress {partner : Nat → Nat → Nat → Nat} {n u : Nat} (hd : Dir partner n u)
    (hn : 0 < n) {s : NState} (h : Inv n u s) :
    ∃ r, r < n ∧ ∀ st, (s.proc r).pc = .spin st → (s.proc r).count ≤ s.slot (partner n r st) := by
  -- take a process with the least counter
  have : ∃ r, r < n ∧ ∀ q, q < n → (s.proc r).count ≤ (s.proc q).count := by
    clear h hd
    induction n with
    | zero => omega
    | succ m ih =>
      rcases Nat.eq_zero_or_pos m with hm | hm
      · exact ⟨0, by omega, fun q hq => by rw [show q = 0 by omega]⟩
      · obtain ⟨r, hr, hmin⟩ := ih hm
        by_cases hc : (s.proc r).count ≤ (s.proc m).count
        · exact ⟨r, by omega, fun q hq => by
            by_cases e : q = m
            · rw [e]; exact hc
            · exact hmin q (by omega)⟩
        · exact ⟨m, by omega, fun q hq => by
            by_cases e : q = m
            · rw [e]
            · have := hmin q (by omega); omega⟩
  obtain ⟨r, hr, hmin⟩ := this
  cases hpc : (s.proc r).pc with
  | out => exact ⟨r, hr, fun st hst => by rw [hpc] at hst; simp at hst⟩
  | loop st0 => exact ⟨r, hr, fun st hst => by rw [hpc] at hst; simp at hst⟩
  | spin st =>
    have hsh := h.shape r hr
    simp only [Shape, hpc] at hsh
    obtain ⟨k, hk, hst, hcnt, hslot⟩ := hsh
    have hstn : st < n := by rw [hst]; exact (lt_rounds_iff n k).1 hk
    have hq : partner n r st < n := by
      rw [hd.eq r st hr hstn]; exact Nat.mod_lt _ (by omega)
    by_cases hready : (s.proc r).count ≤ s.slot (partner n r st)
    · exact ⟨r, hr, fun st' h' => by
        rw [hpc] at h'; injection h' with h'; subst h'; exact hready⟩
    · -- the partner has the same counter and is not spinning
      refine ⟨partner n r st, hq, fun st' h' => ?_⟩
      have hshq := h.shape _ hq
      simp only [Shape, h'] at hshq
      obtain ⟨_, _, _, _, hs⟩ := hshq
      have := hmin _ hq
      omega

end ExtMpi.Barrier
