import Verif.Lemmas.Cyclic
/-! # The cyclic allgather delivers every block (C10, C14) -/
namespace ExtMpi.Cyclic
open Schedule Recursive

theorem allgather_exec {V : Type} [Add V] (N : Nat) (hN : 0 < N) (ports : List Nat)
    (hp : ∀ p, p ∈ ports → 0 < p) (hfit : Suits N 1 ports) (hreach : N ≤ factor ports)
    (inp junk : Nat → Nat → V) :
    ∃ out, Exec N copyOut (allgather N ports) inp junk out ∧ AllgatherPost N inp out := by
  obtain ⟨s1, h1, h2, h3⟩ := phase N (fun n => inp n n) ports hp 1 (by omega) hfit
    (fun t => copyIn (gatherFirst t) (inp t) (junk t)) (by
      intro t n ht hn
      have : n = 0 := by omega
      subst this
      rw [Nat.add_zero, Nat.mod_eq_of_lt ht]
      simp [copyIn, gatherFirst, Recursive.mk])
  rw [Nat.one_mul, Nat.min_eq_right hreach] at h2
  have hmin : min 1 N = 1 := by omega
  simp only [Nat.one_mul, Nat.min_eq_right hreach, hmin] at h1 h3
  have h4 : ∀ t, t < N → nodeStep N (fun t => gatherLast N N t) s1 t = some (s1 t) := fun t ht =>
    idle_step N N (fun t line => { frac := (t + line) % N, sendto := [(-1, (((t + line) % N : Nat) : Int))] })
      (fun t x e he => by
        rw [List.mem_singleton.1 he]; exact Int.negSucc_lt_zero 0)
      (fun _ _ => rfl) (fun _ _ => rfl) (fun _ _ => rfl) s1 t ht
  refine ⟨fun t => copyOut (gatherLast N N t) (s1 t),
    ⟨fun t => gatherFirst t, fun t => (gatherSteps N t 1 1 ports).1 ++ [gatherLast N N t],
      fun t => gatherLast N N t, s1, fun t _ => ⟨?_, by simp⟩,
      Run.append h1 (Run.single h4), fun _ _ => rfl⟩, ?_⟩
  · unfold allgather
    simp only [h3 t]
  · intro t b ht hb
    have hd := dist_lt N b t hb ht
    have hr := (ring_iff N b t (dist N b t) hb ht hd).2 rfl
    have e : t + N + dist N b t = t + dist N b t + N := by omega
    rw [e, Nat.add_mod_right] at hr
    have := h2 t (dist N b t) ht hd
    rw [hr] at this
    rw [← this]
    apply copyOut_mk N _ _ (dist N b t) b hd
    · simp
    · exact hr
    · intro m hm _ h
      apply (ring_iff N b t m hb ht hm).1
      have e : t + N + m = t + m + N := by omega
      rw [e, Nat.add_mod_right]
      exact h

/-- C10, for port counts that suit the number of nodes; for others see `allgather_iff`. -/
theorem allgather_suits {V : Type} [Add V] (N : Nat) (hN : 0 < N) (ports : List Nat)
    (hp : ∀ p, p ∈ ports → 0 < p) (hfit : Suits N 1 ports)
    (hreach : N ≤ (ports.map fun p => p + 1).prod) :
    Computes (V := V) N copyOut (allgather N ports) (AllgatherPost N) := by
  apply Computes.of
  · intro inp out out' h hpost t b ht hb
    rw [← h t ht]; exact hpost t b ht hb
  · intro inp junk
    exact allgather_exec N hN ports hp hfit hreach inp junk

/-- C10, for port counts that do not overshoot (`Fits`): every node gets every block, for every
number of nodes, also if it is not a product of the factors. Missing: lists in which some step has
so many ports that the distance to its last partner exceeds the number of nodes; there the code is
wrong, see `allgather_violated`. -/
theorem allgather_partial {V : Type} [Add V] (N : Nat) (hN : 0 < N) (ports : List Nat)
    (hp : ∀ p, p ∈ ports → 0 < p) (hfit : Fits N 1 ports)
    (hreach : N ≤ (ports.map fun p => p + 1).prod) :
    Computes (V := V) N copyOut (allgather N ports) (AllgatherPost N) :=
  allgather_suits N hN ports hp hfit.suits hreach

example : Computes (V := Nat) 7 copyOut (allgather 7 [1, 2, 1]) (AllgatherPost 7) :=
  allgather_partial 7 (by decide) [1, 2, 1] (by decide) (by simp [Fits]) (by decide)

example : Computes (V := Nat) 11 copyOut (allgather 11 [2, 3, 4]) (AllgatherPost 11) :=
  allgather_partial 11 (by decide) [2, 3, 4] (by decide) (by simp [Fits]) (by decide)

/-- All but the last step need exact factors only: lists whose product without the last factor is
still below the number of nodes fit as soon as the last step does. -/
theorem fits_of_exact (N gb : Nat) (ps : List Nat) (p : Nat) (hgb : 0 < gb)
    (h : gb * (ps.map fun p => p + 1).prod * p ≤ N) (hlast : 0 < p) : Fits N gb (ps ++ [p]) := by
  induction ps generalizing gb with
  | nil => exact ⟨fun _ => by simpa using h, trivial⟩
  | cons q ps ih =>
    have h1 : gb * (q + 1) * (ps.map fun p => p + 1).prod * p ≤ N := by
      rw [List.map_cons, List.prod_cons, ← Nat.mul_assoc] at h
      exact h
    refine ⟨fun _ => ?_, ih (gb * (q + 1)) (Nat.mul_pos hgb (by omega)) h1⟩
    have h2 : 0 < (ps.map fun p => p + 1).prod := factor_pos ps
    have h3 : gb * (q + 1) * 1 ≤ gb * (q + 1) * ((ps.map fun p => p + 1).prod * p) :=
      Nat.mul_le_mul_left _ (Nat.mul_pos h2 hlast)
    rw [← Nat.mul_assoc] at h3
    have h4 : gb * q ≤ gb * (q + 1) := Nat.mul_le_mul_left _ (by omega)
    omega

/-- C10 for the port counts the library chooses for one group: factors of the number of nodes. -/
theorem allgather_exact {V : Type} [Add V] (ports : List Nat) (hp : ∀ p, p ∈ ports → 0 < p) :
    Computes (V := V) ((ports.map fun p => p + 1).prod) copyOut
      (allgather ((ports.map fun p => p + 1).prod) ports)
      (AllgatherPost ((ports.map fun p => p + 1).prod)) := by
  apply allgather_partial _ (factor_pos ports) ports hp ?_ (Nat.le_refl _)
  rcases List.eq_nil_or_concat ports with h | ⟨ps, p, h⟩
  · rw [h]; trivial
  · rw [h, List.concat_eq_append]
    apply fits_of_exact _ 1 ps p (by omega)
    · rw [factor, List.map_append, List.prod_append, Nat.one_mul]
      apply Nat.mul_le_mul_left
      simp
    · exact hp p (by rw [h]; simp)

example : Computes (V := Nat) 30 copyOut (allgather 30 [1, 2, 4]) (AllgatherPost 30) :=
  allgather_exact [1, 2, 4] (by decide)

/-- C14 for the cyclic allgather. -/
theorem cyclic_matched_partial (N : Nat) (hN : 0 < N) (ports : List Nat)
    (hp : ∀ p, p ∈ ports → 0 < p) (hfit : Fits N 1 ports)
    (hreach : N ≤ (ports.map fun p => p + 1).prod) :
    Matched N fun t => (allgather N ports t).tail := by
  obtain ⟨_, h, _⟩ := allgather_exec (V := Nat) N hN ports hp hfit.suits hreach (fun _ _ => 0) (fun _ _ => 0)
  exact h.matched

example : Matched 11 fun t => (allgather 11 [2, 3, 4] t).tail :=
  cyclic_matched_partial 11 (by decide) [2, 3, 4] (by decide) (by simp [Fits]) (by decide)

/-- Five nodes, steps with one and three ports: in the second step node 4 sends two blocks to node
0, which receives only one. -/
theorem matched_violated : ¬Matched 5 fun t => (allgather 5 [1, 3] t).tail := by
  intro h
  have := h 1 4 0 _ _ (by decide) (by decide) (by decide) rfl rfl
  revert this
  decide

/-- C10 and C14 do not hold for all lists of port counts that reach the number of nodes: no
execution completes for five nodes and steps with one and three ports. -/
theorem allgather_violated :
    5 ≤ ([1, 3].map fun p => p + 1).prod ∧
      ¬Computes (V := Nat) 5 copyOut (allgather 5 [1, 3]) (AllgatherPost 5) := by
  refine ⟨by decide, fun h => ?_⟩
  obtain ⟨⟨out, h⟩, _⟩ := h (fun _ _ => 0) (fun _ _ => 0)
  exact matched_violated h.matched

end ExtMpi.Cyclic
