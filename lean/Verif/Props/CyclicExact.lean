import Verif.Props.Cyclic
/-! # The cyclic allgather is correct exactly for suitable port counts (C10, C14) -/
namespace ExtMpi.Cyclic
open Schedule Recursive

theorem le_sum_range (c : Nat → Nat) (k g L : Nat) (hg : g ≤ L) (h : ∀ n, n < g → k ≤ c n) :
    k * g ≤ ((List.range L).map c).sum := by
  induction L generalizing g with
  | zero =>
    have : g = 0 := by omega
    subst this
    simp
  | succ L ih =>
    rw [List.range_succ, List.map_append, List.sum_append]
    simp only [List.map_cons, List.map_nil, List.sum_cons, List.sum_nil, Nat.add_zero]
    by_cases hc : g ≤ L
    · have := ih g hc h
      omega
    · have e : g = L + 1 := by omega
      subst e
      have h1 := ih L (Nat.le_refl L) fun n hn => h n (by omega)
      have h2 := h L (by omega)
      rw [Nat.mul_add, Nat.mul_one]
      omega

/-- A step sends at least `k` times `g` lines if each of the first `g` lines is sent `k` times. -/
theorem le_sent (N gb p q t k g : Nat) (hg : g ≤ min (gb * (p + 1)) N)
    (h : ∀ n, n < g → k ≤ ((gatherSend N gb (min (gb * (p + 1)) N) gb p q n).filter fun e =>
      e.1 == (t : Int)).length) :
    k * g ≤ (sendIdx (gatherBlock N gb gb p q) t).length := by
  show k * g ≤ (sendIdx ((List.range (min (gb * (p + 1)) N)).map _) t).length
  rw [sendIdx_mk, List.length_flatMap]
  apply le_sum_range _ _ _ _ hg
  intro n hn
  rw [List.length_map]
  exact h n hn

/-- A node receives what `msgLen` says, whatever the ports are. -/
theorem received (N gb p q t : Nat) (hgb : 0 < gb) (hq : q < N) (ht : t < N) (hne : q ≠ t) :
    (recvIdx (gatherBlock N gb gb p t) q).length =
      msgLen gb (min (gb * (p + 1)) N) (dist N q t) := by
  obtain ⟨L, hL⟩ : ∃ L, L = min (gb * (p + 1)) N := ⟨_, rfl⟩
  show (recvIdx ((List.range (min (gb * (p + 1)) N)).map _) q).length = _
  rw [recvIdx_mk, ← hL]
  rw [filter_range_interval L _ (if msgLen gb L (dist N q t) = 0 then 0 else dist N q t)
    (msgLen gb L (dist N q t))]
  · rw [List.length_range']
  · by_cases h : msgLen gb L (dist N q t) = 0
    · rw [if_pos h]; omega
    · rw [if_neg h]
      unfold msgLen at h ⊢
      split at h
      · rename_i hc; rw [if_pos hc]; omega
      · exact absurd rfl h
  · intro x hx
    rw [recv_any N gb L q t x hgb hq ht hne (by omega) hx]
    by_cases h : msgLen gb L (dist N q t) = 0
    · rw [if_pos h]; omega
    · rw [if_neg h]

/-- Once a step has so many ports that the last partner is too far away, every sent line goes to all
partners but the last one. -/
theorem sent_to (N gb p q t n : Nat) (hover : N < gb * p) (hn : n < gb) (hng : n + gb < N) (i : Nat)
    (hi : i < p - 1) (ht : ((q : Int) + N - ((i : Int) + 1) * gb).tmod N = t) :
    ((((q : Int) + N - ((i : Int) + 1) * gb).tmod N), (n : Int)) ∈
      (gatherSend N gb (min (gb * (p + 1)) N) gb p q n).filter fun e => e.1 == (t : Int) := by
  have hexp : gb * (p + 1) = gb * p + gb := by ring
  have hL : min (gb * (p + 1)) N = N := by omega
  unfold gatherSend
  rw [hL, if_pos ⟨hn, hng⟩]
  have hsm : sendMax N gb p n = p - 1 := by
    unfold sendMax
    rw [if_pos (by rw [Nat.mul_comm]; omega)]
  rw [hsm, List.mem_filter]
  refine ⟨List.mem_map.2 ⟨i, List.mem_range.2 hi, rfl⟩, ?_⟩
  simp [ht]

theorem twice_sent (N gb p q t n : Nat) (hover : N < gb * p) (hn : n < gb) (hng : n + gb < N) (i j : Nat)
    (hij : i ≠ j) (hi : i < p - 1) (hj : j < p - 1)
    (hti : ((q : Int) + N - ((i : Int) + 1) * gb).tmod N = t)
    (htj : ((q : Int) + N - ((j : Int) + 1) * gb).tmod N = t) :
    2 ≤ ((gatherSend N gb (min (gb * (p + 1)) N) gb p q n).filter fun e => e.1 == (t : Int)).length := by
  have hexp : gb * (p + 1) = gb * p + gb := by ring
  have hL : min (gb * (p + 1)) N = N := by omega
  unfold gatherSend
  rw [hL, if_pos ⟨hn, hng⟩]
  have hsm : sendMax N gb p n = p - 1 := by
    unfold sendMax
    rw [if_pos (by rw [Nat.mul_comm]; omega)]
  rw [hsm, List.filter_map, List.length_map]
  have hsub : [i, j] ⊆ (List.range (p - 1)).filter ((fun e : Int × Int => e.1 == (t : Int)) ∘
      fun i : Nat => (((q : Int) + N - ((i : Int) + 1) * gb).tmod N, (n : Int))) := by
    intro x hx
    rw [List.mem_filter, List.mem_range]
    rcases List.mem_pair.1 hx with rfl | rfl
    · exact ⟨hi, by simp [hti]⟩
    · exact ⟨hj, by simp [htj]⟩
  exact (List.subperm_of_subset (by simp [hij]) hsub).length_le

/-- A step in which every node sends as much as the others expect is `Tight`. -/
theorem tight_of_matched (N gb p : Nat) (hgb : 0 < gb) (hlt : gb < N)
    (h : ∀ q t, q < N → t < N → q ≠ t → (sendIdx (gatherBlock N gb gb p q) t).length =
      (recvIdx (gatherBlock N gb gb p t) q).length) : Tight N gb p := by
  by_contra hno
  unfold Tight at hno
  push Not at hno
  obtain ⟨hover, h2, h3⟩ := hno
  have hp : 3 ≤ p := by
    by_contra hc
    have := h2 (by omega)
    omega
  have hexp : gb * (p + 1) = gb * p + gb := by ring
  have hL : min (gb * (p + 1)) N = N := by omega
  have tm : ∀ (a b : Nat), a < N → (b : Int) = a → (b : Int).tmod N = a := by
    intro a b ha hb
    have : b = a := by omega
    subst this
    rw [← Int.ofNat_tmod, Nat.mod_eq_of_lt ha]
  by_cases c1 : N < 2 * gb
  · -- the second partner does not expect anything
    have hm := h (N - 1) (2 * N - 1 - 2 * gb) (by omega) (by omega) (by omega)
    rw [received N gb p _ _ hgb (by omega) (by omega) (by omega), hL] at hm
    have hd : dist N (N - 1) (2 * N - 1 - 2 * gb) = 2 * gb - N := by
      unfold dist; rw [if_pos (by omega)]; omega
    have h0 : msgLen gb N (2 * gb - N) = 0 := by
      unfold msgLen; rw [if_neg (by omega)]
    rw [hd, h0] at hm
    have := le_sent N gb p (N - 1) (2 * N - 1 - 2 * gb) 1 1 (by omega) fun n hn =>
      List.length_pos_of_mem (sent_to N gb p (N - 1) (2 * N - 1 - 2 * gb) n (by omega) (by omega) (by omega)
        1 (by omega) (by
          have e : (((N - 1 : Nat) : Int) + N - (((1 : Nat) : Int) + 1) * gb) =
            ((2 * N - 1 - 2 * gb : Nat) : Int) := by omega
          rw [e]
          exact tm _ _ (by omega) rfl))
    omega
  · obtain ⟨K, hK⟩ : ∃ K, K = N / gb := ⟨_, rfl⟩
    have hdm := Nat.div_add_mod N gb
    rw [← hK] at hdm
    have hr := Nat.mod_lt N hgb
    have hK2 : 2 ≤ K := by
      rw [hK]; exact (Nat.le_div_iff_mul_le hgb).2 (by omega)
    have hKp : K < p := by
      by_contra hc
      have : gb * p ≤ gb * K := Nat.mul_le_mul_left gb (by omega)
      omega
    have hKg : gb * 2 ≤ gb * K := Nat.mul_le_mul_left gb hK2
    obtain ⟨M, hM⟩ : ∃ M, M = gb * K := ⟨_, rfl⟩
    rw [← hM] at hdm hKg
    by_cases c2 : N % gb = 0
    · -- the partner next to the node itself is addressed twice
      have hKp2 : K < p - 1 := by
        by_contra hc
        have : p - 1 = K := by omega
        rw [this, ← hM] at h3
        omega
      have hm := h (N - 1) (N - 1 - gb) (by omega) (by omega) (by omega)
      rw [received N gb p _ _ hgb (by omega) (by omega) (by omega), hL] at hm
      have hd : dist N (N - 1) (N - 1 - gb) = gb := by
        unfold dist; rw [if_pos (by omega)]; omega
      have h0 : msgLen gb N gb ≤ gb := by
        unfold msgLen; split <;> omega
      rw [hd] at hm
      have := le_sent N gb p (N - 1) (N - 1 - gb) 2 gb (by omega) fun n hn =>
        twice_sent N gb p (N - 1) (N - 1 - gb) n (by omega) (by omega) (by omega) 0 K (by omega) (by omega)
          hKp2 (by
            have e : (((N - 1 : Nat) : Int) + N - (((0 : Nat) : Int) + 1) * gb) =
              ((2 * N - 1 - gb : Nat) : Int) := by
              have : (((0 : Nat) : Int) + 1) * gb = (gb : Int) := by simp
              omega
            rw [e, ← Int.ofNat_tmod]
            have e2 : 2 * N - 1 - gb = (N - 1 - gb) + N := by omega
            rw [e2, Nat.add_mod_right, Nat.mod_eq_of_lt (by omega)]) (by
            have e : (((N - 1 : Nat) : Int) + N - ((K : Int) + 1) * gb) =
              ((N - 1 - gb : Nat) : Int) := by
              have e2 : ((K : Int) + 1) * gb = (M : Int) + gb := by
                rw [hM]; push_cast; ring
              omega
            rw [e]
            exact tm _ _ (by omega) rfl)
      omega
    · -- the last expected message is shorter than the one sent
      have hm := h (N - 1) (N - 1 - M) (by omega) (by omega) (by omega)
      rw [received N gb p _ _ hgb (by omega) (by omega) (by omega), hL] at hm
      have hd : dist N (N - 1) (N - 1 - M) = M := by
        unfold dist; rw [if_pos (by omega)]; omega
      have h0 : msgLen gb N M < gb := by
        unfold msgLen; split <;> omega
      rw [hd] at hm
      have := le_sent N gb p (N - 1) (N - 1 - M) 1 gb (by omega) fun n hn =>
        List.length_pos_of_mem (sent_to N gb p (N - 1) (N - 1 - M) n (by omega) (by omega) (by omega)
          (K - 1) (by omega) (by
            have e : (((N - 1 : Nat) : Int) + N - (((K - 1 : Nat) : Int) + 1) * gb) =
              ((2 * N - 1 - M : Nat) : Int) := by
              have e2 : (((K - 1 : Nat) : Int) + 1) * gb = (M : Int) := by
                have : (((K - 1 : Nat) : Int) + 1) = (K : Int) := by omega
                rw [this, hM]; push_cast; ring
              omega
            rw [e, ← Int.ofNat_tmod]
            have e2 : 2 * N - 1 - M = (N - 1 - M) + N := by omega
            rw [e2, Nat.add_mod_right, Nat.mod_eq_of_lt (by omega)]))
      omega

theorem suits_of_matched (N : Nat) (ps : List Nat) (gb : Nat) (hgb : 0 < gb) (last : Nat → Block)
    (h : Matched N fun t => (gatherSteps N t gb (min gb N) ps).1 ++ [last t]) : Suits N gb ps := by
  induction ps generalizing gb with
  | nil => trivial
  | cons p ps ih =>
    have hmin : min (min gb N * (p + 1)) N = min (gb * (p + 1)) N := by
      by_cases c : gb < N
      · rw [Nat.min_eq_left (by omega : gb ≤ N)]
      · rw [Nat.min_eq_right (by omega : N ≤ gb)]
        have : N * 1 ≤ N * (p + 1) := Nat.mul_le_mul_left N (by omega)
        have : gb * 1 ≤ gb * (p + 1) := Nat.mul_le_mul_left gb (by omega)
        omega
    refine ⟨fun c => tight_of_matched N gb p hgb c fun q t hq ht hne => ?_,
      ih (gb * (p + 1)) (Nat.mul_pos hgb (by omega)) fun m q t bq bt hq ht hne h1 h2 => ?_⟩
    · have hg : min gb N = gb := by omega
      have := h 0 q t (gatherBlock N gb gb p q) (gatherBlock N gb gb p t) hq ht hne
        (by simp [gatherSteps, hg]) (by simp [gatherSteps, hg])
      exact this
    · refine h (m + 1) q t bq bt hq ht hne ?_ ?_
      · simp only [gatherSteps, List.cons_append, List.getElem?_cons_succ, hmin]
        exact h1
      · simp only [gatherSteps, List.cons_append, List.getElem?_cons_succ, hmin]
        exact h2

/-- C14 for the cyclic allgather, for all port counts that reach the number of nodes: the messages match
exactly if every step that still lacks blocks is `Tight`. -/
theorem cyclic_matched_iff (N : Nat) (hN : 0 < N) (ports : List Nat) (hp : ∀ p, p ∈ ports → 0 < p)
    (hreach : N ≤ (ports.map fun p => p + 1).prod) :
    (Matched N fun t => (allgather N ports t).tail) ↔ Suits N 1 ports := by
  constructor
  · intro h
    have e : min 1 N = 1 := by omega
    exact suits_of_matched N ports 1 (by omega) (fun t => gatherLast N (gatherSteps N t 1 1 ports).2 t)
      (by rw [e]; exact h)
  · intro h
    obtain ⟨_, h, _⟩ := allgather_exec (V := Nat) N hN ports hp h hreach (fun _ _ => 0) (fun _ _ => 0)
    exact h.matched

/-- C10, for all port counts that reach the number of nodes: the cyclic allgather delivers every block
exactly if every step that still lacks blocks is `Tight`. Otherwise no execution completes, since
some message has another length than expected. -/
theorem allgather_iff {V : Type} [Add V] [Inhabited V] (N : Nat) (hN : 0 < N) (ports : List Nat)
    (hp : ∀ p, p ∈ ports → 0 < p) (hreach : N ≤ (ports.map fun p => p + 1).prod) :
    Computes (V := V) N copyOut (allgather N ports) (AllgatherPost N) ↔ Suits N 1 ports := by
  constructor
  · intro h
    obtain ⟨⟨_, h⟩, _⟩ := h (fun _ _ => default) (fun _ _ => default)
    exact (cyclic_matched_iff N hN ports hp hreach).1 h.matched
  · intro h
    exact allgather_suits N hN ports hp h hreach

/-- The last partner of the second step is the node itself, which does no harm. -/
example : Computes (V := Nat) 8 copyOut (allgather 8 [1, 5]) (AllgatherPost 8) :=
  (allgather_iff 8 (by decide) [1, 5] (by decide) (by decide)).2
    ⟨fun _ => .inl (by decide), fun _ => .inr (.inr (by decide)), trivial⟩

/-- Five nodes, two steps with one and two ports. -/
example : Computes (V := Nat) 5 copyOut (allgather 5 [2, 2]) (AllgatherPost 5) :=
  (allgather_iff 5 (by decide) [2, 2] (by decide) (by decide)).2
    ⟨fun _ => .inl (by decide), fun _ => .inr (.inl (by decide)), trivial⟩

/-- Seven nodes, steps with two and three ports. -/
example : ¬Computes (V := Nat) 7 copyOut (allgather 7 [2, 3]) (AllgatherPost 7) := by
  rw [allgather_iff 7 (by decide) [2, 3] (by decide) (by decide)]
  rintro ⟨_, h, _⟩
  have := h (by decide)
  unfold Tight at this
  omega

end ExtMpi.Cyclic
