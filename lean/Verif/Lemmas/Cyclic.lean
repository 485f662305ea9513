import Verif.Model.Cyclic
import Verif.Lemmas.RecursivePhases
import Verif.Lemmas.Matched
/-! The steps of the cyclic allgather. -/
namespace ExtMpi.Cyclic
open Schedule Recursive

/-- Distance from `t` to `q` on the ring of `N` nodes. -/
def dist (N q t : Nat) : Nat := if t ≤ q then q - t else q + N - t

theorem dist_lt (N q t : Nat) (hq : q < N) (ht : t < N) : dist N q t < N := by
  unfold dist; split <;> omega

theorem dist_pos (N q t : Nat) (ht : t < N) (hne : q ≠ t) : 0 < dist N q t := by
  unfold dist; split <;> omega

theorem ring_iff (N q t k : Nat) (hq : q < N) (ht : t < N) (hk : k < N) :
    (t + N + k) % N = q ↔ k = dist N q t := by
  unfold dist
  by_cases c : t + k < N
  · have e : t + N + k = t + k + N := by omega
    rw [e, Nat.add_mod_right, Nat.mod_eq_of_lt c]
    split <;> omega
  · have e : t + N + k = (t + k - N) + N + N := by omega
    rw [e, Nat.add_mod_right, Nat.add_mod_right, Nat.mod_eq_of_lt (by omega)]
    split <;> omega

theorem ring_back (N q t k : Nat) (hq : q < N) (ht : t < N) (hne : q ≠ t) (hk : k ≤ N) :
    ((q : Int) + N - (k : Int)).tmod N = t ↔ k = dist N q t := by
  have e : ((q : Int) + N - (k : Int)).tmod N = (((q + N - k) % N : Nat) : Int) := by
    have : (q : Int) + N - (k : Int) = ((q + N - k : Nat) : Int) := by omega
    rw [this]; rfl
  rw [e, Nat.cast_inj]
  unfold dist
  by_cases c : q + N - k < N
  · rw [Nat.mod_eq_of_lt c]; split <;> omega
  · by_cases c2 : q + N - k - N < N
    · rw [Nat.mod_eq_sub_mod (by omega), Nat.mod_eq_of_lt c2]; split <;> omega
    · omega

/-- Lines sent from `q` to `t` at ring distance `d`. -/
def msgLen (gb L d : Nat) : Nat := if d % gb = 0 ∧ gb ≤ d ∧ d < L then min gb (L - d) else 0

/-- The ports of a step suit the number of nodes: no partner is too far away, or there are at most two of them, or only the last one
is and it is the node itself. -/
def Tight (N gb p : Nat) : Prop := gb * p ≤ N ∨ p ≤ 2 ∧ gb < N ∨ gb * (p - 1) = N

instance (N gb p : Nat) : Decidable (Tight N gb p) := by unfold Tight; infer_instance

/-- No partner of such a step is farther away than the node itself. -/
theorem Tight.reach {N gb p L n i : Nat} (htight : Tight N gb p) (hL : L ≤ N) (h1 : n < gb ∧ n + gb < L)
    (hi : i < sendMax L gb p n) : gb * (i + 1) ≤ N := by
  unfold sendMax at hi
  rcases htight with h | ⟨h, h'⟩ | h
  · have : gb * (i + 1) ≤ gb * p := Nat.mul_le_mul_left gb (by split at hi <;> omega)
    omega
  · split at hi
    · have e : i = 0 := by omega
      subst e
      omega
    · have : gb * (i + 1) ≤ gb * p := Nat.mul_le_mul_left gb (by omega)
      rw [Nat.mul_comm p gb] at *
      omega
  · obtain ⟨r, rfl⟩ : ∃ r, p = r + 1 := ⟨p - 1, by
      rcases p with _ | p
      · simp at h; omega
      · omega⟩
    rw [Nat.add_sub_cancel] at h
    have e : gb * (r + 1) = gb * r + gb := by ring
    rw [if_pos (by rw [Nat.mul_comm, e]; omega), Nat.add_sub_cancel] at hi
    have : gb * (i + 1) ≤ gb * r := Nat.mul_le_mul_left gb (by omega)
    omega

theorem send_filter (N gb L p q t n x : Nat) (hgb : 0 < gb) (hp : 0 < p) (hq : q < N) (ht : t < N)
    (hne : q ≠ t) (hL : L = min (gb * (p + 1)) N) (htight : Tight N gb p) :
    ((gatherSend N gb L gb p q n).filter fun e => e.1 == (t : Int)).map (fun _ => x) =
      if n < msgLen gb L (dist N q t) then [x] else [] := by
  obtain ⟨d, hd⟩ : ∃ d, d = dist N q t := ⟨_, rfl⟩
  have hdN := dist_lt N q t hq ht
  have hd0 := dist_pos N q t ht hne
  rw [← hd] at hdN hd0 ⊢
  have hexp : gb * (p + 1) = gb * p + gb := by ring
  unfold gatherSend
  by_cases h1 : n < gb ∧ n + gb < L
  · rw [if_pos h1, List.filter_map, List.map_map]
    obtain ⟨sm, hsm⟩ : ∃ sm, sm = sendMax L gb p n := ⟨_, rfl⟩
    rw [← hsm]
    have hsmle : sm ≤ p := by rw [hsm]; unfold sendMax; split <;> omega
    have hfar : sm * gb ≤ N := by
      rcases htight with h | ⟨h, h'⟩ | h
      · have : sm * gb ≤ p * gb := Nat.mul_le_mul_right gb hsmle
        rw [Nat.mul_comm p gb] at this
        omega
      · unfold sendMax at hsm
        split at hsm
        · have : sm * gb ≤ 1 * gb := Nat.mul_le_mul_right gb (by omega)
          omega
        · rw [hsm]
          omega
      · obtain ⟨r, rfl⟩ : ∃ r, p = r + 1 := ⟨p - 1, by omega⟩
        rw [Nat.add_sub_cancel] at h
        have e : gb * (r + 1) = gb * r + gb := by ring
        unfold sendMax at hsm
        rw [if_pos (by rw [Nat.mul_comm, e]; omega)] at hsm
        rw [hsm, Nat.add_sub_cancel, Nat.mul_comm]
        omega
    have hP : ∀ i, i < sm → (((fun e : Int × Int => e.1 == (t : Int)) ∘
        fun i : Nat => (((q : Int) + N - ((i : Int) + 1) * gb).tmod N, (n : Int))) i = true ↔
        (i + 1) * gb = d) := by
      intro i hi
      have hk : (i + 1) * gb ≤ N := by
        have : (i + 1) * gb ≤ sm * gb := Nat.mul_le_mul_right gb (by omega)
        omega
      have := ring_back N q t ((i + 1) * gb) hq ht hne hk
      simp only [Function.comp, beq_iff_eq]
      rw [hd, ← this]
      simp
    by_cases hdiv : d % gb = 0
    · obtain ⟨k, hk⟩ : ∃ k, d = k * gb := ⟨d / gb, by
        have := Nat.div_add_mod d gb
        rw [hdiv, Nat.mul_comm] at this; omega⟩
      have hk0 : 0 < k := by
        rcases Nat.eq_zero_or_pos k with h | h
        · subst h; omega
        · exact h
      have hgd : gb ≤ d := by rw [hk]; exact Nat.le_mul_of_pos_left gb hk0
      by_cases hks : k ≤ sm
      · rw [filter_range_interval sm _ (k - 1) 1 (by omega)]
        · rw [if_pos]
          · rfl
          · unfold msgLen
            have hdL : d < L := by
              rw [hL]
              have : k * gb ≤ p * gb := Nat.mul_le_mul_right gb (by omega)
              rw [Nat.mul_comm p gb] at this
              omega
            rw [if_pos ⟨hdiv, hgd, hdL⟩]
            have : n < L - d := by
              unfold sendMax at hsm
              by_cases c : n + p * gb ≥ L
              · rw [if_pos c] at hsm
                have h2 : (k + 1) * gb ≤ p * gb := Nat.mul_le_mul_right gb (by omega)
                rw [Nat.mul_comm p gb, Nat.add_mul, Nat.one_mul] at h2
                rcases htight with h | ⟨h, h'⟩ | h
                · omega
                · have : k = 1 := by omega
                  subst this
                  omega
                · have h3 : k + 1 ≤ p - 1 := by
                    by_contra hc
                    have : gb * (p - 1) ≤ gb * k := Nat.mul_le_mul_left gb (by omega)
                    rw [Nat.mul_comm gb k] at this
                    omega
                  have h4 : (k + 1) * gb ≤ (p - 1) * gb := Nat.mul_le_mul_right gb h3
                  rw [Nat.add_mul, Nat.one_mul, Nat.mul_comm (p - 1) gb] at h4
                  omega
              · have h2 : k * gb ≤ p * gb := Nat.mul_le_mul_right gb (by omega)
                omega
            omega
        · intro i hi
          rw [hP i hi, hk]
          constructor
          · intro e
            have := Nat.eq_of_mul_eq_mul_right hgb e
            omega
          · intro e
            have : i + 1 = k := by omega
            rw [this]
      · have : (List.range sm).filter ((fun e : Int × Int => e.1 == (t : Int)) ∘
            fun i : Nat => (((q : Int) + N - ((i : Int) + 1) * gb).tmod N, (n : Int))) = [] := by
          rw [List.filter_eq_nil_iff]
          intro i hi
          have hi := List.mem_range.1 hi
          rw [hP i hi, hk]
          intro e
          have := Nat.eq_of_mul_eq_mul_right hgb e
          omega
        rw [this, if_neg]
        · rfl
        · unfold msgLen
          by_cases hdL : d < L
          · rw [if_pos ⟨hdiv, hgd, hdL⟩]
            unfold sendMax at hsm
            have hkp : k ≤ p := by
              by_contra hc
              have : (p + 1) * gb ≤ k * gb := Nat.mul_le_mul_right gb (by omega)
              rw [Nat.mul_comm] at this
              omega
            by_cases c : n + p * gb ≥ L
            · rw [if_pos c] at hsm
              have : k = p := by omega
              subst this
              omega
            · rw [if_neg c] at hsm; omega
          · rw [if_neg fun h => hdL h.2.2]; omega
    · have : (List.range sm).filter ((fun e : Int × Int => e.1 == (t : Int)) ∘
          fun i : Nat => (((q : Int) + N - ((i : Int) + 1) * gb).tmod N, (n : Int))) = [] := by
        rw [List.filter_eq_nil_iff]
        intro i hi
        rw [hP i (List.mem_range.1 hi)]
        intro e
        apply hdiv
        rw [← e, Nat.mul_mod_left]
      rw [this, if_neg]
      · rfl
      · unfold msgLen
        rw [if_neg fun h => hdiv h.1]; omega
  · rw [if_neg h1, if_neg]
    · rfl
    · unfold msgLen
      split <;> omega

theorem recv_any (N gb L q t n : Nat) (hgb : 0 < gb) (hq : q < N) (ht : t < N) (hne : q ≠ t)
    (hLN : L ≤ N) (hn : n < L) :
    ((gatherRecv N gb L t n).any fun e => e.1 == (q : Int)) = true ↔
      dist N q t ≤ n ∧ n < dist N q t + msgLen gb L (dist N q t) := by
  obtain ⟨d, hd⟩ : ∃ d, d = dist N q t := ⟨_, rfl⟩
  have hd0 := dist_pos N q t ht hne
  rw [← hd] at hd0 ⊢
  have hnd : n / gb * gb ≤ n := Nat.div_mul_le_self n gb
  unfold gatherRecv
  by_cases h1 : ¬(n < gb ∧ n + gb < L) ∧ n ≥ gb
  · rw [if_pos h1]
    simp only [List.any_cons, List.any_nil, Bool.or_false, beq_iff_eq, Nat.cast_inj]
    rw [ring_iff N q t _ hq ht (by omega), ← hd]
    have h2 := div_eq_iff' gb n (n / gb) hgb
    have h3 := h2.1 rfl
    constructor
    · intro e
      have hm : d % gb = 0 := by rw [← e, Nat.mul_mod_left]
      have hgd : gb ≤ d := by
        have : 1 ≤ n / gb := (Nat.one_le_div_iff hgb).2 h1.2
        rw [← e]; exact Nat.le_mul_of_pos_left gb this
      unfold msgLen
      rw [if_pos ⟨hm, hgd, by omega⟩]
      omega
    · rintro ⟨e1, e2⟩
      unfold msgLen at e2
      by_cases hc : d % gb = 0 ∧ gb ≤ d ∧ d < L
      · rw [if_pos hc] at e2
        have hdd := Nat.div_add_mod d gb
        rw [hc.1, Nat.mul_comm] at hdd
        have : n / gb = d / gb := (div_eq_iff' gb n (d / gb) hgb).2 ⟨by omega, by omega⟩
        rw [this]; omega
      · rw [if_neg hc] at e2; omega
  · rw [if_neg h1]
    simp only [List.any_nil, Bool.false_eq_true, false_iff]
    rintro ⟨e1, e2⟩
    unfold msgLen at e2
    by_cases hc : d % gb = 0 ∧ gb ≤ d ∧ d < L
    · rw [if_pos hc] at e2; omega
    · rw [if_neg hc] at e2; omega

theorem exchange (N gb L p : Nat) (hgb : 0 < gb) (hp : 0 < p) (hL : L = min (gb * (p + 1)) N)
    (htight : Tight N gb p) :
    Exchange N (fun t => Recursive.mk L fun line =>
        { frac := (t + line) % N, sendto := gatherSend N gb L gb p t line,
          recvfrom := gatherRecv N gb L t line })
      (fun _ _ => 0) (fun q t => if msgLen gb L (dist N q t) = 0 then 0 else dist N q t)
      (fun q t => msgLen gb L (dist N q t)) := by
  have hlen : ∀ d, msgLen gb L d ≠ 0 → d + msgLen gb L d ≤ L := by
    intro d h
    unfold msgLen at h ⊢
    split at h
    · rename_i hc; rw [if_pos hc]; omega
    · exact absurd rfl h
  have hlen2 : ∀ d, msgLen gb L d ≤ L := by
    intro d; unfold msgLen; split <;> omega
  constructor
  · intro q t hq ht hne
    show sendIdx ((List.range L).map _) t = _
    rw [sendIdx_mk]
    apply flatMap_range_interval
    · have := hlen2 (dist N q t); omega
    · intro x hx
      rw [send_filter N gb L p q t x x hgb hp hq ht hne hL htight]
      exact if_congr (by omega) rfl rfl
  · intro q t hq ht hne
    show recvIdx ((List.range L).map _) q = _
    rw [recvIdx_mk]
    apply filter_range_interval
    · by_cases h : msgLen gb L (dist N q t) = 0
      · rw [if_pos h]; omega
      · rw [if_neg h]; exact hlen _ h
    · intro x hx
      rw [recv_any N gb L q t x hgb hq ht hne (by omega) hx]
      by_cases h : msgLen gb L (dist N q t) = 0
      · rw [if_pos h]; omega
      · rw [if_neg h]
  · intro q t hq ht hne
    apply reduces_mk
    intro x hx e he
    simp only [gatherRecv] at he
    by_cases h1 : ¬(x < gb ∧ x + gb < L) ∧ x ≥ gb
    · rw [if_pos h1] at he
      rw [List.mem_singleton.1 he]
      simp only [ne_eq, Nat.cast_inj]
      have hnd : x / gb * gb ≤ x := Nat.div_mul_le_self x gb
      rw [ring_iff N t t _ ht ht (by omega)]
      have h0 : dist N t t = 0 := by unfold dist; simp
      rw [h0]
      have : 1 ≤ x / gb := (Nat.one_le_div_iff hgb).2 h1.2
      have := Nat.mul_pos this hgb
      omega
    · rw [if_neg h1] at he; cases he
  · intro q t k hq ht hne hk
    have h0 : msgLen gb L (dist N q t) ≠ 0 := by omega
    have h1 := hlen _ h0
    have h2 := hlen2 (dist N q t)
    show fracOf ((List.range L).map _) _ = fracOf ((List.range L).map _) _
    rw [fracOf_mk, fracOf_mk, if_pos (by omega), if_neg h0, if_pos (by omega)]
    congr 1
    show (q + (0 + k)) % N = (t + (dist N q t + k)) % N
    have hd := (ring_iff N q t (dist N q t) hq ht (dist_lt N q t hq ht)).2 rfl
    have e1 : t + (dist N q t + k) = (t + dist N q t) + k := by omega
    have e2 : (t + N + dist N q t) = (t + dist N q t) + N := by omega
    rw [e2, Nat.add_mod_right] at hd
    rw [e1, Nat.zero_add, Nat.add_mod (t + dist N q t), hd, ← Nat.mod_eq_of_lt hq, ← Nat.add_mod,
      Nat.mod_eq_of_lt hq]
  · intro q q' t n hq hq' ht hne hne' h1 h2 h3 h4
    have a1 : msgLen gb L (dist N q t) ≠ 0 := by
      intro h; rw [if_pos h] at h1 h2; omega
    have a2 : msgLen gb L (dist N q' t) ≠ 0 := by
      intro h; rw [if_pos h] at h3 h4; omega
    rw [if_neg a1] at h1 h2
    rw [if_neg a2] at h3 h4
    have hb := dist_lt N q t hq ht
    have hb' := dist_lt N q' t hq' ht
    have key : dist N q t = dist N q' t := by
      unfold msgLen at a1 a2 h2 h4
      by_cases c1 : dist N q t % gb = 0 ∧ gb ≤ dist N q t ∧ dist N q t < L
      · by_cases c2 : dist N q' t % gb = 0 ∧ gb ≤ dist N q' t ∧ dist N q' t < L
        · rw [if_pos c1] at h2
          rw [if_pos c2] at h4
          have d1 := Nat.div_add_mod (dist N q t) gb
          have d2 := Nat.div_add_mod (dist N q' t) gb
          rw [c1.1, Nat.mul_comm] at d1
          rw [c2.1, Nat.mul_comm] at d2
          have k1 : n / gb = dist N q t / gb := (div_eq_iff' gb n _ hgb).2 ⟨by omega, by omega⟩
          have k2 : n / gb = dist N q' t / gb := (div_eq_iff' gb n _ hgb).2 ⟨by omega, by omega⟩
          rw [← d1, ← d2, ← k1, ← k2]
        · rw [if_neg c2] at a2; exact absurd rfl a2
      · rw [if_neg c1] at a1; exact absurd rfl a1
    have r1 := (ring_iff N q t _ hq ht hb).2 rfl
    have r2 := (ring_iff N q' t _ hq' ht hb').2 rfl
    rw [key] at r1
    exact r1.symm.trans r2

/-- One step multiplies the number of gathered messages. -/
theorem step {V : Type} [Add V] (N gb L p : Nat) (hgb : 0 < gb) (hp : 0 < p)
    (hL : L = min (gb * (p + 1)) N) (htight : Tight N gb p) (X : Nat → V) (s : Nat → Nat → V)
    (hs : ∀ t n, t < N → n < min gb N → s t n = X ((t + n) % N)) :
    ∃ s' : Nat → Nat → V,
      (∀ t, t < N → nodeStep N (fun t => Recursive.mk L fun line =>
        { frac := (t + line) % N, sendto := gatherSend N gb L gb p t line,
          recvfrom := gatherRecv N gb L t line }) s t = some (s' t)) ∧
      ∀ t n, t < N → n < L → s' t n = X ((t + n) % N) := by
  obtain ⟨s', hs'⟩ := exists_state N s (fun t v => nodeStep N (fun t => Recursive.mk L fun line =>
        { frac := (t + line) % N, sendto := gatherSend N gb L gb p t line,
          recvfrom := gatherRecv N gb L t line }) s t = some v ∧
      ∀ n, n < L → v n = X ((t + n) % N)) (by
    intro t ht
    obtain ⟨v, h1, h2, h3⟩ := (exchange N gb L p hgb hp hL htight).recvAll s t ht
    refine ⟨v, ?_, ?_⟩
    · rw [nodeStep_ok _ _ _ _ (reduceOk_mk_nil L _ (fun _ => rfl) fun _ => rfl), h1]
      show some (copyReduceAll ((List.range L).map _) (reduceAll ((List.range L).map _) v)) = some v
      rw [copyReduceAll_mk _ _ _ fun n _ => rfl, reduceAll_mk _ _ _ fun n _ r hr => by cases hr]
      congr 1
      funext n
      split <;> rfl
    · intro n hn
      by_cases hown : n < gb
      · rw [h3]
        · exact hs t n ht (by omega)
        · intro q hq hne hc
          have a1 : msgLen gb L (dist N q t) ≠ 0 := by
            intro h; rw [if_pos h] at hc; omega
          rw [if_neg a1] at hc
          unfold msgLen at a1
          split at a1
          · omega
          · exact absurd rfl a1
      · obtain ⟨d, hd⟩ : ∃ d, d = n / gb * gb := ⟨_, rfl⟩
        have hdn : d ≤ n := by rw [hd]; exact Nat.div_mul_le_self n gb
        have hi := (div_eq_iff' gb n (n / gb) hgb).1 rfl
        have hgd : gb ≤ d := by
          have : 1 ≤ n / gb := (Nat.one_le_div_iff hgb).2 (by omega)
          rw [hd]; exact Nat.le_mul_of_pos_left gb this
        obtain ⟨q, hq⟩ : ∃ q, q = (t + N + d) % N := ⟨_, rfl⟩
        have hqN : q < N := by rw [hq]; exact Nat.mod_lt _ (by omega)
        have hdist : dist N q t = d := ((ring_iff N q t d hqN ht (by omega)).1 hq.symm).symm
        have hne : q ≠ t := by
          intro e
          rw [e] at hdist
          unfold dist at hdist
          rw [if_pos (Nat.le_refl t)] at hdist
          omega
        have hlen : msgLen gb L d = min gb (L - d) := by
          unfold msgLen
          rw [if_pos ⟨by rw [hd, Nat.mul_mod_left], hgd, by omega⟩]
        have hlen0 : msgLen gb L d ≠ 0 := by rw [hlen]; omega
        have h4 := h2 q n hqN hne (by rw [hdist, if_neg hlen0]; exact hdn)
          (by rw [hdist, if_neg hlen0, hlen]; omega)
        rw [hdist, if_neg hlen0, Nat.zero_add] at h4
        rw [h4, hs q (n - d) hqN (by omega), hq, Nat.mod_add_mod]
        congr 1
        have : t + N + d + (n - d) = t + n + N := by omega
        rw [this, Nat.add_mod_right])
  exact ⟨s', fun t ht => (hs' t ht).1, fun t n ht => (hs' t ht).2 n⟩

/-- After all messages have arrived further steps do nothing. -/
theorem idle {V : Type} [Add V] (N gb p : Nat) (hN : N ≤ gb) (s : Nat → Nat → V) (t : Nat) (ht : t < N) :
    nodeStep N (fun t => gatherBlock N gb N p t) s t = some (s t) := by
  have hL : min (N * (p + 1)) N = N := by
    have : N * 1 ≤ N * (p + 1) := Nat.mul_le_mul_left N (by omega)
    omega
  have e : (fun t => gatherBlock N gb N p t) = fun t => Recursive.mk N fun line =>
      { frac := (t + line) % N, sendto := gatherSend N gb N N p t line,
        recvfrom := gatherRecv N gb N t line } := by
    funext t
    unfold gatherBlock
    simp only [hL]
  have e2 : (fun t => Recursive.mk N fun line =>
      ({ frac := (t + line) % N, sendto := gatherSend N gb N N p t line,
         recvfrom := gatherRecv N gb N t line } : LineD)) =
      fun t => Recursive.mk N fun line => { frac := (t + line) % N } := by
    funext t
    unfold Recursive.mk
    apply List.map_congr_left
    intro line hl
    have hl := List.mem_range.1 hl
    have h1 : gatherSend N gb N N p t line = [] := by
      unfold gatherSend; rw [if_neg (by omega)]
    have h2 : gatherRecv N gb N t line = [] := by
      unfold gatherRecv; rw [if_neg (by omega)]
    rw [h1, h2]
  rw [e, e2]
  exact idle_step N N (fun t line => { frac := (t + line) % N }) (fun _ _ _ h => by cases h)
    (fun _ _ => rfl) (fun _ _ => rfl) (fun _ _ => rfl) s t ht

/-- Port counts that do not overshoot: as long as messages are missing no partner is farther away
than the number of nodes. -/
def Fits (N : Nat) : Nat → List Nat → Prop
  | _, [] => True
  | gb, p :: ps => (gb < N → gb * p ≤ N) ∧ Fits N (gb * (p + 1)) ps

/-- Every step that still lacks messages is `Tight`. -/
def Suits (N : Nat) : Nat → List Nat → Prop
  | _, [] => True
  | gb, p :: ps => (gb < N → Tight N gb p) ∧ Suits N (gb * (p + 1)) ps

theorem Fits.suits {N gb : Nat} {ps : List Nat} (h : Fits N gb ps) : Suits N gb ps := by
  induction ps generalizing gb with
  | nil => trivial
  | cons p ps ih => exact ⟨fun c => .inl (h.1 c), ih h.2⟩

theorem phase {V : Type} [Add V] (N : Nat) (X : Nat → V) (ps : List Nat) (hp : ∀ p, p ∈ ps → 0 < p)
    (gb : Nat) (hgb : 0 < gb) (hfit : Suits N gb ps) (s : Nat → Nat → V)
    (hs : ∀ t n, t < N → n < min gb N → s t n = X ((t + n) % N)) :
    ∃ s', Run N (fun t => (gatherSteps N t gb (min gb N) ps).1) s s' ∧
      (∀ t n, t < N → n < min (gb * factor ps) N → s' t n = X ((t + n) % N)) ∧
      ∀ t, (gatherSteps N t gb (min gb N) ps).2 = min (gb * factor ps) N := by
  induction ps generalizing gb s with
  | nil =>
    refine ⟨s, .done fun _ _ => rfl, ?_, ?_⟩
    · simpa [factor] using hs
    · intro t; simp [gatherSteps, factor]
  | cons p ps ih =>
    obtain ⟨hf1, hf2⟩ := hfit
    have hpp := hp p List.mem_cons_self
    have hgb' : 0 < gb * (p + 1) := Nat.mul_pos hgb (by omega)
    have hge : gb ≤ gb * (p + 1) := Nat.le_mul_of_pos_right gb (by omega)
    have hmin : min (min gb N * (p + 1)) N = min (gb * (p + 1)) N := by
      by_cases c : gb < N
      · rw [Nat.min_eq_left (by omega : gb ≤ N)]
      · rw [Nat.min_eq_right (by omega : N ≤ gb)]
        have : N * 1 ≤ N * (p + 1) := Nat.mul_le_mul_left N (by omega)
        omega
    have hstep : ∃ s1 : Nat → Nat → V, (∀ t, t < N →
        nodeStep N (fun t => gatherBlock N gb (min gb N) p t) s t = some (s1 t)) ∧
        ∀ t n, t < N → n < min (gb * (p + 1)) N → s1 t n = X ((t + n) % N) := by
      by_cases c : gb < N
      · obtain ⟨s1, h1, h2⟩ := step N gb (min (gb * (p + 1)) N) p hgb hpp rfl (hf1 c) X s hs
        refine ⟨s1, ?_, h2⟩
        rw [Nat.min_eq_left (by omega : gb ≤ N)]
        exact h1
      · refine ⟨s, ?_, ?_⟩
        · rw [Nat.min_eq_right (by omega : N ≤ gb)]
          exact fun t ht => idle N gb p (by omega) s t ht
        · intro t n ht hn
          exact hs t n ht (by omega)
    obtain ⟨s1, h1, h2⟩ := hstep
    obtain ⟨s2, h3, h4, h5⟩ := ih (fun q hq => hp q (List.mem_cons_of_mem _ hq)) (gb * (p + 1)) hgb' hf2 s1 h2
    have hfac : gb * factor (p :: ps) = gb * (p + 1) * factor ps := by rw [factor_cons, Nat.mul_assoc]
    refine ⟨s2, .step (fun t => gatherBlock N gb (min gb N) p t)
      (fun t => (gatherSteps N t (gb * (p + 1)) (min (gb * (p + 1)) N) ps).1) s1 (fun t _ => ?_) h1 h3, ?_, ?_⟩
    · rw [gatherSteps]
      simp only [hmin]
    · rw [hfac]; exact h4
    · intro t
      rw [gatherSteps, hfac]
      simp only [hmin]
      exact h5 t

end ExtMpi.Cyclic
