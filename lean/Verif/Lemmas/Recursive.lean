import Verif.Lemmas.Partner
import Mathlib.Tactic.Abel
/-! Closed forms of the steps of the recursive algorithms. -/
namespace ExtMpi.Recursive
open Schedule

theorem exists_state {V : Type} (N : Nat) (s : Nat → Nat → V) (P : Nat → (Nat → V) → Prop)
    (h : ∀ t, t < N → ∃ v, P t v) : ∃ s' : Nat → Nat → V, ∀ t, t < N → P t (s' t) := by
  classical
  exact ⟨fun t => if h' : t < N then (h t h').choose else s t, fun t ht => by
    simp only [dif_pos ht]; exact (h t ht).choose_spec⟩

theorem reduces_mk (L : Nat) (f : Nat → LineD) (node q : Nat)
    (h : ∀ x, x < L → ∀ e, e ∈ (f x).recvfrom → e.1 ≠ (node : Int)) :
    reduces ((List.range L).map f) node q = false := by
  unfold reduces
  cases hl : (recvIdx ((List.range L).map f) q).getLast? with
  | none => rfl
  | some k =>
    have hk : k ∈ recvIdx ((List.range L).map f) q := List.mem_of_getLast? hl
    rw [recvIdx_mk] at hk
    have hk := List.mem_range.1 (List.mem_filter.1 hk).1
    have e : ((List.range L).map f)[k]? = some (f k) := by simp [hk]
    simp only [e, Option.bind_some]
    cases hr : (f k).recvfrom with
    | nil => rfl
    | cons a as =>
      have := h k hk a (by rw [hr]; exact List.mem_cons_self)
      simpa using this

theorem block_lt {g lb n : Nat} (_ : 0 < g) (hd : g ∣ lb) (hn : n < lb) : n / g * g + g ≤ lb := by
  obtain ⟨k, rfl⟩ := hd
  have : n / g < k := Nat.div_lt_of_lt_mul hn
  calc n / g * g + g = (n / g + 1) * g := by ring
    _ ≤ k * g := Nat.mul_le_mul_right g this
    _ = g * k := Nat.mul_comm _ _

/-! ## Gather steps -/

/-- A gather step on the lines from position `off`. -/
structure GatherLike (lb off L g p : Nat) (f : Nat → Nat → LineD) : Prop where
  send : ∀ t x, x < L → (f t x).sendto =
    if off ≤ x ∧ x < off + lb then gatherSend g (g * (p + 1)) p t (x - off) else []
  recv : ∀ t x, x < L → (f t x).recvfrom =
    if off ≤ x ∧ x < off + lb then gatherRecv g (g * (p + 1)) t (x - off) else []
  frac : ∀ t x, off ≤ x → x < off + lb → (f t x).frac = x - off
  red : ∀ t x, (f t x).reducefrom = []
  cred : ∀ t x, (f t x).copyreducefrom = []
  room : off + lb ≤ L
  pos : 0 < g
  dvd : g * (p + 1) ∣ lb

theorem gather_send_filter (g p q t n x : Nat) (hg : 0 < g) (hqt : q ≠ t) :
    ((gatherSend g (g * (p + 1)) p q n).filter fun e => e.1 == (t : Int)).map (fun _ => x) =
      if n / g = q / g ∧ Rel g (p + 1) q t then [x] else [] := by
  unfold gatherSend
  by_cases h1 : n / g = q / g
  · have h2 : n / (g * (p + 1)) = q / (g * (p + 1)) := by
      rw [← Nat.div_div_eq_div_mul, ← Nat.div_div_eq_div_mul, h1]
    rw [if_pos ⟨h2, h1⟩, partner_filter g p q t _ x hg]
    by_cases h3 : Rel g (p + 1) q t
    · rw [if_pos ⟨hqt.symm, h3.symm⟩, if_pos ⟨h1, h3⟩]
    · rw [if_neg fun h => h3 h.2.symm, if_neg fun h => h3 h.2]
  · rw [if_neg fun h => h1 h.2, if_neg fun h => h1 h.1]; rfl

theorem gather_recv_any (g p q t n : Nat) (hg : 0 < g) (hqt : q ≠ t) :
    ((gatherRecv g (g * (p + 1)) t n).any fun e => e.1 == (q : Int)) = true ↔
      n / g = q / g ∧ Rel g (p + 1) q t := by
  unfold gatherRecv
  by_cases h1 : n / (g * (p + 1)) = t / (g * (p + 1)) ∧ n / g ≠ t / g
  · rw [if_pos h1, partner_index g (p + 1) t n hg (by omega) h1.1 h1.2]
    simp only [List.any_cons, List.any_nil, Bool.or_false, beq_iff_eq, Nat.cast_inj]
    constructor
    · intro e
      have ed : q / g = n / g := by
        rw [← e, Nat.add_comm, Nat.add_mul_div_right _ _ hg, Nat.div_eq_of_lt (Nat.mod_lt _ hg),
          Nat.zero_add]
      have em : q % g = t % g := by
        rw [← e, Nat.add_comm, Nat.add_mul_mod_self_right, Nat.mod_mod]
      refine ⟨ed.symm, ?_, em⟩
      rw [← h1.1, ← Nat.div_div_eq_div_mul, ← Nat.div_div_eq_div_mul, ed]
    · rintro ⟨e1, _, e2⟩
      rw [e1, ← e2, Nat.mul_comm]
      exact Nat.div_add_mod q g
  · rw [if_neg h1]
    simp only [List.any_nil, Bool.false_eq_true, false_iff]
    rintro ⟨e1, e2, e3⟩
    apply h1
    refine ⟨?_, ?_⟩
    · rw [← e2, ← Nat.div_div_eq_div_mul, ← Nat.div_div_eq_div_mul, e1]
    · rw [e1]
      exact fun e => hqt (eq_of_digits g q t e e3)

theorem GatherLike.exchange {lb off L g p : Nat} {f : Nat → Nat → LineD} (h : GatherLike lb off L g p f) :
    Exchange lb (fun t => Recursive.mk L (f t)) (fun q _ => off + q / g * g) (fun q _ => off + q / g * g)
      (fun q t => if Rel g (p + 1) q t then g else 0) := by
  have hg := h.pos
  have hroom := h.room
  have hgl : g ∣ lb := Nat.dvd_trans ⟨p + 1, rfl⟩ h.dvd
  constructor
  · intro q t hq ht hne
    have hb := block_lt hg hgl hq
    show sendIdx ((List.range L).map (f q)) t = _
    rw [sendIdx_mk]
    apply flatMap_range_interval
    · split <;> omega
    · intro x hx
      rw [h.send q x hx]
      have hi := div_eq_iff' g (x - off) (q / g) hg
      by_cases hx2 : off ≤ x ∧ x < off + lb
      · rw [if_pos hx2, gather_send_filter g p q t _ x hg hne]
        by_cases hr : Rel g (p + 1) q t
        · simp only [hr, and_true, if_true]
          exact if_congr (hi.trans (by omega)) rfl rfl
        · simp only [hr, and_false, if_false]
          rw [if_neg (by omega)]
      · rw [if_neg hx2, if_neg]
        · rfl
        · split <;> omega
  · intro q t hq ht hne
    have hb := block_lt hg hgl hq
    show recvIdx ((List.range L).map (f t)) q = _
    rw [recvIdx_mk]
    apply filter_range_interval
    · split <;> omega
    · intro x hx
      rw [h.recv t x hx]
      have hi := div_eq_iff' g (x - off) (q / g) hg
      by_cases hx2 : off ≤ x ∧ x < off + lb
      · rw [if_pos hx2, gather_recv_any g p q t _ hg hne, hi]
        by_cases hr : Rel g (p + 1) q t
        · simp only [hr, and_true, if_true]; omega
        · rw [if_neg hr]
          constructor
          · exact fun h => absurd h.2 hr
          · intro h; omega
      · rw [if_neg hx2]
        simp only [List.any_nil, Bool.false_eq_true, false_iff]
        split <;> omega
  · intro q t hq ht hne
    apply reduces_mk
    intro x hx e he
    rw [h.recv t x hx] at he
    by_cases hx2 : off ≤ x ∧ x < off + lb
    · rw [if_pos hx2] at he
      unfold gatherRecv at he
      by_cases h1 : (x - off) / (g * (p + 1)) = t / (g * (p + 1)) ∧ (x - off) / g ≠ t / g
      · rw [if_pos h1, partner_index g (p + 1) t _ hg (by omega) h1.1 h1.2] at he
        rw [List.mem_singleton.1 he]
        simp only [ne_eq, Nat.cast_inj]
        intro e
        apply h1.2
        conv_rhs => rw [← e]
        rw [Nat.add_comm, Nat.add_mul_div_right _ _ hg, Nat.div_eq_of_lt (Nat.mod_lt _ hg), Nat.zero_add]
      · rw [if_neg h1] at he; cases he
    · rw [if_neg hx2] at he; cases he
  · intro q t k hq ht hne hk
    have hb := block_lt hg hgl hq
    have hk2 : k < g := by
      by_cases hr : Rel g (p + 1) q t
      · rw [if_pos hr] at hk; exact hk
      · rw [if_neg hr] at hk; omega
    show fracOf ((List.range L).map (f q)) _ = fracOf ((List.range L).map (f t)) _
    rw [fracOf_mk, fracOf_mk, if_pos (by omega), if_pos (by omega), h.frac q _ (by omega) (by omega),
      h.frac t _ (by omega) (by omega)]
  · intro q q' t n hq hq' ht hne hne' h1 h2 h3 h4
    have hr : Rel g (p + 1) q t := by
      by_contra hr; rw [if_neg hr] at h2; omega
    have hr' : Rel g (p + 1) q' t := by
      by_contra hr; rw [if_neg hr] at h4; omega
    rw [if_pos hr] at h2
    rw [if_pos hr'] at h4
    have e1 := (div_eq_iff' g (n - off) (q / g) hg).2 ⟨by omega, by omega⟩
    have e2 := (div_eq_iff' g (n - off) (q' / g) hg).2 ⟨by omega, by omega⟩
    exact eq_of_digits g q q' (e1.symm.trans e2) (hr.2.trans hr'.2.symm)

/-- A gather step extends the gathered group. -/
theorem GatherLike.step {V : Type} [Add V] {lb off L g p : Nat} {f : Nat → Nat → LineD}
    (h : GatherLike lb off L g p f) (s : Nat → Nat → V) (T : Nat → V)
    (hs : ∀ t n, t < lb → n < lb → n / g = t / g → s t (off + n) = T n) :
    ∃ s' : Nat → Nat → V, (∀ t, t < lb → nodeStep lb (fun t => Recursive.mk L (f t)) s t = some (s' t)) ∧
      ∀ t n, t < lb → n < lb → n / (g * (p + 1)) = t / (g * (p + 1)) → s' t (off + n) = T n := by
  have hg := h.pos
  have hgl : g ∣ lb := Nat.dvd_trans ⟨p + 1, rfl⟩ h.dvd
  obtain ⟨s', hs'⟩ := exists_state lb s (fun t v => nodeStep lb (fun t => Recursive.mk L (f t)) s t = some v ∧
      ∀ n, n < lb → n / (g * (p + 1)) = t / (g * (p + 1)) → v (off + n) = T n) (by
    intro t ht
    obtain ⟨v, h1, h2, h3⟩ := h.exchange.recvAll s t ht
    refine ⟨v, ?_, ?_⟩
    · rw [nodeStep_ok _ _ _ _ (reduceOk_mk_nil L (f t) (h.red t) (h.cred t)), h1]
      show some (copyReduceAll ((List.range L).map (f t)) (reduceAll ((List.range L).map (f t)) v)) = some v
      rw [copyReduceAll_mk _ _ _ fun n _ => h.cred t n, reduceAll_mk _ _ _ fun n _ r hr => by
        rw [h.red t n] at hr; cases hr]
      congr 1
      funext n
      rw [h.red t n]
      split <;> rfl
    · intro n hn hgrp
      by_cases hown : n / g = t / g
      · rw [h3]
        · exact hs t n ht hn hown
        · intro q hq hne hc
          have hr : Rel g (p + 1) q t := by
            by_contra hr; rw [if_neg hr] at hc; omega
          rw [if_pos hr] at hc
          have e1 := (div_eq_iff' g n (q / g) hg).2 ⟨by omega, by omega⟩
          exact hne (eq_of_digits g q t (e1.symm.trans hown) hr.2)
      · have hb := block_lt hg hgl hn
        have hmod : t % g < g := Nat.mod_lt _ hg
        obtain ⟨q, hqe⟩ : ∃ q, q = n / g * g + t % g := ⟨_, rfl⟩
        have ed : q / g = n / g := by
          rw [hqe, Nat.add_comm, Nat.add_mul_div_right _ _ hg, Nat.div_eq_of_lt hmod, Nat.zero_add]
        have em : q % g = t % g := by
          rw [hqe, Nat.add_comm, Nat.add_mul_mod_self_right, Nat.mod_mod]
        have hq : q < lb := by omega
        have hrel : Rel g (p + 1) q t := by
          refine ⟨?_, em⟩
          rw [← hgrp, ← Nat.div_div_eq_div_mul, ← Nat.div_div_eq_div_mul, ed]
        have hne : q ≠ t := by
          intro e; rw [e] at ed; exact hown ed.symm
        have hi := (div_eq_iff' g n (q / g) hg).1 ed.symm
        rw [h2 q (off + n) hq hne (by omega) (by rw [if_pos hrel]; omega)]
        have : off + q / g * g + (off + n - (off + q / g * g)) = off + n := by omega
        rw [this]
        exact hs q n hq hn ed.symm)
  exact ⟨s', fun t ht => (hs' t ht).1, fun t n ht => (hs' t ht).2 n⟩

/-! ## Reduction steps -/

/-- Every node receives the lines it owns (an interval of length `w` from `a t`) from its partners
into the regions `ρ` and sums them, together with its own region `sr`, into region `ar`. -/
structure ReduceLike (lb K sr ar g p w : Nat) (a ρ σ : Nat → Nat) (f : Nat → Nat → LineD) : Prop where
  send : ∀ q t x : Nat, q < lb → t < lb → q ≠ t → x < K * lb →
    ((f q x).sendto.filter fun e => e.1 == (t : Int)).map (fun _ => x) =
      if Rel g (p + 1) q t ∧ x / lb = sr ∧ a t ≤ x % lb ∧ x % lb < a t + w then [x] else []
  recv : ∀ q t x : Nat, t < lb → x < K * lb →
    (((f t x).recvfrom.any fun e => e.1 == (q : Int)) = true ↔
      ∃ i, i < p ∧ x / lb = ρ i ∧ a t ≤ x % lb ∧ x % lb < a t + w ∧ partner g (g * (p + 1)) t i = q)
  frac : ∀ t x, (f t x).frac = x % lb
  red : ∀ t x, t < lb → x < K * lb → (f t x).reducefrom =
    if x / lb = ar ∧ a t ≤ x % lb ∧ x % lb < a t + w then
      (List.range p).map fun i => σ i * lb + x % lb else []
  cred : ∀ t x, (f t x).copyreducefrom = []
  hsr : sr < K
  har : ar < K
  hρ : ∀ i, i < p → ρ i < K ∧ ρ i ≠ sr
  hσ : ∀ i, i < p → σ i < K ∧ σ i ≠ ar
  inj : ∀ i j, i < p → j < p → ρ i = ρ j → i = j
  own : ∀ t, t < lb → a t + w ≤ lb
  pos : 0 < g
  dvd : g * (p + 1) ∣ lb

theorem pos_iff (lb r a w x : Nat) (hb : a + w ≤ lb) (hlb : 0 < lb) :
    (x / lb = r ∧ a ≤ x % lb ∧ x % lb < a + w) ↔ r * lb + a ≤ x ∧ x < r * lb + a + w := by
  constructor
  · rintro ⟨h1, h2, h3⟩
    have := Nat.div_add_mod x lb
    rw [h1, Nat.mul_comm] at this
    omega
  · rintro ⟨h1, h2⟩
    have hx : x / lb = r := (div_eq_iff' lb x r hlb).2 ⟨by omega, by omega⟩
    have := Nat.div_add_mod x lb
    rw [hx, Nat.mul_comm] at this
    exact ⟨hx, by omega, by omega⟩

theorem region_div (lb r n : Nat) (hn : n < lb) : (r * lb + n) / lb = r := by
  rw [Nat.add_comm, Nat.add_mul_div_right _ _ (by omega), Nat.div_eq_of_lt hn, Nat.zero_add]

theorem region_mod (lb r n : Nat) (hn : n < lb) : (r * lb + n) % lb = n := by
  rw [Nat.add_comm, Nat.add_mul_mod_self_right, Nat.mod_eq_of_lt hn]

theorem region_lt (lb K r n : Nat) (hn : n < lb) (hr : r < K) : r * lb + n < K * lb := by
  have : (r + 1) * lb ≤ K * lb := Nat.mul_le_mul_right lb hr
  have e : (r + 1) * lb = r * lb + lb := by ring
  omega

theorem partner_lt (g D lb t i : Nat) (hg : 0 < g) (hD : 0 < D) (hd : g * D ∣ lb) (ht : t < lb) :
    partner g (g * D) t i < lb := by
  have h1 := partner_group g D t i hg hD
  have h2 := block_lt (Nat.mul_pos hg hD) hd ht
  rw [← h1] at h2
  have h3 := (div_eq_iff' (g * D) (partner g (g * D) t i) _ (Nat.mul_pos hg hD)).1 rfl
  omega

theorem ReduceLike.exchange {lb K sr ar g p w : Nat} {a ρ σ : Nat → Nat} {f : Nat → Nat → LineD}
    (h : ReduceLike lb K sr ar g p w a ρ σ f) :
    Exchange lb (fun t => Recursive.mk (K * lb) (f t))
      (fun q t => if Rel g (p + 1) q t then sr * lb + a t else 0)
      (fun q t => if Rel g (p + 1) q t then ρ (pidx g (p + 1) t q) * lb + a t else 0)
      (fun q t => if Rel g (p + 1) q t then w else 0) := by
  have hg := h.pos
  have hle : ∀ r, r < K → r * lb + lb ≤ K * lb := by
    intro r hr
    have : (r + 1) * lb ≤ K * lb := Nat.mul_le_mul_right lb hr
    have e : (r + 1) * lb = r * lb + lb := by ring
    omega
  have hpi : ∀ q t, q ≠ t → Rel g (p + 1) q t → pidx g (p + 1) t q < p := by
    intro q t hne hr
    have := pidx_lt g (p + 1) t q (by omega) hne hr
    omega
  constructor
  · intro q t hq ht hne
    show sendIdx ((List.range (K * lb)).map (f q)) t = _
    rw [sendIdx_mk]
    have hown := h.own t ht
    by_cases hr : Rel g (p + 1) q t
    · rw [if_pos hr, if_pos hr]
      apply flatMap_range_interval
      · have := hle sr h.hsr; omega
      · intro x hx
        rw [h.send q t x hq ht hne hx]
        exact if_congr (by rw [pos_iff lb sr (a t) w x hown (by omega)]; simp [hr]) rfl rfl
    · rw [if_neg hr, if_neg hr]
      apply flatMap_range_interval
      · omega
      · intro x hx
        rw [h.send q t x hq ht hne hx, if_neg fun h => hr h.1, if_neg (by omega)]
  · intro q t hq ht hne
    show recvIdx ((List.range (K * lb)).map (f t)) q = _
    rw [recvIdx_mk]
    have hown := h.own t ht
    by_cases hr : Rel g (p + 1) q t
    · rw [if_pos hr, if_pos hr]
      apply filter_range_interval
      · have := hle _ (h.hρ _ (hpi q t hne hr)).1; omega
      · intro x hx
        rw [h.recv q t x ht hx, ← pos_iff lb _ (a t) w x hown (by omega)]
        constructor
        · rintro ⟨i, hi, h1, h2, h3, h4⟩
          rw [((partner_iff g (p + 1) t q i hg (by omega)).1 h4).2.2] at h1
          exact ⟨h1, h2, h3⟩
        · rintro ⟨h1, h2, h3⟩
          exact ⟨_, hpi q t hne hr, h1, h2, h3, partner_pidx g (p + 1) t q hg (by omega) hne hr⟩
    · rw [if_neg hr, if_neg hr]
      apply filter_range_interval
      · omega
      · intro x hx
        rw [h.recv q t x ht hx]
        constructor
        · rintro ⟨i, hi, _, _, _, h4⟩
          exact absurd ((partner_iff g (p + 1) t q i hg (by omega)).1 h4).2.1 hr
        · intro h; omega
  · intro q t hq ht hne
    apply reduces_mk
    intro x hx e he ee
    have : ((f t x).recvfrom.any fun e => e.1 == (t : Int)) = true := by
      rw [List.any_eq_true]; exact ⟨e, he, by simpa using ee⟩
    rw [h.recv t t x ht hx] at this
    obtain ⟨i, hi, _, _, _, h4⟩ := this
    exact ((partner_iff g (p + 1) t t i hg (by omega)).1 h4).1 rfl
  · intro q t k hq ht hne hk
    have hr : Rel g (p + 1) q t := by
      by_contra hr; rw [if_neg hr] at hk; omega
    rw [if_pos hr] at hk
    rw [if_pos hr, if_pos hr]
    have hown := h.own t ht
    have hp := (h.hρ _ (hpi q t hne hr)).1
    show fracOf ((List.range _).map (f q)) _ = fracOf ((List.range _).map (f t)) _
    rw [Nat.add_assoc, Nat.add_assoc, fracOf_mk, fracOf_mk, if_pos (region_lt lb K _ _ (by omega) h.hsr),
      if_pos (region_lt lb K _ _ (by omega) hp), h.frac, h.frac, region_mod _ _ _ (by omega),
      region_mod _ _ _ (by omega)]
  · intro q q' t n hq hq' ht hne hne' h1 h2 h3 h4
    have hown := h.own t ht
    have hr : Rel g (p + 1) q t := by
      by_contra hr; rw [if_neg hr] at h2; rw [if_neg hr] at h1 h2; omega
    have hr' : Rel g (p + 1) q' t := by
      by_contra hr; rw [if_neg hr] at h4; rw [if_neg hr] at h3 h4; omega
    rw [if_pos hr] at h1
    rw [if_pos hr, if_pos hr] at h2
    rw [if_pos hr'] at h3
    rw [if_pos hr', if_pos hr'] at h4
    have e1 := (pos_iff lb _ (a t) w n hown (by omega)).2 ⟨h1, h2⟩
    have e2 := (pos_iff lb _ (a t) w n hown (by omega)).2 ⟨h3, h4⟩
    have := h.inj _ _ (hpi q t hne hr) (hpi q' t hne' hr') (e1.1.symm.trans e2.1)
    have p1 := partner_pidx g (p + 1) t q hg (by omega) hne hr
    have p2 := partner_pidx g (p + 1) t q' hg (by omega) hne' hr'
    rw [this] at p1
    exact p1.symm.trans p2

/-- A reduction step adds the values of the partners. -/
theorem ReduceLike.step {V : Type} [AddCommMonoid V] {lb K sr ar g p w : Nat} {a ρ σ : Nat → Nat}
    {f : Nat → Nat → LineD} (h : ReduceLike lb K sr ar g p w a ρ σ f)
    (hsum : ∀ val : Nat → V, val ar + ∑ i ∈ Finset.range p, val (σ i) =
      val sr + ∑ i ∈ Finset.range p, val (ρ i)) (s : Nat → Nat → V) :
    ∃ s' : Nat → Nat → V,
      (∀ t, t < lb → nodeStep lb (fun t => Recursive.mk (K * lb) (f t)) s t = some (s' t)) ∧
      ∀ t n, t < lb → a t ≤ n → n < a t + w → s' t (ar * lb + n) =
        s t (sr * lb + n) + ∑ i ∈ Finset.range p, s (partner g (g * (p + 1)) t i) (sr * lb + n) := by
  have hg := h.pos
  obtain ⟨s', hs'⟩ := exists_state lb s (fun t v =>
      nodeStep lb (fun t => Recursive.mk (K * lb) (f t)) s t = some v ∧
      ∀ n, a t ≤ n → n < a t + w → v (ar * lb + n) =
        s t (sr * lb + n) + ∑ i ∈ Finset.range p, s (partner g (g * (p + 1)) t i) (sr * lb + n)) (by
    intro t ht
    obtain ⟨v, h1, h2, h3⟩ := h.exchange.recvAll s t ht
    have hown := h.own t ht
    refine ⟨fun n => if n < K * lb then (f t n).reducefrom.foldl (fun a r => a + v r) (v n) else v n,
      ?_, ?_⟩
    · have hok : reduceOk (Recursive.mk (K * lb) (f t)) = true := by
        apply reduceOk_mk
        intro n hn r hr
        rw [h.cred t n, List.append_nil, h.red t n ht hn] at hr
        by_cases hc : n / lb = ar ∧ a t ≤ n % lb ∧ n % lb < a t + w
        · rw [if_pos hc] at hr
          obtain ⟨i, hi, rfl⟩ := List.mem_map.1 hr
          have hm : n % lb < lb := Nat.mod_lt _ (by omega)
          have hσ := h.hσ i (List.mem_range.1 hi)
          refine ⟨fun e => hσ.2 ?_, region_lt lb K _ _ hm hσ.1, ?_⟩
          · rw [← hc.1, ← region_div lb (σ i) (n % lb) hm, e]
          · rw [h.frac, h.frac, region_mod _ _ _ hm]
        · rw [if_neg hc] at hr; cases hr
      rw [nodeStep_ok _ _ _ _ hok, h1]
      show some (copyReduceAll ((List.range _).map (f t)) (reduceAll ((List.range _).map (f t)) v)) = _
      rw [copyReduceAll_mk _ _ _ fun n _ => h.cred t n, reduceAll_mk]
      intro n hn r hr hrK
      rw [h.red t n ht hn] at hr
      rw [h.red t r ht hrK]
      by_cases hc : n / lb = ar ∧ a t ≤ n % lb ∧ n % lb < a t + w
      · rw [if_pos hc] at hr
        obtain ⟨i, hi, rfl⟩ := List.mem_map.1 hr
        rw [if_neg]
        rintro ⟨e, _⟩
        rw [region_div _ _ _ (Nat.mod_lt _ (by omega))] at e
        exact (h.hσ i (List.mem_range.1 hi)).2 e
      · rw [if_neg hc] at hr; cases hr
    · intro n hn1 hn2
      have hn : n < lb := by omega
      have hsrc : v (sr * lb + n) = s t (sr * lb + n) := by
        apply h3
        intro q hq hne hc
        have hr : Rel g (p + 1) q t := by
          by_contra hr; rw [if_neg hr, if_neg hr] at hc; omega
        rw [if_pos hr, if_pos hr, ← pos_iff lb _ (a t) w _ hown (by omega), region_div _ _ _ hn] at hc
        have := pidx_lt g (p + 1) t q (by omega) hne hr
        exact (h.hρ _ (by omega)).2 hc.1.symm
      have hrecv : ∀ i, i < p → v (ρ i * lb + n) = s (partner g (g * (p + 1)) t i) (sr * lb + n) := by
        intro i hi
        obtain ⟨q, hq⟩ : ∃ q, q = partner g (g * (p + 1)) t i := ⟨_, rfl⟩
        obtain ⟨hne, hr, hpi⟩ := (partner_iff g (p + 1) t q i hg (by omega)).1 hq.symm
        have hql : q < lb := by rw [hq]; exact partner_lt g (p + 1) lb t i hg (by omega) h.dvd ht
        rw [h2 q _ hql hne (by rw [if_pos hr, ← hpi]; omega)
          (by rw [if_pos hr, if_pos hr, ← hpi]; omega), if_pos hr, if_pos hr, ← hpi, ← hq]
        congr 1
        omega
      show (if ar * lb + n < K * lb then _ else _) = _
      rw [if_pos (region_lt lb K _ _ hn h.har), h.red t _ ht (region_lt lb K _ _ hn h.har),
        region_div _ _ _ hn, region_mod _ _ _ hn, if_pos ⟨rfl, hn1, hn2⟩, List.foldl_map,
        foldl_add_eq_sum, hsum fun r => v (r * lb + n), hsrc]
      congr 1
      exact Finset.sum_congr rfl fun i hi => hrecv i (Finset.mem_range.1 hi))
  exact ⟨s', fun t ht => (hs' t ht).1, fun t n ht => (hs' t ht).2 n⟩

end ExtMpi.Recursive
