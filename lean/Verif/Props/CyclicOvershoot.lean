import Verif.Props.CyclicReduce
/-! C51: the port lists for which the generator of the cyclic allreduce reads outside of its array are exactly the ones that
overshoot. -/
namespace ExtMpi.CyclicReduce
open Schedule

theorem mapM_mem {α β : Type} (f : α → Option β) : ∀ (l : List α) (l' : List β), l.mapM f = some l' → ∀ x, x ∈ l → ∃ y, f x = some y
  | [], _, _, _, h => by cases h
  | a :: l, l', h, x, hx => by
    rw [List.mapM_cons] at h
    cases ha : f a with
    | none => rw [ha] at h; cases h
    | some y =>
      rcases List.mem_cons.1 hx with rfl | hx
      · exact ⟨y, ha⟩
      · cases hl : l.mapM f with
        | none => rw [ha, hl] at h; cases h
        | some z => exact mapM_mem f l z hl x hx

/-- The clean-up passes a block only if all used lines send to lines inside of the array. -/
theorem keeps_inside (u : List Bool) (S : Nat) (f : Nat → LineD) (l : List LineD)
    (h : (Recursive.mk S f).zipIdx.mapM (fun x => keepSends u x.2 x.1) = some l) (n : Nat) (hn : n < S) (hu : u[n]? = some true)
    (e : Int × Int) (he : e ∈ (f n).sendto) : e.2.toNat < u.length := by
  have hz : (Recursive.mk S f).zipIdx = (List.range S).map fun n => (f n, n) := zipIdx_map_range S f
  rw [hz] at h
  obtain ⟨y, hy⟩ := mapM_mem _ _ _ h (f n, n) (List.mem_map.2 ⟨n, List.mem_range.2 hn, rfl⟩)
  unfold keepSends at hy
  rw [if_pos hu] at hy
  by_cases c : ((f n).sendto.all fun e => decide (e.2.toNat < u.length)) = true
  · exact of_decide_eq_true (List.all_eq_true.1 c e he)
  · rw [if_neg c] at hy
    cases hy

/-- A step that overshoots has a used line that sends to a line outside of the array. -/
theorem overshoot_line (N m G p : Nat) (hm : 0 < m) (hG : G < N) (hp : 3 ≤ p) (hf : N < G * p) (u : List Bool)
    (hl : LastUsed N m u (m * G)) (hl' : LastUsed N m u (m * N))
    (hc : ∀ n : Nat, n < m * N → m * G ≤ n → u[n]? = some true → u[n % (m * G)]? = some true) :
    ∃ n, n < m * G ∧ n < m * N ∧ u[n]? = some true ∧ p - 2 < gatherPorts (m * N) (m * G) p n ∧ m * N ≤ n + m * G * (p - 2 + 1) := by
  obtain ⟨q, rfl⟩ : ∃ q, p = q + 3 := ⟨p - 3, by omega⟩
  have h1 : m * G + m ≤ m * N := by
    have := Nat.mul_le_mul_left m (show G + 1 ≤ N by omega)
    rwa [Nat.mul_add, Nat.mul_one] at this
  have h2 : m * N + m ≤ m * G * (q + 3) := by
    have := Nat.mul_le_mul_left m (show N + 1 ≤ G * (q + 3) by omega)
    rwa [Nat.mul_add, Nat.mul_one, ← Nat.mul_assoc] at this
  have h3 : m * G * (q + 3) = m * G * (q + 2) + m * G := by ring
  have h4 : m * G * (q + 2) = m * G * q + m * G + m * G := by ring
  have hGm : 0 < G := by
    rcases Nat.eq_zero_or_pos G with rfl | h
    · omega
    · exact h
  have hs : 0 < m * G := Nat.mul_pos hm hGm
  have hK : 2 * G ≤ N → m * G + m * G ≤ m * N := by
    intro h
    have := Nat.mul_le_mul_left m h
    have e : m * (2 * G) = m * G + m * G := by ring
    omega
  have hK' : N < 2 * G → m * N < m * G + m * G := by
    intro h
    have := Nat.mul_le_mul_left m (show N + 1 ≤ 2 * G by omega)
    have e : m * (2 * G) = m * G + m * G := by ring
    have e' : m * (N + 1) = m * N + m := by ring
    omega
  show ∃ n, n < m * G ∧ n < m * N ∧ u[n]? = some true ∧ q + 3 - 2 < gatherPorts (m * N) (m * G) (q + 3) n ∧
    m * N ≤ n + m * G * (q + 2)
  by_cases c : 2 * G ≤ N
  · have := hK c
    refine ⟨m * G - 1, by omega, by omega, hl _ (by omega) fun n' a b => by omega, ?_, by omega⟩
    unfold gatherPorts
    rw [if_pos ⟨by omega, by omega, by omega⟩]
    omega
  · have := hK' (by omega)
    have hx := hc (m * N - 1) (by omega) (by omega) (hl' _ (by omega) fun n' a b => by omega)
    rw [Nat.mod_eq_sub_mod (by omega), Nat.mod_eq_of_lt (by omega)] at hx
    refine ⟨m * N - 1 - m * G, by omega, by omega, hx, ?_, by omega⟩
    unfold gatherPorts
    rw [if_pos ⟨by omega, by omega, by omega⟩]
    omega

theorem fits_of_clean (u : List Bool) (N m t : Nat) (hm : 0 < m) (hlen : u.length = m * N) (ps : List Nat) (G : Nat) (hG : 0 < G)
    (hcov : N ≤ G * (ps.map (· + 1)).prod) (hc : Closed N m u G ps) (hl : LastUsed N m u (m * N))
    (hb : ∀ b, b ∈ gBlocks N m t G ps → ∃ l, (b.zipIdx.mapM fun x => keepSends u x.2 x.1) = some l) : Fits N G ps := by
  induction ps generalizing G with
  | nil => trivial
  | cons p ps ih =>
    have hcov' : N ≤ G * (p + 1) * (ps.map (· + 1)).prod := by
      rw [List.map_cons, List.prod_cons, ← Nat.mul_assoc] at hcov
      exact hcov
    refine ⟨fun hGN => ?_, ih (G * (p + 1)) (Nat.mul_pos hG (by omega)) hcov' hc.2 fun b h => hb b (by
      rw [gBlocks]; exact List.mem_cons_of_mem _ (List.mem_cons_of_mem _ h))⟩
    by_contra hno
    rw [not_or] at hno
    have hS : min (G * (p + 1)) N = N := by
      have : G * (p + 1) = G * p + G := by ring
      omega
    have hlG : LastUsed N m u (m * G) := by
      have := lastUsed_back N m u hm (p :: ps) G hG hc (by rw [Nat.min_eq_right hcov]; exact hl)
      rwa [Nat.min_eq_left (by omega)] at this
    obtain ⟨n, h1, h2, h3, h4, h5⟩ := overshoot_line N m G p hm hGN (by omega) (by omega) u hlG hl fun n a b c => by
      have := hc.1 n (by rw [hS]; exact a) b c
      exact this.1
    obtain ⟨l, hl'⟩ := hb _ (by rw [gBlocks]; exact List.mem_cons_self)
    rw [hS] at hl'
    have := keeps_inside u _ _ l hl' n h2 h3 (((N : Int) + t - (((p - 2 : Nat) : Int) + 1) * G).tmod N, ((n + m * G * (p - 2 + 1) : Nat) : Int))
      (List.mem_map.2 ⟨p - 2, List.mem_range.2 h4, rfl⟩)
    rw [hlen] at this
    simp only [Int.toNat_natCast] at this
    omega

/-- C51, the generator: whatever the reduction ports, the clean-up of the cyclic allreduce stays inside of its array exactly if the
gather ports do not overshoot. -/
theorem core_isSome_iff (N : Nat) (hN : 0 < N) (negs ports : List Nat) (hne : ports ≠ [])
    (hcov : N ≤ (ports.map (· + 1)).prod) (t : Nat) : (core N negs ports t).isSome = true ↔ Fits N 1 ports := by
  constructor
  · intro h
    obtain ⟨m, hmdef⟩ : ∃ m, m = chunks N negs := ⟨_, rfl⟩
    have hm : 0 < m := hmdef ▸ chunks_pos N hN negs
    obtain ⟨u, hu1, hu2, hu3, hu4⟩ := linesUsed_some (gBlocks N m t 1 ports) (Recursive.mk (m * N) (lLine N m t))
    have hlen : u.length = m * N := by rw [hu2]; simp [Recursive.mk]
    have hclosed : Closed N m u 1 ports := closed_of_fixed N m t u hm _ hu3 ports 1 (by omega) fun _ h => h
    have hlu : LastUsed N m u (m * N) := by
      intro n hn h
      apply hu4 n (lLine N m t n)
      · unfold Recursive.mk
        rw [List.getElem?_map, List.getElem?_range hn]; rfl
      · unfold lLine
        simp only
        rw [if_pos ((last_cond N m t n hn).2 h)]
        rfl
    have hfr : ∀ n, n < m * 1 → (n + t) % N = num N m t n := by
      intro n hn
      unfold num
      rw [cl_small m n (by omega)]
    have hblk := (gatherSteps_eq N m t hm ports 1 (by omega) (fun line => (line + t) % N) hfr).1
    have hnum : (gatherSteps N m t 1 (fun line => (line + t) % N) ports).2 = num N m t := by
      cases ports with
      | nil => exact absurd rfl hne
      | cons p ps => exact gatherSteps_num N m t hm p ps 1 (by omega) _ hfr
    have hlb : lastBlock (m * N) (num N m t) = Recursive.mk (m * N) (lLine N m t) := rfl
    have hdel : (deleteLines (gBlocks N m t 1 ports) (Recursive.mk (m * N) (lLine N m t))).isSome = true := by
      cases ports with
      | nil => exact absurd rfl hne
      | cons p ps =>
        unfold core at h
        simp only [List.isEmpty_cons, Bool.false_eq_true, if_false, ← hmdef] at h
        rw [Nat.min_eq_right hcov, hblk, hnum, hlb] at h
        cases hd : deleteLines (gBlocks N m t 1 (p :: ps)) (Recursive.mk (m * N) (lLine N m t)) with
        | none => rw [hd] at h; cases h
        | some _ => rfl
    unfold deleteLines at hdel
    rw [hu1] at hdel
    simp only [Option.bind_eq_bind, Option.bind_some] at hdel
    cases hbs : (gBlocks N m t 1 ports).mapM fun b => b.zipIdx.mapM fun x => keepSends u x.2 x.1 with
    | none => rw [hbs] at hdel; cases hdel
    | some bs =>
      exact fits_of_clean u N m t hm hlen ports 1 (by omega) (by rw [Nat.one_mul]; exact hcov) hclosed hlu fun b hb =>
        mapM_mem _ _ _ hbs b hb
  · intro h
    obtain ⟨u, _, _, _, _, hs⟩ := core_blocks N hN negs ports hne hcov h
    rw [hs t]
    rfl

/-- C51: exactly for the port lists that do not overshoot, the generator gives schedules, and these are correct. -/
theorem allreduce_correct_iff {V : Type} [AddCommMonoid V] (N : Nat) (hN : 0 < N) (negs ports : List Nat)
    (hne : ports ≠ []) (hp : ∀ p, p ∈ ports → 0 < p) (hcov : N ≤ (ports.map (· + 1)).prod) :
    (∃ sched : Nat → List Block, (∀ t, core N negs ports t = some (sched t)) ∧
      Computes (V := V) N copyOut sched (AllreducePost N)) ↔ Fits N 1 ports := by
  constructor
  · rintro ⟨sched, h, _⟩
    rw [← core_isSome_iff N hN negs ports hne hcov 0, h 0]
    rfl
  · exact allreduce_correct_partial N hN negs ports hne hp hcov

/-- The generator reads outside of its array for every number of nodes from 2 on: with all other nodes and one more as the
partners of a single step. -/
theorem overshoot_violated (N : Nat) (hN : 2 ≤ N) (negs : List Nat) (t p : Nat) (hp : 3 ≤ p) (hNp : N < p) : core N negs [p] t = none := by
  have h := core_isSome_iff N (by omega) negs [p] (by simp) (by simp; omega) t
  cases hc : core N negs [p] t with
  | none => rfl
  | some x =>
    rw [hc] at h
    have := (h.1 rfl).1 (by omega)
    omega

/-- Five nodes: steps with one and three ports overshoot, with one and two ports they do not. -/
example : core 5 [1] [1, 3] 0 = none ∧ (core 5 [1] [1, 2] 0).isSome = true := by
  refine ⟨?_, (core_isSome_iff 5 (by omega) [1] [1, 2] (by simp) (by decide) 0).2 (fits_small 5 _ 1 (by decide))⟩
  have h := core_isSome_iff 5 (by omega) [1] [1, 3] (by simp) (by decide) 0
  cases hc : core 5 [1] [1, 3] 0 with
  | none => rfl
  | some x =>
    rw [hc] at h
    have := h.1 rfl
    simp [Fits] at this

end ExtMpi.CyclicReduce
