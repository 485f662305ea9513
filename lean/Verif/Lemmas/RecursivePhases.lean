import Verif.Lemmas.Recursive
/-! The phases of the recursive algorithms. -/
namespace ExtMpi.Recursive
open Schedule

/-! ## Composition of runs -/

theorem Run.congr {V : Type} [Add V] {N : Nat} {p p' : Nat → List Block} {s s' : Nat → Nat → V}
    (h : Run N p s s') (hp : ∀ t, t < N → p' t = p t) : Run N p' s s' := by
  cases h with
  | done h => exact .done fun t ht => (hp t ht).trans (h t ht)
  | step hd tl s1 h1 h2 h3 => exact .step hd tl s1 (fun t ht => (hp t ht).trans (h1 t ht)) h2 h3

theorem Run.append {V : Type} [Add V] {N : Nat} {p q : Nat → List Block} {s s' s'' : Nat → Nat → V}
    (h : Run N p s s') (h' : Run N q s' s'') : Run N (fun t => p t ++ q t) s s'' := by
  induction h with
  | done h => exact Run.congr h' fun t ht => by rw [h t ht]; rfl
  | step hd tl s1 h1 h2 _ ih =>
    exact .step hd (fun t => tl t ++ q t) s1 (fun t ht => by rw [h1 t ht]; rfl) h2 (ih h')

theorem Run.single {V : Type} [Add V] {N : Nat} {hd : Nat → Block} {s s' : Nat → Nat → V}
    (h : ∀ t, t < N → nodeStep N hd s t = some (s' t)) : Run N (fun t => [hd t]) s s' :=
  .step hd (fun _ => []) s' (fun _ _ => rfl) h (.done fun _ _ => rfl)

/-- A block that only talks to the buffers of the user leaves shared memory unchanged. -/
theorem idle_step {V : Type} [Add V] (N L : Nat) (f : Nat → Nat → LineD)
    (hs : ∀ t x, ∀ e, e ∈ (f t x).sendto → e.1 < 0) (hr : ∀ t x, (f t x).recvfrom = [])
    (h1 : ∀ t x, (f t x).reducefrom = []) (h2 : ∀ t x, (f t x).copyreducefrom = [])
    (s : Nat → Nat → V) (t : Nat) (ht : t < N) :
    nodeStep N (fun t => Recursive.mk L (f t)) s t = some (s t) := by
  have hx : Exchange N (fun t => Recursive.mk L (f t)) (fun _ _ => 0) (fun _ _ => 0) (fun _ _ => 0) := by
    constructor
    · intro q t _ _ _
      show sendIdx ((List.range L).map (f q)) t = _
      rw [sendIdx_mk]
      apply flatMap_range_interval _ _ _ _ (by omega)
      intro x _
      rw [if_neg (by omega), List.map_eq_nil_iff, List.filter_eq_nil_iff]
      intro e he
      have := hs q x e he
      simp only [beq_iff_eq]
      omega
    · intro q t _ _ _
      show recvIdx ((List.range L).map (f t)) q = _
      rw [recvIdx_mk]
      apply filter_range_interval _ _ _ _ (by omega)
      intro x _
      rw [hr t x]
      simp
    · intro q t _ _ _
      apply reduces_mk
      intro x _ e he
      rw [hr t x] at he; cases he
    · intro q t k _ _ _ hk; omega
    · intro q q' t n _ _ _ _ _ h3 h4; omega
  obtain ⟨v, hv1, _, hv3⟩ := hx.recvAll s t ht
  have hv : v = s t := funext fun n => hv3 n fun q _ _ => by omega
  rw [nodeStep_ok _ _ _ _ (reduceOk_mk_nil L (f t) (h1 t) (h2 t)), hv1, hv]
  show some (copyReduceAll ((List.range L).map (f t)) (reduceAll ((List.range L).map (f t)) (s t))) = _
  rw [copyReduceAll_mk _ _ _ fun n _ => h2 t n, reduceAll_mk _ _ _ fun n _ r hr => by
    rw [h1 t n] at hr; cases hr]
  congr 1
  funext n
  rw [h1 t n]
  split <;> rfl

/-! ## Copy-out -/

theorem copyOut_mk {V : Type} (L : Nat) (f : Nat → LineD) (v : Nat → V) (n k : Nat) (hn : n < L)
    (hs : ((f n).sendto.any fun e => e.1 == -1) = true) (hk : (f n).frac = k)
    (hu : ∀ m, m < L → ((f m).sendto.any fun e => e.1 == -1) = true → (f m).frac = k → m = n) :
    copyOut (Recursive.mk L f) v k = some (v n) := by
  unfold copyOut Recursive.mk
  rw [zipIdx_map_range, List.foldl_map]
  suffices H : ∀ K, K ≤ L → (n < K → (List.range K).foldl (fun out n =>
      if (f n).sendto.any fun e => e.1 == -1 then upd out (f n).frac (some (v n)) else out)
      (fun _ => none) k = some (v n)) from H L (Nat.le_refl _) hn
  intro K
  induction K with
  | zero => intro _ h; omega
  | succ K ih =>
    intro hK hnK
    rw [List.range_succ, List.foldl_append, List.foldl_cons, List.foldl_nil]
    by_cases e : n = K
    · subst e
      rw [if_pos hs]
      unfold upd
      rw [if_pos hk.symm]
    · by_cases hc : ((f K).sendto.any fun e => e.1 == -1) = true
      · rw [if_pos hc]
        unfold upd
        rw [if_neg]
        · exact ih (by omega) (by omega)
        · intro hf
          exact e (hu K (by omega) hc hf.symm).symm
      · rw [if_neg hc]
        exact ih (by omega) (by omega)

theorem copyOutFirst_mk {V : Type} (L : Nat) (f : Nat → LineD) (v : Nat → V) (n : Nat) (hn : n < L)
    (hs : (f n).sendto ≠ []) (hu : ∀ m, m < n → (f m).sendto = []) :
    copyOutFirst (Recursive.mk L f) v = some (v n) := by
  unfold copyOutFirst Recursive.mk
  rw [zipIdx_map_range]
  have : ((List.range L).map fun n => (f n, n)).find? (fun x => !x.1.sendto.isEmpty) = some (f n, n) := by
    rw [List.find?_eq_some_iff_append]
    refine ⟨by simpa using hs, (List.range n).map fun n => (f n, n),
      (List.range' (n + 1) (L - n - 1)).map fun n => (f n, n), ?_, ?_⟩
    · have e : List.range L = List.range n ++ n :: List.range' (n + 1) (L - n - 1) := by
        rw [← List.range'_succ, List.range_eq_range', List.range_eq_range']
        have := List.range'_append_1 (s := 0) (m := n) (n := L - n - 1 + 1)
        rw [Nat.zero_add] at this
        rw [this]
        congr 1
        omega
      rw [e, List.map_append, List.map_cons]
    · intro a ha
      obtain ⟨m, hm, rfl⟩ := List.mem_map.1 ha
      simp [hu m (List.mem_range.1 hm)]
  rw [this]
  rfl

/-! ## Gather phase -/

theorem factor_cons (p : Nat) (ps : List Nat) : factor (p :: ps) = (p + 1) * factor ps := by
  simp [factor]

theorem factor_pos (ps : List Nat) : 0 < factor ps := by
  induction ps with
  | nil => simp [factor]
  | cons p ps ih => rw [factor_cons]; exact Nat.mul_pos (by omega) ih

theorem gatherLike1 (lb g p : Nat) (hg : 0 < g) (hd : g * (p + 1) ∣ lb) :
    GatherLike lb 0 lb g p fun t line =>
      { frac := line, sendto := gatherSend g (g * (p + 1)) p t line,
        recvfrom := gatherRecv g (g * (p + 1)) t line } where
  send t x hx := by rw [if_pos (by omega)]; rfl
  recv t x hx := by rw [if_pos (by omega)]; rfl
  frac t x _ _ := rfl
  red _ _ := rfl
  cred _ _ := rfl
  room := by omega
  pos := hg
  dvd := hd

theorem region_one (lb x : Nat) (hx : x < 2 * lb) : x / lb = 1 ↔ lb ≤ x ∧ x < lb + lb := by
  rw [div_eq_iff' lb x 1 (by omega)]; omega

theorem mod_one (lb x : Nat) (h : lb ≤ x) (h' : x < lb + lb) : x % lb = x - lb := by
  rw [Nat.mod_eq_sub_mod h, Nat.mod_eq_of_lt (by omega)]

theorem gatherLike2 (lb g p : Nat) (hg : 0 < g) (hd : g * (p + 1) ∣ lb) :
    GatherLike lb lb (2 * lb) g p fun t x =>
      { frac := x % lb
        sendto := if x / lb = 1 then gatherSend g (g * (p + 1)) p t (x % lb) else []
        recvfrom := if x / lb = 1 then gatherRecv g (g * (p + 1)) t (x % lb) else [] } where
  send t x hx := by
    show (if x / lb = 1 then _ else _) = _
    by_cases h : lb ≤ x ∧ x < lb + lb
    · rw [if_pos h, if_pos ((region_one lb x hx).2 h), mod_one lb x h.1 h.2]
    · rw [if_neg h, if_neg fun e => h ((region_one lb x hx).1 e)]
  recv t x hx := by
    show (if x / lb = 1 then _ else _) = _
    by_cases h : lb ≤ x ∧ x < lb + lb
    · rw [if_pos h, if_pos ((region_one lb x hx).2 h), mod_one lb x h.1 h.2]
    · rw [if_neg h, if_neg fun e => h ((region_one lb x hx).1 e)]
  frac t x h1 h2 := mod_one lb x h1 h2
  red _ _ := rfl
  cred _ _ := rfl
  room := by omega
  pos := hg
  dvd := hd

theorem gather_phase {V : Type} [Add V] (lb off L : Nat) (F : Nat → Nat → Nat → Nat → LineD)
    (hF : ∀ g p, 0 < g → g * (p + 1) ∣ lb → GatherLike lb off L g p (F g p))
    (st : Nat → Nat → List Nat → List Block) (hnil : ∀ t g, st t g [] = [])
    (hcons : ∀ t g p ps, st t g (p :: ps) = Recursive.mk L (F g p t) :: st t (g * (p + 1)) ps)
    (T : Nat → V) (ps : List Nat) (g : Nat) (hg : 0 < g) (hlb : g * factor ps = lb) (s : Nat → Nat → V)
    (hs : ∀ t n, t < lb → n < lb → n / g = t / g → s t (off + n) = T n) :
    ∃ s', Run lb (fun t => st t g ps) s s' ∧ ∀ t n, t < lb → n < lb → s' t (off + n) = T n := by
  induction ps generalizing g s with
  | nil =>
    refine ⟨s, .done fun t _ => hnil t g, fun t n ht hn => hs t n ht hn ?_⟩
    have : g = lb := by simpa [factor] using hlb
    rw [this, Nat.div_eq_of_lt ht, Nat.div_eq_of_lt hn]
  | cons p ps ih =>
    rw [factor_cons, ← Nat.mul_assoc] at hlb
    obtain ⟨s1, h1, h2⟩ := (hF g p hg ⟨_, hlb.symm⟩).step s T hs
    obtain ⟨s2, h3, h4⟩ := ih (g * (p + 1)) (Nat.mul_pos hg (by omega)) hlb s1 h2
    exact ⟨s2, .step _ _ s1 (fun t _ => hcons t g p ps) h1 h3, h4⟩

/-! ## Reduction phase -/

/-- Regions that receive the messages of the partners. -/
def rho (p : Nat) (first last : Bool) (i : Nat) : Nat :=
  if last then (if i = p - 1 then 1 else 3 + i) else if first then 2 + i else 3 + i

/-- Regions that are summed up. -/
def sig (first last : Bool) (i : Nat) : Nat :=
  if first then (if i = 0 then 0 else 2 + i) else if last then 2 + i else 3 + i

theorem reduce_sums {V : Type} [AddCommMonoid V] (p : Nat) (hp : 0 < p) (first last : Bool) (val : Nat → V) :
    val (if last then 1 else 2) + ∑ i ∈ Finset.range p, val (sig first last i) =
      val (if first then 0 else 2) + ∑ i ∈ Finset.range p, val (rho p first last i) := by
  obtain ⟨k, rfl⟩ : ∃ k, p = k + 1 := ⟨p - 1, by omega⟩
  have hlast : ∑ i ∈ Finset.range (k + 1), val (rho (k + 1) first true i) =
      ∑ i ∈ Finset.range k, val (3 + i) + val 1 := by
    rw [Finset.sum_range_succ]
    congr 1
    · apply Finset.sum_congr rfl
      intro i hi
      have := Finset.mem_range.1 hi
      unfold rho
      rw [if_pos rfl, if_neg (by omega)]
    · unfold rho
      rw [if_pos rfl, if_pos (by omega)]
  cases last <;> cases first
  · rfl
  · simp only [Bool.false_eq_true, if_false, if_true]
    rw [Finset.sum_range_succ', Finset.sum_range_succ' (fun i => val (rho (k + 1) true false i))]
    simp only [sig, rho, if_true, if_false, Bool.false_eq_true, Nat.add_eq_zero_iff, one_ne_zero, and_false]
    abel
  · rw [hlast]
    simp only [Bool.false_eq_true, if_false, if_true]
    rw [Finset.sum_range_succ']
    simp only [sig, if_true, if_false, Bool.false_eq_true]
    have : ∀ i, 2 + (i + 1) = 3 + i := fun i => by omega
    simp only [this]
    abel
  · rw [hlast]
    simp only [if_true]
    rw [Finset.sum_range_succ']
    simp only [sig, if_true, if_false, Nat.add_eq_zero_iff, one_ne_zero, and_false]
    have : ∀ i, 2 + (i + 1) = 3 + i := fun i => by omega
    simp only [this]
    abel

theorem reduceLike (lb g p : Nat) (first last : Bool) (hp : 0 < p) (hg : 0 < g) (hd : g * (p + 1) ∣ lb) :
    ReduceLike lb (if last then 2 + p else 3 + p) (if first then 0 else 2) (if last then 1 else 2) g p g
      (fun t => t / g * g) (rho p first last) (sig first last) fun t x =>
        { frac := x % lb
          sendto := reduceSend (g * (p + 1)) p t first (x / lb) (x % lb)
          recvfrom := reduceRecv (g * (p + 1)) p t first last (x / lb) (x % lb)
          reducefrom := reduceFrom lb (g * (p + 1)) p t first last (x / lb) (x % lb) } := by
  have hgn : g * (p + 1) / (p + 1) = g := Nat.mul_div_cancel _ (by omega)
  have hgl : g ∣ lb := Nat.dvd_trans ⟨p + 1, rfl⟩ hd
  have hgrp : ∀ n t, n / g = t / g → n / (g * (p + 1)) = t / (g * (p + 1)) := by
    intro n t h
    rw [← Nat.div_div_eq_div_mul, ← Nat.div_div_eq_div_mul, h]
  constructor
  · intro q t x hq ht hne hx
    show ((reduceSend (g * (p + 1)) p q first (x / lb) (x % lb)).filter _).map _ = _
    unfold reduceSend
    simp only [hgn]
    generalize x % lb = n
    have hi : (t / g * g ≤ n ∧ n < t / g * g + g) ↔ n / g = t / g := (div_eq_iff' g n (t / g) hg).symm
    generalize x / lb = r
    generalize (if first then 0 else 2) = sr
    by_cases h1 : n / (g * (p + 1)) = q / (g * (p + 1)) ∧ n / g ≠ q / g ∧ r = sr
    · rw [if_pos h1, partner_index g (p + 1) q n hg (by omega) h1.1 h1.2.1]
      simp only [List.filter_cons, List.filter_nil, beq_iff_eq, Nat.cast_inj]
      by_cases h2 : n / g * g + q % g = t
      · rw [if_pos h2, if_pos]
        · rfl
        · have e1 : t / g = n / g := by
            rw [← h2, Nat.add_comm, Nat.add_mul_div_right _ _ hg, Nat.div_eq_of_lt (Nat.mod_lt _ hg),
              Nat.zero_add]
          have e2 : t % g = q % g := by
            rw [← h2, Nat.add_comm, Nat.add_mul_mod_self_right, Nat.mod_mod]
          exact ⟨⟨h1.1.symm.trans (hgrp _ _ e1.symm), e2.symm⟩, h1.2.2, hi.2 e1.symm⟩
      · rw [if_neg h2, if_neg]
        · rfl
        · rintro ⟨hr, _, e⟩
          apply h2
          rw [hi.1 e, hr.2, Nat.mul_comm]
          exact Nat.div_add_mod t g
    · rw [if_neg h1, if_neg]
      · rfl
      · rintro ⟨hr, e1, e2⟩
        have e2 := hi.1 e2
        apply h1
        refine ⟨(hgrp _ _ e2).trans hr.1.symm, ?_, e1⟩
        rw [e2]
        exact fun e => hne (eq_of_digits g q t e.symm hr.2)
  · intro q t x ht hx
    show ((reduceRecv (g * (p + 1)) p t first last (x / lb) (x % lb)).any _) = true ↔ _
    unfold reduceRecv
    simp only [hgn]
    generalize x % lb = n
    generalize x / lb = r
    have hi : (t / g * g ≤ n ∧ n < t / g * g + g) ↔ n / g = t / g := (div_eq_iff' g n (t / g) hg).symm
    by_cases h1 : n / g = t / g
    · rw [if_pos ⟨hgrp _ _ h1, h1⟩]
      have hi := hi.2 h1
      have hsing : ∀ j, (([((partner g (g * (p + 1)) t j : Int), (n : Int))] : List (Int × Int)).any
          fun e => e.1 == (q : Int)) = true ↔ partner g (g * (p + 1)) t j = q := by
        intro j; simp
      have hnil : (([] : List (Int × Int)).any fun e => e.1 == (q : Int)) = true ↔ False := by simp
      unfold rho
      cases last <;> cases first <;> simp only [Bool.false_eq_true, if_false, if_true]
      · by_cases hr : 3 ≤ r ∧ r < 3 + p
        · rw [if_pos hr, hsing]
          constructor
          · exact fun e => ⟨r - 3, by omega, by omega, hi.1, hi.2, e⟩
          · rintro ⟨i, _, e, _, _, e2⟩
            rw [e]; have : 3 + i - 3 = i := by omega
            rw [this]; exact e2
        · rw [if_neg hr, hnil, false_iff]
          rintro ⟨i, _, e, _⟩; omega
      · by_cases hr : 2 ≤ r ∧ r < 2 + p
        · rw [if_pos hr, hsing]
          constructor
          · exact fun e => ⟨r - 2, by omega, by omega, hi.1, hi.2, e⟩
          · rintro ⟨i, _, e, _, _, e2⟩
            rw [e]; have : 2 + i - 2 = i := by omega
            rw [this]; exact e2
        · rw [if_neg hr, hnil, false_iff]
          rintro ⟨i, _, e, _⟩; omega
      all_goals
        by_cases hr1 : r = 1
        · rw [if_pos hr1, hsing]
          constructor
          · exact fun e => ⟨p - 1, by omega, by rw [if_pos rfl]; exact hr1, hi.1, hi.2, e⟩
          · rintro ⟨i, _, e, _, _, e2⟩
            by_cases c : i = p - 1
            · rw [← c]; exact e2
            · rw [if_neg c] at e; omega
        · rw [if_neg hr1]
          by_cases hr : 3 ≤ r ∧ r < 3 + (p - 1)
          · rw [if_pos hr, hsing]
            constructor
            · exact fun e => ⟨r - 3, by omega, by rw [if_neg (by omega)]; omega, hi.1, hi.2, e⟩
            · rintro ⟨i, _, e, _, _, e2⟩
              by_cases c : i = p - 1
              · rw [if_pos c] at e; exact absurd e hr1
              · rw [if_neg c] at e
                have : r - 3 = i := by omega
                rw [this]; exact e2
          · rw [if_neg hr, hnil, false_iff]
            rintro ⟨i, hip, e, _⟩
            by_cases c : i = p - 1
            · rw [if_pos c] at e; exact hr1 e
            · rw [if_neg c] at e; omega
    · rw [if_neg fun h => h1 h.2]
      simp only [List.any_nil, Bool.false_eq_true, false_iff]
      rintro ⟨i, _, _, e1, e2, _⟩
      exact h1 (hi.1 ⟨e1, e2⟩)
  · intro t x; rfl
  · intro t x ht hx
    show reduceFrom lb (g * (p + 1)) p t first last (x / lb) (x % lb) = _
    unfold reduceFrom
    simp only [hgn]
    generalize x % lb = n
    generalize x / lb = r
    have hi : (t / g * g ≤ n ∧ n < t / g * g + g) ↔ n / g = t / g := (div_eq_iff' g n (t / g) hg).symm
    by_cases h1 : n / g = t / g ∧ r = (if last then 1 else 2)
    · rw [if_pos ⟨hgrp _ _ h1.1, h1⟩, if_pos (c := r = (if last then 1 else 2) ∧ t / g * g ≤ n ∧ n < t / g * g + g)
        ⟨h1.2, hi.2 h1.1⟩]
      unfold sig
      cases last <;> cases first <;> simp only [Bool.false_eq_true, if_false, if_true] <;>
        apply List.map_congr_left <;> intro i _
      · omega
      · split <;> omega
      · omega
      · split <;> omega
    · rw [if_neg fun h => h1 h.2, if_neg fun h => h1 ⟨hi.1 h.2, h.1⟩]
  · intro t x; rfl
  · cases last <;> cases first <;> simp <;> omega
  · cases last <;> simp <;> omega
  · intro i hi
    unfold rho
    cases last <;> cases first <;> simp only [Bool.false_eq_true, if_false, if_true] <;>
      (try split) <;> omega
  · intro i hi
    unfold sig
    cases last <;> cases first <;> simp only [Bool.false_eq_true, if_false, if_true] <;>
      (try split) <;> omega
  · intro i j hi hj
    unfold rho
    cases last <;> cases first <;> simp only [Bool.false_eq_true, if_false, if_true] <;>
      (try split) <;> (try split) <;> omega
  · intro t ht
    exact block_lt hg hgl ht
  · exact hg
  · exact hd

/-- Sum over all nodes with the same residue. -/
def residueSum {V : Type} [AddCommMonoid V] (lb gb t n : Nat) (inp : Nat → Nat → V) : V :=
  sumOver lb (fun s => s % gb = t % gb) fun s => inp s n

theorem residue_step {V : Type} [AddCommMonoid V] (lb g p t n : Nat) (hg : 0 < g) (inp : Nat → Nat → V) :
    residueSum lb (g * (p + 1)) t n inp +
      ∑ i ∈ Finset.range p, residueSum lb (g * (p + 1)) (partner g (g * (p + 1)) t i) n inp =
      residueSum lb g t n inp := by
  have hD : 0 < p + 1 := by omega
  have hq : ∀ q, q % g = t % g → residueSum lb (g * (p + 1)) q n inp =
      sumOver lb (fun s => s % (g * (p + 1)) = t % g + g * (q / g % (p + 1))) fun s => inp s n := by
    intro q e
    unfold residueSum
    apply sumOver_congr
    intro s _
    rw [Nat.mod_mul (x := q), e]
  have hsum : ∑ i ∈ Finset.range p, residueSum lb (g * (p + 1)) (partner g (g * (p + 1)) t i) n inp =
      ∑ i ∈ Finset.range (p + 1 - 1), sumOver lb
        (fun s => s % (g * (p + 1)) = t % g + g * ((t / g % (p + 1) + i + 1) % (p + 1))) fun s => inp s n := by
    apply Finset.sum_congr rfl
    intro i _
    rw [hq _ (partner_mod g (p + 1) t i hg), partner_digit g (p + 1) t i hg hD]
  rw [hq t rfl, hsum,
    rotate_sum (p + 1) (t / g % (p + 1)) (Nat.mod_lt _ hD)
      (fun j => sumOver lb (fun s => s % (g * (p + 1)) = t % g + g * j) fun s => inp s n)]
  apply sum_classes lb (p + 1) (fun s => inp s n) (fun s => s % g = t % g) _ (fun s => s / g % (p + 1))
    (fun s => Nat.mod_lt _ hD)
  intro j s hj
  rw [Nat.mod_mul]
  constructor
  · intro e
    have h1 : s % g = t % g := by
      have := congrArg (· % g) e
      simpa [Nat.add_mul_mod_self_left] using this
    refine ⟨h1, ?_⟩
    rw [h1] at e
    exact Nat.eq_of_mul_eq_mul_left hg (Nat.add_left_cancel e)
  · rintro ⟨e1, e2⟩
    rw [e1, e2]

theorem reduce_phase {V : Type} [AddCommMonoid V] (lb M : Nat) (hM : 0 < M) (inp : Nat → Nat → V)
    (ps : List Nat) (hne : ps ≠ []) (hp : ∀ p, p ∈ ps → 0 < p) (first : Bool) (gb : Nat)
    (hgb : gb = M * factor ps) (hd : gb ∣ lb) (s : Nat → Nat → V)
    (hs : ∀ t n, t < lb → n < lb → n / gb = t / gb →
      s t ((if first then 0 else 2) * lb + n) = residueSum lb gb t n inp) :
    ∃ s', Run lb (fun t => reduceSteps lb t first gb ps) s s' ∧
      ∀ t n, t < lb → n < lb → n / M = t / M → s' t (1 * lb + n) = residueSum lb M t n inp := by
  induction ps generalizing gb first s with
  | nil => exact absurd rfl hne
  | cons p ps ih =>
    obtain ⟨g, hgdef⟩ : ∃ g, g = M * factor ps := ⟨_, rfl⟩
    have hg : 0 < g := by rw [hgdef]; exact Nat.mul_pos hM (factor_pos ps)
    have hgb2 : gb = g * (p + 1) := by rw [hgb, factor_cons, hgdef]; ring
    subst hgb2
    have hgn : g * (p + 1) / (p + 1) = g := Nat.mul_div_cancel _ (by omega)
    have hpp := hp p List.mem_cons_self
    obtain ⟨s1, h1, h2⟩ := (reduceLike lb g p first ps.isEmpty hpp hg hd).step
      (fun val => reduce_sums p hpp first ps.isEmpty val) s
    have h2' : ∀ t n, t < lb → n < lb → n / g = t / g →
        s1 t ((if ps.isEmpty then 1 else 2) * lb + n) = residueSum lb g t n inp := by
      intro t n ht hn e
      have hi := (div_eq_iff' g n (t / g) hg).1 e
      have hgrp : n / (g * (p + 1)) = t / (g * (p + 1)) := by
        rw [← Nat.div_div_eq_div_mul, ← Nat.div_div_eq_div_mul, e]
      rw [h2 t n ht hi.1 hi.2, hs t n ht hn hgrp, ← residue_step lb g p t n hg inp]
      congr 1
      apply Finset.sum_congr rfl
      intro i _
      apply hs _ n (partner_lt g (p + 1) lb t i hg (by omega) hd ht) hn
      rw [partner_group g (p + 1) t i hg (by omega)]
      exact hgrp
    cases ps with
    | nil =>
      have : g = M := by rw [hgdef]; simp [factor]
      subst this
      refine ⟨s1, Run.congr (Run.single h1) fun t _ => ?_, ?_⟩
      · rfl
      · simpa using h2'
    | cons p' ps' =>
      obtain ⟨s2, h3, h4⟩ := ih (by simp) (fun q hq => hp q (List.mem_cons_of_mem _ hq)) false g hgdef
        (Nat.dvd_trans ⟨p + 1, rfl⟩ hd) s1 (by simpa using h2')
      refine ⟨s2, .step _ (fun t => reduceSteps lb t false g (p' :: ps')) s1 (fun t _ => ?_) h1 h3, h4⟩
      rw [reduceSteps, hgn]
      rfl

end ExtMpi.Recursive
