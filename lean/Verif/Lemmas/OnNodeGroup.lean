import Verif.Lemmas.OnNodeLayout
/-! The barriers between the processes of a group. -/
namespace ExtMpi.OnNode

theorem filter_rotate {α : Type} (P : α → Bool) (l : List α) {c : Nat} (h : c ≤ l.length) :
    (l.rotate c).filter P = (l.filter P).rotate ((l.take c).filter P).length := by
  rw [List.rotate_eq_drop_append_take h, List.filter_append]
  have e : l.filter P = (l.take c).filter P ++ (l.drop c).filter P := by
    rw [← List.filter_append, List.take_append_drop]
  rw [e, List.rotate_append_length_eq]

theorem filter_index {α : Type} (P : α → Bool) (l : List α) {i : Nat} (h : i < (l.filter P).length) :
    ∃ c, c < l.length ∧ l[c]? = (l.filter P)[i]? ∧ ((l.take c).filter P).length = i := by
  induction l generalizing i with
  | nil => simp at h
  | cons a l ih =>
    by_cases ha : P a
    · rw [List.filter_cons_of_pos ha] at h ⊢
      cases i with
      | zero => exact ⟨0, by simp, by simp, by simp⟩
      | succ i =>
        obtain ⟨c, h1, h2, h3⟩ := ih (i := i) (by simpa using h)
        refine ⟨c + 1, by simpa using h1, by simpa using h2, ?_⟩
        rw [List.take_succ_cons, List.filter_cons_of_pos ha, List.length_cons, h3]
    · rw [List.filter_cons_of_neg ha] at h ⊢
      obtain ⟨c, h1, h2, h3⟩ := ih h
      refine ⟨c + 1, by simpa using h1, by simpa using h2, ?_⟩
      rw [List.take_succ_cons, List.filter_cons_of_neg ha, h3]

theorem rankAt_of_lt {l : List Int} {i : Nat} (h : i < l.length) : rankAt l i = l[i] := by
  simp [rankAt, h]

theorem rankAt_rotate {l : List Int} {c i : Nat} (hl : 0 < l.length) :
    rankAt (l.rotate c) (i % l.length) = rankAt l ((c + i) % l.length) := by
  have hi : i % l.length < l.length := Nat.mod_lt _ hl
  have hc : (c + i) % l.length < l.length := Nat.mod_lt _ hl
  rw [rankAt_of_lt (by rw [List.length_rotate]; exact hi), rankAt_of_lt hc,
    List.getElem_rotate]
  congr 1
  rw [Nat.mod_add_mod, Nat.add_comm]

/-- Rounds as seen by a process. -/
def roundW (g : Nat → Nat × List Int) (k p : Nat) : Nat :=
  if k < Nat.clog 2 (g p).1 then (rankAt (g p).2 (2 ^ k % (g p).1)).toNat else p

/-- If all members of `l` have rotations of `l`, the rounds are those of a barrier between them. -/
theorem R_round {n : Nat} (A : Skel) (b K : Nat) (g : Nat → Nat × List Int) (l : List Int)
    (hl : ∀ r ∈ l, ∃ p, p < n ∧ r = (p : Int)) (hK : Nat.clog 2 l.length ≤ K)
    (hg : ∀ i (p : Nat), l[i]? = some (p : Int) → g p = (l.length, l.rotate i)) {r p : Nat}
    (hr : (r : Int) ∈ l) (hp : (p : Int) ∈ l) :
    R n (A ++ dis b K (roundW g)) r A.length p (A.length + K) := by
  have hcast : ∀ i (h : i < l.length), ((l[i].toNat : Nat) : Int) = l[i] := by
    intro i h
    obtain ⟨q, _, hq⟩ := hl _ (List.getElem_mem h)
    rw [hq]; simp
  apply R_dis (n := n) A b K (roundW g) (l.map Int.toNat)
  · intro r hr
    simp only [List.mem_map] at hr
    obtain ⟨a, ha, rfl⟩ := hr
    obtain ⟨q, hq, rfl⟩ := hl a ha
    simpa using hq
  · rw [List.length_map]; exact hK
  · intro k i hk hi
    rw [List.length_map] at hk hi ⊢
    have hm : (i + 2 ^ k) % l.length < l.length := Nat.mod_lt _ (by omega)
    rw [List.getElem?_map, List.getElem?_eq_getElem hm, List.getElem_map]
    have hgi := hg i l[i].toNat (by rw [List.getElem?_eq_getElem hi, hcast])
    unfold roundW
    rw [hgi]
    simp only [hk, if_true]
    rw [rankAt_rotate (by omega)]
    rw [rankAt_of_lt hm]
    rfl
  · rw [List.mem_map]; exact ⟨_, hr, by simp⟩
  · rw [List.mem_map]; exact ⟨_, hp, by simp⟩

/-! ### The groups of a step -/

/-- Group of process `p` in a step with the new layout `new`. -/
def grp (v n : Nat) (new : Nat → Seg) (f p : Nat) : Nat × List Int :=
  busyGroup v n new (groupRanks new f (ownIndex v new p)) p

/-- Ranks that share a part in a step. -/
def mates (lay : Nat → Seg) (gb f i j : Nat) : List Int :=
  (List.range f).map fun k => (lay (i * (gb * f) + (j + k * gb))).rank

theorem mates_length (lay gb f i j) : (mates lay gb f i j).length = f := by simp [mates]

theorem mates_get {lay gb f i j k} (hk : k < f) :
    (mates lay gb f i j)[k]? = some (lay (i * (gb * f) + (j + k * gb))).rank := by
  simp [mates, hk]

section
variable {n v ts len gb : Nat} {sl : Nat → Nat × Nat} {idx : Nat → Nat} {lay : Nat → Seg} {u f : Nat}

theorem rank_relayout {i j k : Nat} (hj : j < gb) (hk : k < f) :
    (relayout ts u n len gb f lay (i * (gb * f) + (j * f + k))).rank = (lay (i * (gb * f) + (j + k * gb))).rank := by
  rw [relayout_pos _ _ _ _ _ _ _ hj hk]
  simp only
  split <;> rfl

theorem groupRanks_eq (h : Lay n v ts len gb sl idx lay) (hs : Slices ts len gb sl) (hg : 0 < gb) (hf : 0 < f)
    (hd : gb * f ∣ v) (hv : v = n ∨ len * ts < cacheLine) {p i j k : Nat} (hp : p < n) (hj : j < gb) (hk : k < f)
    (hx : idx p = i * (gb * f) + (j + k * gb)) :
    groupRanks (relayout ts u n len gb f lay) f (ownIndex v (relayout ts u n len gb f lay) p) =
      (mates lay gb f i j).rotate k := by
  have hl := Lay.next h hs (u := u) hg hf hd hv
  rw [hl.ownIndex hp]
  rw [hx, shuffle_pos hj hk]
  obtain ⟨_, _, _, h4, h5⟩ := posX _ gb f i j k rfl hj hk
  unfold groupRanks
  apply List.ext_getElem
  · simp [mates]
  · intro m hm1 hm2
    rw [List.getElem_rotate]
    simp only [List.getElem_map, List.getElem_range, mates, List.length_map, List.length_range]
    have hm : (m + k) % f < f := Nat.mod_lt _ hf
    rw [h5, h4, Nat.add_assoc, rank_relayout hj hm]

theorem grp_eq (h : Lay n v ts len gb sl idx lay) (hs : Slices ts len gb sl) (hg : 0 < gb) (hf : 0 < f)
    (hd : gb * f ∣ v) (hv : v = n ∨ len * ts < cacheLine) {p i j k : Nat} (hp : p < n) (hj : j < gb) (hk : k < f)
    (hx : idx p = i * (gb * f) + (j + k * gb)) :
    grp v n (relayout ts u n len gb f lay) f p =
      if (mates lay gb f i j).any fun r => (List.range v).any fun x =>
        (relayout ts u n len gb f lay x).rank == r && (relayout ts u n len gb f lay x).size != 0
      then (((mates lay gb f i j).filter (0 ≤ ·)).length,
        ((mates lay gb f i j).filter (0 ≤ ·)).rotate (((mates lay gb f i j).take k).filter (0 ≤ ·)).length)
      else (0, (mates lay gb f i j).rotate k) := by
  unfold grp busyGroup
  rw [groupRanks_eq h hs hg hf hd hv hp hj hk hx]
  simp only [show ¬ n ≤ p by omega, if_false]
  have hany : ∀ P : Int → Bool, ((mates lay gb f i j).rotate k).any P = (mates lay gb f i j).any P := by
    intro P
    rw [Bool.eq_iff_iff, List.any_eq_true, List.any_eq_true]
    simp only [List.mem_rotate]
  rw [hany, filter_rotate _ _ (by rw [mates_length]; omega), List.length_rotate]

/-- Ranks in the lists. -/
theorem mates_range (h : Lay n v ts len gb sl idx lay) (hd : gb * f ∣ v) {i j k : Nat}
    (hj : j < gb) (hx : i * (gb * f) + (j + k * gb) < v) :
    ∀ r ∈ (mates lay gb f i j).filter (0 ≤ ·), ∃ p, p < n ∧ r = (p : Int) := by
  intro r hr
  simp only [mates, List.mem_filter, List.mem_map, List.mem_range, decide_eq_true_eq] at hr
  obtain ⟨⟨m, hm, rfl⟩, hr⟩ := hr
  have hlt : i * (gb * f) + (j + m * gb) < v := by
    apply block_lt hd hx
    calc j + m * gb < gb + m * gb := by omega
      _ = (m + 1) * gb := by ring
      _ ≤ f * gb := Nat.mul_le_mul_right _ hm
      _ = gb * f := Nat.mul_comm _ _
  rcases h.range _ hlt with h | h
  · rw [h] at hr; omega
  · exact h

theorem clog_filter_le {gb f i j} (lay : Nat → Seg) :
    Nat.clog 2 ((mates lay gb f i j).filter (0 ≤ ·)).length ≤ Nat.clog 2 f := by
  apply Nat.clog_mono_right
  have := List.length_filter_le (fun x : Int => decide (0 ≤ x)) (mates lay gb f i j)
  rwa [mates_length] at this

/-- What the program needs of the group of a process. -/
theorem grp_facts (h : Lay n v ts len gb sl idx lay) (hs : Slices ts len gb sl) (hg : 0 < gb) (hf : 0 < f)
    (hd : gb * f ∣ v) (hv : v = n ∨ len * ts < cacheLine) {p : Nat} (hp : p < n) :
    let g := grp v n (relayout ts u n len gb f lay) f p
    rankAt g.2 0 = p ∧ Nat.clog 2 g.1 ≤ Nat.clog 2 f ∧
      ∀ k, k < Nat.clog 2 g.1 → ∃ r, r < n ∧ rankAt g.2 (2 ^ k % g.1) = ((r : Nat) : Int) := by
  obtain ⟨i, j, k, hj, hk, hx⟩ := decY _ gb f (idx p) rfl hg hf
  intro g
  obtain ⟨G, hG⟩ : ∃ G, G = g := ⟨_, rfl⟩
  rw [← hG]
  simp only [g] at hG
  rw [grp_eq h hs hg hf hd hv hp hj hk hx] at hG
  have hrk : (mates lay gb f i j)[k]? = some (p : Int) := by
    rw [mates_get hk, ← hx, h.rank p hp]
  have hrot : rankAt ((mates lay gb f i j).rotate k) 0 = p := by
    have := rankAt_rotate (l := mates lay gb f i j) (c := k) (i := 0) (by rw [mates_length]; omega)
    rw [Nat.zero_mod, Nat.add_zero, mates_length, Nat.mod_eq_of_lt hk] at this
    rw [this, rankAt, List.getD_eq_getElem?_getD, hrk]; rfl
  split at hG
  · subst hG
    refine ⟨?_, clog_filter_le lay, ?_⟩
    · simp only
      rw [← filter_rotate _ _ (by rw [mates_length]; omega)]
      unfold rankAt at hrot ⊢
      obtain ⟨a, l, hal⟩ : ∃ a l, (mates lay gb f i j).rotate k = a :: l := by
        cases hc : (mates lay gb f i j).rotate k with
        | nil =>
          have := congrArg List.length hc
          rw [List.length_rotate, mates_length] at this
          simp at this; omega
        | cons a l => exact ⟨a, l, rfl⟩
      rw [hal] at hrot ⊢
      simp only [List.getD_cons_zero] at hrot
      rw [List.filter_cons_of_pos (by rw [hrot]; simp)]
      simpa using hrot
    · intro m hm
      simp only at hm ⊢
      have hpos : 0 < ((mates lay gb f i j).filter (0 ≤ ·)).length := by
        by_contra hc
        rw [show ((mates lay gb f i j).filter (0 ≤ ·)).length = 0 by omega] at hm
        simp at hm
      rw [rankAt_rotate hpos]
      have hlt := Nat.mod_lt ((((mates lay gb f i j).take k).filter (0 ≤ ·)).length + 2 ^ m) hpos
      rw [rankAt_of_lt hlt]
      exact mates_range h hd hj (by rw [← hx]; exact h.idx_lt p hp) _ (List.getElem_mem hlt)
  · subst hG
    refine ⟨hrot, by simp, ?_⟩
    intro m hm
    simp at hm

/-- The owner of a column at the end of a step learns of the owners in all parts of its block. -/
theorem grp_R (h : Lay n v ts len gb sl idx lay) (hs : Slices ts len gb sl) (hg : 0 < gb) (hf : 0 < f)
    (hd : gb * f ∣ v) (hv : v = n ∨ len * ts < cacheLine) (A : Skel) (b : Nat) {p q x : Nat} (hp : p < n) (hq : q < n)
    (ho : In (slice ts u f sl (shuffle gb f (idx p) % (gb * f))) x) (hb : q / (gb * f) = p / (gb * f)) :
    ∃ r, r < n ∧ q / gb = r / gb ∧ In (sl (idx r % gb)) x ∧
      R n (A ++ dis b (Nat.clog 2 f) (roundW (grp v n (relayout ts u n len gb f lay) f))) r A.length p
        (A.length + Nat.clog 2 f) := by
  obtain ⟨i, j, k, hj, hk, hx⟩ := decY _ gb f (idx p) rfl hg hf
  have hxlt : i * (gb * f) + (j + k * gb) < v := by rw [← hx]; exact h.idx_lt p hp
  obtain ⟨h1, h2, h3, h4, h5⟩ := posX _ gb f i j k rfl hj hk
  obtain ⟨y1, y2, y3, y4⟩ := posY _ gb f i j k rfl hj hk
  have hl := Lay.next h hs (u := u) hg hf hd hv
  have hsize : (relayout ts u n len gb f lay (shuffle gb f (idx p))).size ≠ 0 := by
    rw [hl.size _ (hl.idx_lt p hp)]
    · exact ho.ne
    · have := hl.block p hp
      rw [this]
      exact Nat.lt_of_le_of_lt (Nat.div_mul_le_self _ _) hp
  rw [hx, shuffle_pos hj hk, h2] at ho
  have hin : In (sl j) x := by
    have := slice_in hf ho
    rwa [show (j * f + k) / f = j by rw [← h2]; exact h3] at this
  -- the part of q
  have hbp := h.block p hp
  rw [hx, y3] at hbp
  have hpi : p / (gb * f) = i := by
    rw [← Nat.div_div_eq_div_mul, ← hbp, Nat.mul_comm, Nat.mul_add_div hf, Nat.div_eq_of_lt hk, Nat.add_zero]
  have hqi : q / gb / f = i := by rw [Nat.div_div_eq_div_mul, hb, hpi]
  obtain ⟨m, hm, hqm⟩ : ∃ m, m < f ∧ q / gb = i * f + m := by
    refine ⟨q / gb % f, Nat.mod_lt _ hf, ?_⟩
    rw [← hqi]
    have := Nat.div_add_mod (q / gb) f
    rw [Nat.mul_comm] at this
    exact this.symm
  -- its owner of the column
  have hr : ∃ r, r < n ∧ idx r = i * (gb * f) + (j + m * gb) := by
    rcases hv with hvn | hsm
    · exact h.full hvn _ (by
        apply block_lt hd hxlt
        calc j + m * gb < gb + m * gb := by omega
          _ = (m + 1) * gb := by ring
          _ ≤ f * gb := Nat.mul_le_mul_right _ hm
          _ = gb * f := Nat.mul_comm _ _)
    · have hj0 := hs.small hsm j hj hin.ne
      subst hj0
      have e : i * (gb * f) + (0 + m * gb) = (i * f + m) * gb := by ring
      refine ⟨i * (gb * f) + (0 + m * gb), ?_, ?_⟩
      · rw [e, ← hqm]
        exact Nat.lt_of_le_of_lt (Nat.div_mul_le_self _ _) hq
      · apply h.base
        · rw [e, ← hqm]
          exact Nat.lt_of_le_of_lt (Nat.div_mul_le_self _ _) hq
        · rw [e]; exact Nat.mul_mod_left _ _
  obtain ⟨r, hrn, hri⟩ := hr
  obtain ⟨z1, z2, z3, _⟩ := posY _ gb f i j m rfl hj hm
  refine ⟨r, hrn, ?_, ?_, ?_⟩
  · rw [← h.block r hrn, hri, z3, hqm]
  · rw [hri, z2]; exact hin
  · have hany : ((mates lay gb f i j).any fun r => (List.range v).any fun x =>
        (relayout ts u n len gb f lay x).rank == r && (relayout ts u n len gb f lay x).size != 0) = true := by
      rw [List.any_eq_true]
      refine ⟨(p : Int), ?_, ?_⟩
      · apply List.mem_of_getElem? (i := k)
        rw [mates_get hk, ← hx, h.rank p hp]
      · rw [List.any_eq_true]
        refine ⟨shuffle gb f (idx p), ?_, ?_⟩
        · rw [List.mem_range]; exact hl.idx_lt p hp
        · have := hl.rank p hp
          rw [this]
          simpa using hsize
    apply R_round A b (Nat.clog 2 f) _ ((mates lay gb f i j).filter (0 ≤ ·)) (mates_range h hd hj hxlt)
      (clog_filter_le lay)
    · intro c p' hc
      have hclt : c < ((mates lay gb f i j).filter (0 ≤ ·)).length := (List.getElem?_eq_some_iff.1 hc).1
      obtain ⟨k', hk', hkk, hlen⟩ := filter_index (fun r : Int => decide (0 ≤ r)) (mates lay gb f i j) hclt
      rw [mates_length] at hk'
      rw [mates_get hk', hc] at hkk
      injection hkk with hkk
      obtain ⟨p'', hp'', hpe⟩ := mates_range h hd hj hxlt (p' : Int) (List.mem_of_getElem? hc)
      have : p' = p'' := by exact_mod_cast hpe
      subst this
      have hlt : i * (gb * f) + (j + k' * gb) < v := by
        apply block_lt hd hxlt
        calc j + k' * gb < gb + k' * gb := by omega
          _ = (k' + 1) * gb := by ring
          _ ≤ f * gb := Nat.mul_le_mul_right _ hk'
          _ = gb * f := Nat.mul_comm _ _
      have hidx := h.uniq _ p' hlt hp'' hkk
      rw [grp_eq h hs hg hf hd hv hp'' hj hk' hidx.symm, hany, hlen]
      rfl
    · rw [List.mem_filter]
      refine ⟨List.mem_of_getElem? (i := m) ?_, by simp⟩
      rw [mates_get hm, ← hri, h.rank r hrn]
    · rw [List.mem_filter]
      refine ⟨List.mem_of_getElem? (i := k) ?_, by simp⟩
      rw [mates_get hk, ← hx, h.rank p hp]

end

end ExtMpi.OnNode
