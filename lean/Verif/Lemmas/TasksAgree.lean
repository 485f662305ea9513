import Verif.Lemmas.TasksMaster
import Verif.Lemmas.Relabel
import Mathlib.Data.Finset.Card
/-! When sender and receiver of a message have the same local number. -/
namespace ExtMpi.TasksNode
open RawCode Schedule RankPerm

/-- In the blocks `bs` node `a` sends to node `q` exactly if `P a q`. -/
def Messages (N : Nat) (bs : Nat → Block) (P : Nat → Nat → Prop) : Prop :=
  ∀ a q, a < N → q < N → a ≠ q → (recvIdx (bs q) a ≠ [] ↔ P a q) ∧ (sendIdx (bs a) q ≠ [] ↔ P a q)

theorem recvIdx_ne_nil {b : Block} {q : Nat} : recvIdx b q ≠ [] ↔ ∃ l, l ∈ b ∧ ∃ e, e ∈ l.recvfrom ∧ e.1 = (q : Int) := by
  unfold recvIdx
  rw [Ne, List.map_eq_nil_iff, List.filter_eq_nil_iff]
  push Not
  constructor
  · rintro ⟨x, hx, h⟩
    obtain ⟨e, he, h2⟩ := List.any_eq_true.1 h
    exact ⟨x.1, List.fst_mem_of_mem_zipIdx hx, e, he, by simpa using h2⟩
  · rintro ⟨l, hl, e, he, h2⟩
    obtain ⟨n, hn⟩ := List.getElem?_of_mem hl
    exact ⟨(l, n), List.mem_zipIdx_iff_getElem?.2 (by simpa using hn), List.any_eq_true.2 ⟨e, he, by simpa using h2⟩⟩

theorem sendIdx_ne_nil {b : Block} {q : Nat} : sendIdx b q ≠ [] ↔ ∃ l, l ∈ b ∧ ∃ e, e ∈ l.sendto ∧ e.1 = (q : Int) := by
  unfold sendIdx
  rw [Ne, List.flatMap_eq_nil_iff]
  push Not
  constructor
  · rintro ⟨x, hx, h⟩
    rw [Ne, List.map_eq_nil_iff, List.filter_eq_nil_iff] at h
    push Not at h
    obtain ⟨e, he, h2⟩ := h
    exact ⟨x.1, List.fst_mem_of_mem_zipIdx hx, e, he, by simpa using h2⟩
  · rintro ⟨l, hl, e, he, h2⟩
    obtain ⟨n, hn⟩ := List.getElem?_of_mem hl
    refine ⟨(l, n), List.mem_zipIdx_iff_getElem?.2 (by simpa using hn), ?_⟩
    rw [Ne, List.map_eq_nil_iff, List.filter_eq_nil_iff]
    push Not
    exact ⟨e, he, by simpa using h2⟩

theorem target_good {x : Int} (h : -10 < x) : target x = x := by
  unfold target
  rw [if_neg (by omega)]

theorem recvSet_iff {N : Nat} {perm : List Nat} {a : Nat} {b : Block} (hb : Good N b) (j : Nat) :
    recvSet N perm a b j = true ↔ ∃ q : Nat, q < N ∧ recvIdx b q ≠ [] ∧ recvOff N perm a q = j := by
  unfold recvSet
  constructor
  · intro h
    obtain ⟨l, hl, h⟩ := List.any_eq_true.1 h
    obtain ⟨e, he, h⟩ := List.any_eq_true.1 h
    obtain ⟨h1, h2⟩ := hb l hl e (List.mem_append_right _ he)
    rw [target_good h1] at h
    simp only [Bool.and_eq_true, decide_eq_true_eq, beq_iff_eq] at h
    exact ⟨e.1.toNat, by omega, recvIdx_ne_nil.2 ⟨l, hl, e, he, by omega⟩, h.2⟩
  · rintro ⟨q, hq, h, hj⟩
    obtain ⟨l, hl, e, he, h2⟩ := recvIdx_ne_nil.1 h
    refine List.any_eq_true.2 ⟨l, hl, List.any_eq_true.2 ⟨e, he, ?_⟩⟩
    rw [target_good (hb l hl e (List.mem_append_right _ he)).1, h2]
    simp [hj]

theorem sendSet_iff {N : Nat} {perm : List Nat} {a : Nat} {b : Block} (hb : Good N b) (j : Nat) :
    sendSet N perm a b j = true ↔ ∃ q : Nat, q < N ∧ sendIdx b q ≠ [] ∧ sendOff N perm a q = j := by
  unfold sendSet
  constructor
  · intro h
    obtain ⟨l, hl, h⟩ := List.any_eq_true.1 h
    obtain ⟨e, he, h⟩ := List.any_eq_true.1 h
    obtain ⟨h1, h2⟩ := hb l hl e (List.mem_append_left _ he)
    rw [target_good h1] at h
    simp only [Bool.and_eq_true, decide_eq_true_eq, beq_iff_eq] at h
    exact ⟨e.1.toNat, by omega, sendIdx_ne_nil.2 ⟨l, hl, e, he, by omega⟩, h.2⟩
  · rintro ⟨q, hq, h, hj⟩
    obtain ⟨l, hl, e, he, h2⟩ := sendIdx_ne_nil.1 h
    refine List.any_eq_true.2 ⟨l, hl, List.any_eq_true.2 ⟨e, he, ?_⟩⟩
    rw [target_good (hb l hl e (List.mem_append_left _ he)).1, h2]
    simp [hj]

theorem slot_card (set : Nat → Bool) (j : Nat) :
    slot set j = ((Finset.range j).filter fun i => 0 < i ∧ set i = true).card := by
  unfold slot
  rw [← List.toFinset_card_of_nodup (List.nodup_range.filter _)]
  congr 1
  ext i
  simp

theorem slot_reverse {set set' : Nat → Bool} {D : Nat} (h : ∀ i, 0 < i → i < D → (set i = true ↔ set' (D - i) = true)) :
    slot set D = slot set' D := by
  rw [slot_card, slot_card]
  refine Finset.card_nbij' (fun i => D - i) (fun i => D - i) ?_ ?_ ?_ ?_
  · intro i hi
    simp only [Finset.coe_filter, Finset.mem_range, Set.mem_setOf_eq] at hi ⊢
    exact ⟨by omega, by omega, (h i hi.2.1 hi.1).1 hi.2.2⟩
  · intro i hi
    simp only [Finset.coe_filter, Finset.mem_range, Set.mem_setOf_eq] at hi ⊢
    refine ⟨by omega, by omega, (h (D - i) (by omega) (by omega)).2 ?_⟩
    rw [show D - (D - i) = i by omega]
    exact hi.2.2
  · intro i hi
    simp only [Finset.coe_filter, Finset.mem_range, Set.mem_setOf_eq] at hi
    dsimp only; omega
  · intro i hi
    simp only [Finset.coe_filter, Finset.mem_range, Set.mem_setOf_eq] at hi
    dsimp only; omega

theorem off_eq_off (N : Nat) (perm : List Nat) (a q : Nat) : sendOff N perm a q = recvOff N perm q a := by
  unfold sendOff recvOff
  rw [Nat.add_comm N]

/-- Groups whose members all send to each other: the numbers agree for every permutation. -/
theorem agree_clique {N ns : Nat} {perm : List Nat} (hp : IsPerm N perm) {bs : Nat → Block} (hg : ∀ a, a < N → Good N (bs a))
    {P : Nat → Nat → Prop} (hm : Messages N bs P)
    (hc : ∀ a q c, a < N → q < N → c < N → a ≠ q → c ≠ q → a ≠ c → P a q → (P c q ↔ P a c)) : Agree N ns perm bs := by
  intro a q ha hq hne hr
  have hP := (hm a q ha hq hne).1.1 hr
  unfold sendOwner recvOwner
  rw [off_eq_off]
  congr 1
  symm
  have ta := permAt_lt hp ha
  have tq := permAt_lt hp hq
  have tri : ∀ c, c < N → ∀ i, 0 < i → i < recvOff N perm q a →
      (recvOff N perm q c = i ↔ sendOff N perm a c = recvOff N perm q a - i) := by
    intro c hc' i hi hlt
    have tc := permAt_lt hp hc'
    rw [off_eq_off]
    unfold recvOff at hlt ⊢
    rw [dist_cases ta tq] at hlt ⊢
    rw [dist_cases tc tq, dist_cases ta tc]
    split at hlt <;> split <;> split <;> omega
  apply slot_reverse
  intro i hi hlt
  rw [recvSet_iff (hg q hq), sendSet_iff (hg a ha)]
  constructor
  · rintro ⟨c, hc', h1, h2⟩
    have hcq : c ≠ q := by
      rintro rfl
      rw [recvOff_self hp hq] at h2
      omega
    have hca : a ≠ c := by
      rintro rfl
      omega
    exact ⟨c, hc', (hm a c ha hc' hca).2.2 ((hc a q c ha hq hc' hne hcq hca hP).1 ((hm c q hc' hq hcq).1.1 h1)),
      (tri c hc' i hi hlt).1 h2⟩
  · rintro ⟨c, hc', h1, h2⟩
    have hcq : c ≠ q := by
      rintro rfl
      rw [off_eq_off] at h2
      omega
    have hca : a ≠ c := by
      rintro rfl
      rw [off_eq_off, recvOff_self hp ha] at h2
      omega
    exact ⟨c, hc', (hm c q hc' hq hcq).1.2 ((hc a q c ha hq hc' hne hcq hca hP).2 ((hm a c ha hc' hca).2.1 h1)),
      (tri c hc' i hi hlt).2 h2⟩

theorem isPerm_range (N : Nat) : IsPerm N (List.range N) := List.Perm.refl _

theorem permAt_range {N q : Nat} (hq : q < N) : permAt (List.range N) q = q := by
  have := permAt_get (isPerm_range N) hq
  rw [List.getElem?_range hq] at this
  exact (Option.some.inj this).symm

/-- Schedules that look the same from every node: the numbers agree if the nodes are not relabelled. -/
theorem agree_shift {N ns : Nat} {bs : Nat → Block} (hg : ∀ a, a < N → Good N (bs a)) {P : Nat → Nat → Prop} (hm : Messages N bs P)
    (hs : ∀ a q a' q', a < N → q < N → a' < N → q' < N → (a + N - q) % N = (a' + N - q') % N → (P a q ↔ P a' q')) :
    Agree N ns (List.range N) bs := by
  intro a q ha hq hne hr
  unfold sendOwner recvOwner
  rw [off_eq_off]
  congr 1
  unfold slot
  congr 1
  apply List.filter_congr
  intro i hi
  rw [List.mem_range] at hi
  rw [Bool.eq_iff_iff, Bool.and_eq_true, Bool.and_eq_true]
  refine and_congr_right fun h0 => ?_
  rw [decide_eq_true_eq] at h0
  have hiN : i < N := Nat.lt_of_lt_of_le hi (by unfold recvOff; exact Nat.le_of_lt (Nat.mod_lt _ (by omega)))
  have key : ∀ x y, x < N → y < N → recvOff N (List.range N) x y = (y + N - x) % N := by
    intro x y hx hy
    unfold recvOff
    rw [permAt_range hx, permAt_range hy]
  have self : ∀ x, x < N → (x + N - x) % N = 0 := by
    intro x hx
    rw [show x + N - x = N by omega, Nat.mod_self]
  rw [recvSet_iff (hg q hq), sendSet_iff (hg a ha)]
  constructor
  · rintro ⟨c, hc, h1, h2⟩
    rw [off_eq_off, key c a hc ha] at h2
    have hca : a ≠ c := by rintro rfl; rw [self a ha] at h2; omega
    have hPc := (hm a c ha hc hca).2.1 h1
    -- the node at the same distance before `q`
    refine ⟨(q + i) % N, Nat.mod_lt _ (by omega), ?_⟩
    have e2 : ((q + i) % N + N - q) % N = i := by
      rw [dist_cases (Nat.mod_lt _ (by omega)) hq]
      by_cases h : q + i < N
      · rw [Nat.mod_eq_of_lt h, if_pos (by omega)]; omega
      · rw [Nat.mod_eq_sub_mod (by omega), Nat.mod_eq_of_lt (by omega), if_neg (by omega)]; omega
    have hne' : (q + i) % N ≠ q := by
      intro e
      rw [e, self q hq] at e2
      omega
    exact ⟨(hm _ q (Nat.mod_lt _ (by omega)) hq hne').1.2
      ((hs a c _ q ha hc (Nat.mod_lt _ (by omega)) hq (by rw [h2, e2])).1 hPc),
      by rw [key q _ hq (Nat.mod_lt _ (by omega)), e2]⟩
  · rintro ⟨c, hc, h1, h2⟩
    rw [key q c hq hc] at h2
    have hcq : c ≠ q := by rintro rfl; rw [self c hc] at h2; omega
    have hPc := (hm c q hc hq hcq).1.1 h1
    refine ⟨(a + N - i) % N, Nat.mod_lt _ (by omega), ?_⟩
    have e2 : (a + N - (a + N - i) % N) % N = i := by
      rw [dist_cases ha (Nat.mod_lt _ (by omega))]
      by_cases h : a + N - i < N
      · rw [Nat.mod_eq_of_lt h, if_neg (by omega)]; omega
      · rw [Nat.mod_eq_sub_mod (by omega), Nat.mod_eq_of_lt (by omega), if_pos (by omega)]; omega
    have hne' : a ≠ (a + N - i) % N := by
      intro e
      rw [← e, self a ha] at e2
      omega
    exact ⟨(hm a _ ha (Nat.mod_lt _ (by omega)) hne').2.2
      ((hs c q a _ hc hq ha (Nat.mod_lt _ (by omega)) (by rw [h2, e2])).1 hPc),
      by rw [off_eq_off, key _ a (Nat.mod_lt _ (by omega)) ha, e2]⟩

theorem messages_exchange {N : Nat} {bs : Nat → Block} {m0 n0 len : Nat → Nat → Nat} (h : Exchange N bs m0 n0 len) :
    Messages N bs fun a q => len a q ≠ 0 := by
  intro a q ha hq hne
  rw [h.send a q ha hq hne, h.recv a q ha hq hne]
  simp

/-- Relabelled messages. -/
theorem messages_rl {N : Nat} {π ρ : Nat → Nat} (hi : Inverse N π ρ) {bs : Nat → Block} {P : Nat → Nat → Prop}
    (hok : ∀ t, t < N → ∀ l, l ∈ bs t → LineOk N l) (hm : Messages N bs P) :
    Messages N (fun x => (bs (ρ x)).map (rl π)) fun a q => P (ρ a) (ρ q) := by
  intro a q ha hq hne
  have h := hm (ρ a) (ρ q) (hi.lt' a ha) (hi.lt' q hq) (fun e => hne (by rw [← hi.right a ha, e, hi.right q hq]))
  rw [← recvIdx_rl hi _ (hok _ (hi.lt' q hq)) _ (hi.lt' a ha), hi.right a ha,
    ← sendIdx_rl hi _ (hok _ (hi.lt' a ha)) _ (hi.lt' q hq), hi.right q hq] at h
  exact h

end ExtMpi.TasksNode
