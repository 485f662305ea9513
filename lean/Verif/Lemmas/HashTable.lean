import Mathlib.Data.List.Count
import Mathlib.Tactic.ByContra
import Mathlib.Data.Nat.Find
import Verif.Spec.HashTable

namespace ExtMpi.HashTable
open Spec

theorem hashCode_lt (k : Key) : hashCode k < SIZE := by
  unfold hashCode SIZE; exact BitVec.isLt _

/-- The `i`-th probed position. -/
def pos (k : Key) (i : Nat) : Nat := (hashCode k + i) % SIZE

theorem pos_lt (k : Key) (i : Nat) : pos k i < SIZE := Nat.mod_lt _ (by decide)

theorem pos_reach (k : Key) (q : Nat) (hq : q < SIZE) : ∃ i, i < SIZE ∧ pos k i = q := by
  have := hashCode_lt k
  unfold pos SIZE at *
  by_cases h : hashCode k ≤ q
  · exact ⟨q - hashCode k, by omega, by rw [Nat.add_sub_cancel' h, Nat.mod_eq_of_lt hq]⟩
  · exact ⟨q + 256 - hashCode k, by omega, by
      rw [show hashCode k + (q + 256 - hashCode k) = q + 256 by omega]; omega⟩

variable {nullKey : Key} {t : Table} {m : Map}

/-- Slots a search for `k` passes over. -/
def Pass (nullKey k : Key) : Slot → Prop
  | .null => False
  | .dummy => nullKey ≠ k
  | .item k' _ => k' ≠ k

instance (nullKey k : Key) (s : Slot) : Decidable (Pass nullKey k s) := by
  cases s <;> unfold Pass <;> infer_instance

/-- Slots an insertion passes over. -/
def Occ (nullKey : Key) : Slot → Prop
  | .null => False
  | .dummy => False
  | .item k' _ => k' ≠ nullKey

instance (nullKey : Key) (s : Slot) : Decidable (Occ nullKey s) := by
  cases s <;> unfold Occ <;> infer_instance

theorem shift_mod (s i : Nat) : ((s + 1) % SIZE + i) % SIZE = (s + (i + 1)) % SIZE := by
  rw [Nat.mod_add_mod]; congr 1; omega

theorem searchLoop_skip (k : Key) (i : Nat) : ∀ s f, s < SIZE →
    (∀ i', i' < i → Pass nullKey k (t ((s + i') % SIZE))) →
    searchLoop nullKey t k (i + f) s = searchLoop nullKey t k f ((s + i) % SIZE) := by
  induction i with
  | zero => intro s f hs _; simp [Nat.mod_eq_of_lt hs]
  | succ i ih =>
    intro s f hs h
    have h0 := h 0 (by omega)
    rw [Nat.add_zero, Nat.mod_eq_of_lt hs] at h0
    rw [show i + 1 + f = (i + f) + 1 by omega, searchLoop]
    have hrec := ih ((s + 1) % SIZE) f (Nat.mod_lt _ (by decide)) (fun i' hi' => by
      rw [shift_mod]; exact h (i' + 1) (by omega))
    rw [shift_mod] at hrec
    cases hts : t s with
    | null => rw [hts] at h0; exact h0.elim
    | dummy => rw [hts] at h0; simp only [Pass] at h0; simp only [if_neg h0]; exact hrec
    | item k' d => rw [hts] at h0; simp only [Pass] at h0; simp only [if_neg h0]; exact hrec

theorem deleteLoop_skip (k : Key) (i : Nat) : ∀ s f, s < SIZE →
    (∀ i', i' < i → Pass nullKey k (t ((s + i') % SIZE))) →
    deleteLoop nullKey t k (i + f) s = deleteLoop nullKey t k f ((s + i) % SIZE) := by
  induction i with
  | zero => intro s f hs _; simp [Nat.mod_eq_of_lt hs]
  | succ i ih =>
    intro s f hs h
    have h0 := h 0 (by omega)
    rw [Nat.add_zero, Nat.mod_eq_of_lt hs] at h0
    rw [show i + 1 + f = (i + f) + 1 by omega, deleteLoop]
    have hrec := ih ((s + 1) % SIZE) f (Nat.mod_lt _ (by decide)) (fun i' hi' => by
      rw [shift_mod]; exact h (i' + 1) (by omega))
    rw [shift_mod] at hrec
    cases hts : t s with
    | null => rw [hts] at h0; exact h0.elim
    | dummy => rw [hts] at h0; simp only [Pass] at h0; simp only [if_neg h0]; exact hrec
    | item k' d => rw [hts] at h0; simp only [Pass] at h0; simp only [if_neg h0]; exact hrec

theorem insertLoop_skip (k : Key) (d : Int) (i : Nat) : ∀ s f, s < SIZE →
    (∀ i', i' < i → Occ nullKey (t ((s + i') % SIZE))) →
    insertLoop nullKey t k d (i + f) s = insertLoop nullKey t k d f ((s + i) % SIZE) := by
  induction i with
  | zero => intro s f hs _; simp [Nat.mod_eq_of_lt hs]
  | succ i ih =>
    intro s f hs h
    have h0 := h 0 (by omega)
    rw [Nat.add_zero, Nat.mod_eq_of_lt hs] at h0
    rw [show i + 1 + f = (i + f) + 1 by omega, insertLoop]
    have hrec := ih ((s + 1) % SIZE) f (Nat.mod_lt _ (by decide)) (fun i' hi' => by
      rw [shift_mod]; exact h (i' + 1) (by omega))
    rw [shift_mod] at hrec
    cases hts : t s with
    | null => rw [hts] at h0; exact h0.elim
    | dummy => rw [hts] at h0; exact h0.elim
    | item k' d' => rw [hts] at h0; simp only [Occ] at h0; simp only [if_neg h0]; exact hrec

/-- Refinement relation between the table and the map. -/
structure R (nullKey : Key) (t : Table) (m : Map) : Prop where
  live : ∀ k d, m k = some d → k ≠ nullKey ∧
    ∃ i, i < SIZE ∧ t (pos k i) = .item k d ∧ ∀ i', i' < i → t (pos k i') ≠ .null
  items : ∀ p k d, p < SIZE → t p = .item k d → m k = some d
  uniq : ∀ p q k d d', p < SIZE → q < SIZE → t p = .item k d → t q = .item k d' → p = q

theorem R_init : R nullKey init empty := by
  constructor
  · intro k d h; simp [empty] at h
  · intro p k d _ h; simp [init] at h
  · intro p q k d d' _ _ h; simp [init] at h

/-- Least offset with a property. -/
theorem least (P : Nat → Prop) (hex : ∃ i, i < SIZE ∧ P i) :
    ∃ i, i < SIZE ∧ P i ∧ ∀ i', i' < i → ¬ P i' := by
  classical
  obtain ⟨i, hi, hp⟩ := hex
  have he : ∃ i, P i := ⟨i, hp⟩
  exact ⟨Nat.find he, lt_of_le_of_lt (Nat.find_min' he hp) hi, Nat.find_spec he,
    fun i' h => Nat.find_min he h⟩

/-- A search or deletion finds a stopping slot. -/
theorem stop_exists (h : R nullKey t m) (k : Key)
    (hstop : m k ≠ none ∨ ∃ q, q < SIZE ∧ t q = .null) :
    ∃ i, i < SIZE ∧ ¬ Pass nullKey k (t (pos k i)) ∧
      (∀ i', i' < i → Pass nullKey k (t (pos k i'))) ∧
      (t (pos k i) = .null → m k = none) := by
  have hex : ∃ i, i < SIZE ∧ ¬ Pass nullKey k (t (pos k i)) := by
    rcases hstop with hl | ⟨q, hq, hn⟩
    · obtain ⟨d, hd⟩ := Option.ne_none_iff_exists'.1 hl
      obtain ⟨_, i, hi, hit, _⟩ := h.live k d hd
      exact ⟨i, hi, by rw [hit]; simp [Pass]⟩
    · obtain ⟨i, hi, hpi⟩ := pos_reach k q hq
      exact ⟨i, hi, by rw [hpi, hn]; simp [Pass]⟩
  obtain ⟨i, hi, hp, hmin⟩ := least _ hex
  refine ⟨i, hi, hp, fun i' h' => by_contra fun hc => hmin i' h' hc, ?_⟩
  intro hnull
  by_contra hl
  obtain ⟨d, hd⟩ := Option.ne_none_iff_exists'.1 hl
  obtain ⟨_, i0, hi0, hit, hbefore⟩ := h.live k d hd
  rcases Nat.lt_trichotomy i i0 with hlt | heq | hgt
  · exact hbefore i hlt hnull
  · subst heq; rw [hit] at hnull; simp at hnull
  · exact hmin i0 hgt (by rw [hit]; simp [Pass])

theorem null_not_live (h : R nullKey t m) : m nullKey = none := by
  by_contra hl
  obtain ⟨d, hd⟩ := Option.ne_none_iff_exists'.1 hl
  exact (h.live _ d hd).1 rfl

theorem search_correct (h : R nullKey t m) (k : Key) (fuel : Nat) (hf : SIZE ≤ fuel)
    (hstop : m k ≠ none ∨ ∃ q, q < SIZE ∧ t q = .null) :
    search nullKey t k fuel = some (lookup m k) := by
  obtain ⟨i, hi, hstopi, hbefore, hnull⟩ := stop_exists h k hstop
  unfold search
  rw [show fuel = i + ((fuel - i - 1) + 1) by omega,
    searchLoop_skip k i (hashCode k) _ (hashCode_lt k) hbefore, searchLoop]
  change (match t (pos k i) with
    | .null => _ | .dummy => _ | .item k' d => _) = _
  cases hts : t (pos k i) with
  | null => simp only [lookup, hnull hts]
  | dummy =>
    rw [hts] at hstopi
    simp only [Pass, ne_eq, not_not] at hstopi
    subst hstopi
    simp only [if_true, lookup, null_not_live h]
  | item k' d =>
    rw [hts] at hstopi
    simp only [Pass, ne_eq, not_not] at hstopi
    subst hstopi
    have := h.items _ _ _ (pos_lt k' i) hts
    simp only [if_true, lookup, this]

theorem set_same (p : Nat) (v : Slot) : set t p v p = v := by simp [set]
theorem set_other (p q : Nat) (v : Slot) (h : q ≠ p) : set t p v q = t q := by simp [set, h]

theorem delete_correct (h : R nullKey t m) (k : Key) (hk : k ≠ nullKey) (fuel : Nat)
    (hf : SIZE ≤ fuel) (hstop : m k ≠ none ∨ ∃ q, q < SIZE ∧ t q = .null) :
    ∃ t', delete nullKey t k fuel = some (.ok (lookup m k) t') ∧
      R nullKey t' (fun k' => if k' = k then none else m k') ∧
      ∀ q, t q = .null → t' q = .null := by
  obtain ⟨i, hi, hstopi, hbefore, hnull⟩ := stop_exists h k hstop
  unfold delete
  rw [show fuel = i + ((fuel - i - 1) + 1) by omega,
    deleteLoop_skip k i (hashCode k) _ (hashCode_lt k) hbefore, deleteLoop]
  rw [show (hashCode k + i) % SIZE = pos k i from rfl]
  cases hts : t (pos k i) with
  | null =>
    refine ⟨t, by simp only [lookup, hnull hts], ?_, fun _ h => h⟩
    have : (fun k' => if k' = k then none else m k') = m := by
      funext k'; split
      · next e => rw [e, hnull hts]
      · rfl
    rw [this]; exact h
  | dummy =>
    rw [hts] at hstopi
    simp only [Pass, ne_eq, not_not] at hstopi
    exact absurd hstopi.symm hk
  | item k' d =>
    rw [hts] at hstopi
    simp only [Pass, ne_eq, not_not] at hstopi
    subst hstopi
    have hm := h.items _ _ _ (pos_lt k' i) hts
    refine ⟨set t (pos k' i) .dummy, ?_, ?_, ?_⟩
    · simp only [if_true, lookup, hm]
    · constructor
      · intro k2 d2 hk2
        by_cases e : k2 = k'
        · simp [e] at hk2
        · simp only [e, if_false] at hk2
          obtain ⟨hne, j, hj, hjt, hjb⟩ := h.live k2 d2 hk2
          refine ⟨hne, j, hj, ?_, ?_⟩
          · rw [set_other]
            · exact hjt
            · intro hp; rw [hp, hts] at hjt; injection hjt with h1 _; exact e h1.symm
          · intro j' hj'
            by_cases hp : pos k2 j' = pos k' i
            · rw [hp, set_same]; simp
            · rw [set_other _ _ _ hp]; exact hjb j' hj'
      · intro p k2 d2 hp ht
        by_cases e : p = pos k' i
        · rw [e, set_same] at ht; simp at ht
        · rw [set_other _ _ _ e] at ht
          have := h.items p k2 d2 hp ht
          by_cases e2 : k2 = k'
          · subst e2; exact absurd (h.uniq _ _ _ _ _ hp (pos_lt _ _) ht hts) e
          · simp only [e2, if_false]; exact this
      · intro p q k2 d2 d2' hp hq h1 h2
        have hp' : p ≠ pos k' i := fun e => by rw [e, set_same] at h1; simp at h1
        have hq' : q ≠ pos k' i := fun e => by rw [e, set_same] at h2; simp at h2
        rw [set_other _ _ _ hp'] at h1
        rw [set_other _ _ _ hq'] at h2
        exact h.uniq p q k2 d2 d2' hp hq h1 h2
    · intro q hq
      rw [set_other]
      · exact hq
      · intro e; rw [e, hts] at hq; simp at hq

theorem insert_correct (h : R nullKey t m) (k : Key) (d : Int) (hk : k ≠ nullKey)
    (hfresh : m k = none) (fuel : Nat) (hf : SIZE ≤ fuel)
    (hfree : ∃ q, q < SIZE ∧ (t q = .null ∨ t q = .dummy)) :
    ∃ t', insert nullKey t k d fuel = some t' ∧
      R nullKey t' (fun k' => if k' = k then some d else m k') ∧
      ∃ p, p < SIZE ∧ ∀ q, q ≠ p → t' q = t q := by
  have hocc : ∀ p, p < SIZE → ¬ Occ nullKey (t p) → t p = .null ∨ t p = .dummy := by
    intro p hp hn
    cases hts : t p with
    | null => simp
    | dummy => simp
    | item k' d' =>
      rw [hts] at hn
      simp only [Occ, ne_eq, not_not] at hn
      exact absurd hn (h.live _ _ (h.items p k' d' hp hts)).1
  have hex : ∃ i, i < SIZE ∧ ¬ Occ nullKey (t (pos k i)) := by
    obtain ⟨q, hq, hn⟩ := hfree
    obtain ⟨i, hi, hpi⟩ := pos_reach k q hq
    refine ⟨i, hi, ?_⟩
    rw [hpi]; rcases hn with hn | hn <;> rw [hn] <;> simp [Occ]
  obtain ⟨i, hi, hp, hmin⟩ := least _ hex
  have hbefore : ∀ i', i' < i → Occ nullKey (t (pos k i')) :=
    fun i' h' => by_contra fun hc => hmin i' h' hc
  have hfreei := hocc _ (pos_lt k i) hp
  have hloop : insert nullKey t k d fuel = some (set t (pos k i) (.item k d)) := by
    unfold insert
    rw [show fuel = i + ((fuel - i - 1) + 1) by omega,
      insertLoop_skip k d i (hashCode k) _ (hashCode_lt k) hbefore, insertLoop]
    change (match t (pos k i) with
      | .null => _ | .dummy => _ | .item k' d => _) = _
    rcases hfreei with hts | hts <;> rw [hts] <;> rfl
  refine ⟨_, hloop, ?_, pos k i, pos_lt k i, fun q hq => set_other _ _ _ hq⟩
  have hnoitem : ∀ k2 d2, t (pos k i) ≠ .item k2 d2 := by
    intro k2 d2 e; rcases hfreei with hts | hts <;> rw [hts] at e <;> simp at e
  constructor
  · intro k2 d2 hk2
    by_cases e : k2 = k
    · subst e
      simp only [if_true] at hk2
      injection hk2 with hk2; subst hk2
      refine ⟨hk, i, hi, set_same _ _, ?_⟩
      intro i' hi'
      by_cases hpp : pos k2 i' = pos k2 i
      · rw [hpp, set_same]; simp
      · rw [set_other _ _ _ hpp]
        intro e; have := hbefore i' hi'; rw [e] at this; exact this
    · simp only [e, if_false] at hk2
      obtain ⟨hne, j, hj, hjt, hjb⟩ := h.live k2 d2 hk2
      refine ⟨hne, j, hj, ?_, ?_⟩
      · rw [set_other]
        · exact hjt
        · intro hpp; rw [hpp] at hjt; exact hnoitem _ _ hjt
      · intro j' hj'
        by_cases hpp : pos k2 j' = pos k i
        · rw [hpp, set_same]; simp
        · rw [set_other _ _ _ hpp]; exact hjb j' hj'
  · intro p k2 d2 hpS ht
    by_cases e : p = pos k i
    · rw [e, set_same] at ht; injection ht with h1 h2; subst h1; subst h2; simp
    · rw [set_other _ _ _ e] at ht
      have hm := h.items p k2 d2 hpS ht
      by_cases e2 : k2 = k
      · subst e2; rw [hfresh] at hm; simp at hm
      · simp only [e2, if_false]; exact hm
  · intro p q k2 d2 d2' hp hq h1 h2
    by_cases e1 : p = pos k i <;> by_cases e2 : q = pos k i
    · rw [e1, e2]
    · rw [e1, set_same] at h1; injection h1 with h1 _; subst h1
      rw [set_other _ _ _ e2] at h2
      have := h.items _ _ _ hq h2; rw [hfresh] at this; simp at this
    · rw [e2, set_same] at h2; injection h2 with h2 _; subst h2
      rw [set_other _ _ _ e1] at h1
      have := h.items _ _ _ hp h1; rw [hfresh] at this; simp at this
    · rw [set_other _ _ _ e1] at h1
      rw [set_other _ _ _ e2] at h2
      exact h.uniq _ _ _ _ _ hp hq h1 h2

/-- Number of never used slots. -/
def numNull (t : Table) : Nat := (List.range SIZE).countP fun p => t p == .null

theorem numNull_pos (h : 0 < numNull t) : ∃ q, q < SIZE ∧ t q = .null := by
  unfold numNull at h
  rw [List.countP_pos_iff] at h
  obtain ⟨a, ha, hn⟩ := h
  exact ⟨a, by simpa using ha, by simpa using hn⟩

theorem numNull_init : numNull init = SIZE := by
  unfold numNull init
  simp

theorem numNull_mono {t t' : Table} (h : ∀ q, t q = .null → t' q = .null) :
    numNull t ≤ numNull t' := by
  unfold numNull
  apply List.countP_mono_left
  intro x _ hx; simp at hx ⊢; exact h x hx

theorem countP_change (l : List Nat) (hl : l.Nodup) (f g : Nat → Bool) (p : Nat)
    (h : ∀ q, q ≠ p → f q = g q) : l.countP f ≤ l.countP g + 1 := by
  induction l with
  | nil => simp
  | cons a l ih =>
    have hn := List.nodup_cons.1 hl
    rw [List.countP_cons, List.countP_cons]
    by_cases e : a = p
    · subst e
      have : l.countP f = l.countP g := by
        apply List.countP_congr
        intro x hx
        rw [h x (fun e => hn.1 (e ▸ hx))]
      rw [this]
      split <;> split <;> omega
    · rw [h a e]
      have := ih hn.2
      split <;> omega

theorem numNull_change {t t' : Table} (p : Nat) (h : ∀ q, q ≠ p → t' q = t q) :
    numNull t ≤ numNull t' + 1 := by
  unfold numNull
  apply countP_change _ List.nodup_range _ _ p
  intro q hq
  rw [h q hq]

theorem run_correct (fuel : Nat) (hf : SIZE ≤ fuel) (ops : List Op) : ∀ t m, R nullKey t m →
    WellFormed nullKey m ops → inserts ops < numNull t →
    ∃ t', runOps nullKey fuel t ops = some (t', (run m ops).2) ∧
      R nullKey t' (run m ops).1 := by
  induction ops with
  | nil => intro t m h _ _; exact ⟨t, rfl, h⟩
  | cons op ops ih =>
    intro t m h hwf hins
    have hnull : ∃ q, q < SIZE ∧ t q = .null := numNull_pos (by
      cases op <;> simp only [inserts] at hins <;> omega)
    cases op with
    | search k =>
      simp only [inserts] at hins
      have hs := search_correct h k fuel hf (Or.inr hnull)
      obtain ⟨t', h1, h2⟩ := ih t m h hwf.2 hins
      refine ⟨t', ?_, h2⟩
      simp [runOps, stepOp, hs, h1, run, step]
    | insert k d =>
      simp only [inserts] at hins
      obtain ⟨hk, hfresh⟩ := hwf.1
      obtain ⟨q, hq, hqn⟩ := hnull
      obtain ⟨t1, ht1, hR, p, _, hch⟩ := insert_correct h k d hk hfresh fuel hf ⟨q, hq, Or.inl hqn⟩
      have hc := numNull_change p hch
      obtain ⟨t', h1, h2⟩ := ih t1 _ hR hwf.2 (by omega)
      refine ⟨t', ?_, h2⟩
      simp [runOps, stepOp, ht1, h1, run, step]
    | delete k =>
      simp only [inserts] at hins
      obtain ⟨t1, ht1, hR, hch⟩ := delete_correct h k hwf.1 fuel hf (Or.inr hnull)
      have hc := numNull_mono hch
      obtain ⟨t', h1, h2⟩ := ih t1 _ hR hwf.2 (by omega)
      refine ⟨t', ?_, h2⟩
      simp [runOps, stepOp, ht1, h1, run, step]

end ExtMpi.HashTable
