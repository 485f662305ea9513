import Verif.Lemmas.OnNodeStage
import Verif.Lemmas.Partition
/-! The layout of the reduction of the instances. -/
namespace ExtMpi.OnNode
open ParallelMemcpy (startOf)

def In (s : Nat × Nat) (x : Nat) : Prop := s.1 ≤ x ∧ x < s.1 + s.2

theorem In.ne {s x} (h : In s x) : s.2 ≠ 0 := by unfold In at h; omega

/-! ### Parts of a vector -/

theorem cut_eq (size u n k : Nat) : cut size u n k =
    (startOf (size / u) n k * u, (startOf (size / u) n (k + 1) - startOf (size / u) n k) * u) := by
  unfold cut startOf
  simp only [Nat.mul_add, Nat.mul_one]
  generalize size / u / n = q
  generalize size / u % n = m
  generalize q * k = w
  split
  · rename_i h
    rw [Nat.min_eq_right (by omega), Nat.min_eq_right (by omega)]
    congr 2; omega
  · rename_i h
    rw [Nat.min_eq_left (by omega), Nat.min_eq_left (by omega)]
    congr 2; omega

theorem in_cut {size u n k x : Nat} (hu : 0 < u) :
    In (cut size u n k) x ↔ startOf (size / u) n k ≤ x / u ∧ x / u < startOf (size / u) n (k + 1) := by
  rw [cut_eq]
  have hm := ParallelMemcpy.startOf_mono (E := size / u) (n := n) (show k ≤ k + 1 by omega)
  unfold In
  simp only
  rw [← Nat.add_mul, Nat.le_div_iff_mul_le hu, Nat.div_lt_iff_lt_mul hu,
    show startOf (size / u) n k + (startOf (size / u) n (k + 1) - startOf (size / u) n k) =
      startOf (size / u) n (k + 1) by omega]

theorem cut_cover {size u n x : Nat} (hu : 0 < u) (hd : u ∣ size) (hn : 0 < n) (hx : x < size) :
    ∃ k, k < n ∧ In (cut size u n k) x := by
  have hx' : x / u < size / u := by
    rw [Nat.div_lt_iff_lt_mul hu, Nat.div_mul_cancel hd]; exact hx
  obtain ⟨r, hr, h⟩ := ParallelMemcpy.owner_exists hn hx'
  exact ⟨r, hr, (in_cut hu).2 h⟩

theorem cut_disj {size u n k k' x : Nat} (hu : 0 < u) (h : In (cut size u n k) x) (h' : In (cut size u n k') x) :
    k = k' :=
  (ParallelMemcpy.owner_unique ((in_cut hu).1 h) ((in_cut hu).1 h')).symm

theorem cut_le {size u n k : Nat} (hn : 0 < n) (hk : k < n) : (cut size u n k).1 + (cut size u n k).2 ≤ size := by
  rw [cut_eq]
  have hm := ParallelMemcpy.startOf_mono (E := size / u) (n := n) (show k ≤ k + 1 by omega)
  have hm2 := ParallelMemcpy.startOf_mono (E := size / u) (n := n) (show k + 1 ≤ n by omega)
  rw [ParallelMemcpy.startOf_n _ _ hn] at hm2
  simp only
  rw [← Nat.add_mul,
    show startOf (size / u) n k + (startOf (size / u) n (k + 1) - startOf (size / u) n k) =
      startOf (size / u) n (k + 1) by omega]
  exact Nat.le_trans (Nat.mul_le_mul_right u hm2) (Nat.div_mul_le_self _ _)

theorem cut_zero_ne {size n : Nat} (hn : 0 < n) (hs : 0 < size) : (cut size 1 n 0).2 ≠ 0 := by
  unfold cut
  simp only [Nat.div_one, Nat.mul_one]
  split
  · rename_i h
    have h0 : size % n = 0 := by omega
    have := Nat.div_add_mod size n
    simp only
    intro hz
    rw [hz] at this
    simp at this; omega
  · simp

/-! ### Parts of the processes of a block -/

/-- Division of the parts by a step with factor `f`. -/
def slice (ts u f : Nat) (sl : Nat → Nat × Nat) (y : Nat) : Nat × Nat :=
  let a := sl (y / f)
  if a.2 * ts / f ≥ cacheLine then (a.1 + (cut a.2 u f (y % f)).1, (cut a.2 u f (y % f)).2)
  else (a.1, if y % f = 0 then a.2 else 0)

structure Slices (ts len blk : Nat) (sl : Nat → Nat × Nat) : Prop where
  inside : ∀ y, y < blk → (sl y).1 + (sl y).2 ≤ len
  cover : ∀ x, x < len → ∃ y, y < blk ∧ In (sl y) x
  disj : ∀ x y y', y < blk → y' < blk → In (sl y) x → In (sl y') x → y = y'
  zero : 0 < len → (sl 0).2 ≠ 0
  small : len * ts < cacheLine → ∀ y, y < blk → (sl y).2 ≠ 0 → y = 0

theorem slices_one (ts len : Nat) : Slices ts len 1 (fun _ => (0, len)) where
  inside := by simp
  cover := fun x hx => ⟨0, by omega, by unfold In; simp; omega⟩
  disj := by intros; omega
  zero := by simp; omega
  small := by intros; omega

theorem slice_in {ts u f : Nat} {sl : Nat → Nat × Nat} {y x : Nat} (hf : 0 < f) (h : In (slice ts u f sl y) x) :
    In (sl (y / f)) x := by
  unfold slice at h
  simp only at h
  split at h
  · have := cut_le (size := (sl (y / f)).2) (u := u) (n := f) (k := y % f) hf (Nat.mod_lt _ hf)
    unfold In at h ⊢
    simp only at h
    omega
  · unfold In at h ⊢
    simp only at h
    split at h <;> omega

theorem Slices.unit {ts len blk sl} (h : Slices ts len blk sl) {u : Nat} (hu : u = 1 ∨ len * ts < cacheLine) {f y : Nat}
    (hy : y < blk) (hs : (sl y).2 * ts / f ≥ cacheLine) : u = 1 := by
  rcases hu with hu | hu
  · exact hu
  · have h1 := h.inside y hy
    have h2 : (sl y).2 * ts ≤ len * ts := Nat.mul_le_mul_right _ (by omega)
    have h3 := Nat.div_le_self ((sl y).2 * ts) f
    omega

theorem Slices.next {ts len blk sl} (h : Slices ts len blk sl) {u f : Nat} (hf : 0 < f)
    (hu : u = 1 ∨ len * ts < cacheLine) : Slices ts len (blk * f) (slice ts u f sl) where
  inside := by
    intro y hy
    have hy' : y / f < blk := by rw [Nat.div_lt_iff_lt_mul hf]; exact hy
    have h1 := h.inside _ hy'
    unfold slice
    simp only
    split
    · have := cut_le (size := (sl (y / f)).2) (u := u) (n := f) (k := y % f) hf (Nat.mod_lt _ hf)
      simp only
      omega
    · simp only
      split <;> omega
  cover := by
    intro x hx
    obtain ⟨y, hy, hin⟩ := h.cover x hx
    by_cases hs : (sl y).2 * ts / f ≥ cacheLine
    · have h1 := h.unit hu hy hs
      subst h1
      obtain ⟨k, hk, hin2⟩ := cut_cover (size := (sl y).2) (u := 1) (n := f) (x := x - (sl y).1) (by omega) (by simp) hf
        (by unfold In at hin; omega)
      refine ⟨y * f + k, ?_, ?_⟩
      · calc y * f + k < y * f + f := by omega
          _ = (y + 1) * f := by ring
          _ ≤ blk * f := Nat.mul_le_mul_right _ hy
      · have e1 : (y * f + k) / f = y := by
          rw [Nat.mul_comm, Nat.mul_add_div hf, Nat.div_eq_of_lt hk, Nat.add_zero]
        have e2 : (y * f + k) % f = k := by
          rw [Nat.mul_comm, Nat.mul_add_mod, Nat.mod_eq_of_lt hk]
        unfold slice
        simp only [e1, e2, hs, if_true]
        unfold In at hin hin2 ⊢
        simp only
        omega
    · refine ⟨y * f, Nat.mul_lt_mul_of_pos_right hy hf, ?_⟩
      unfold slice
      simp only [Nat.mul_div_cancel _ hf, hs, if_false, Nat.mul_mod_left, if_true]
      exact hin
  disj := by
    intro x y y' hy hy' hin hin'
    have hd : y / f = y' / f :=
      h.disj x _ _ (by rw [Nat.div_lt_iff_lt_mul hf]; exact hy) (by rw [Nat.div_lt_iff_lt_mul hf]; exact hy')
        (slice_in hf hin) (slice_in hf hin')
    have hm : y % f = y' % f := by
      unfold slice at hin hin'
      rw [← hd] at hin'
      simp only at hin hin'
      split at hin
      · rename_i hs
        simp only [hs, if_true] at hin'
        have h1 := h.unit hu (show y / f < blk by rw [Nat.div_lt_iff_lt_mul hf]; exact hy) hs
        subst h1
        apply cut_disj (size := (sl (y / f)).2) (u := 1) (n := f) (x := x - (sl (y / f)).1) (by omega)
        · unfold In at hin ⊢; simp only at hin; omega
        · unfold In at hin' ⊢; simp only at hin'; omega
      · rename_i hs
        simp only [hs, if_false] at hin'
        have h1 := hin.ne
        have h2 := hin'.ne
        simp only at h1 h2
        split at h1 <;> split at h2 <;> simp_all
    rw [← Nat.div_add_mod y f, ← Nat.div_add_mod y' f, hd, hm]
  zero := by
    intro hl
    have h0 := h.zero hl
    unfold slice
    simp only [Nat.zero_div, Nat.zero_mod]
    split
    · rename_i hs
      by_cases hb : 0 < blk
      · have h1 := h.unit hu hb hs
        subst h1
        exact cut_zero_ne hf (by omega)
      · exfalso
        obtain ⟨y, hy, _⟩ := h.cover 0 hl
        omega
    · simpa using h0
  small := by
    intro hs y hy hne
    have hy' : y / f < blk := by rw [Nat.div_lt_iff_lt_mul hf]; exact hy
    have h1 := h.inside _ hy'
    have h2 : (sl (y / f)).2 * ts ≤ len * ts := Nat.mul_le_mul_right _ (by omega)
    have h3 := Nat.div_le_self ((sl (y / f)).2 * ts) f
    unfold slice at hne
    simp only [show ¬ ((sl (y / f)).2 * ts / f ≥ cacheLine) by omega, if_false] at hne
    split at hne
    · rename_i hm
      have := h.small hs _ hy' hne
      rw [← Nat.div_add_mod y f, hm, this]; simp
    · exact absurd rfl hne

/-! ### Positions -/

theorem posX (G gb f i j k : Nat) (hG : G = gb * f) (hj : j < gb) (hk : k < f) :
    (i * G + (j * f + k)) / G = i ∧ (i * G + (j * f + k)) % G = j * f + k ∧ (i * G + (j * f + k)) % G / f = j ∧
      (i * G + (j * f + k)) % f = k ∧ (i * G + (j * f + k)) / f * f = i * G + j * f := by
  have hlt : j * f + k < G := by
    rw [hG]
    calc j * f + k < j * f + f := by omega
      _ = (j + 1) * f := by ring
      _ ≤ gb * f := Nat.mul_le_mul_right _ hj
  have h1 : (i * G + (j * f + k)) / G = i := by
    rw [Nat.mul_comm, Nat.mul_add_div (by omega), Nat.div_eq_of_lt hlt, Nat.add_zero]
  have h2 : (i * G + (j * f + k)) % G = j * f + k := by
    rw [Nat.mul_comm, Nat.mul_add_mod, Nat.mod_eq_of_lt hlt]
  have hf : 0 < f := by omega
  have e : i * G + (j * f + k) = f * (i * gb + j) + k := by rw [hG]; ring
  refine ⟨h1, h2, ?_, ?_, ?_⟩
  · rw [h2, Nat.mul_comm, Nat.mul_add_div hf, Nat.div_eq_of_lt hk, Nat.add_zero]
  · rw [e, Nat.mul_add_mod, Nat.mod_eq_of_lt hk]
  · rw [e, Nat.mul_add_div hf, Nat.div_eq_of_lt hk, Nat.add_zero, hG]; ring

theorem posY (G gb f i j k : Nat) (hG : G = gb * f) (hj : j < gb) (hk : k < f) :
    (i * G + (j + k * gb)) / G = i ∧ (i * G + (j + k * gb)) % gb = j ∧ (i * G + (j + k * gb)) / gb = i * f + k ∧
      (i * G + (j + k * gb)) % G / gb = k := by
  have hlt : j + k * gb < G := by
    rw [hG]
    calc j + k * gb < gb + k * gb := by omega
      _ = (k + 1) * gb := by ring
      _ ≤ f * gb := Nat.mul_le_mul_right _ hk
      _ = gb * f := Nat.mul_comm _ _
  have h1 : (i * G + (j + k * gb)) / G = i := by
    rw [Nat.mul_comm, Nat.mul_add_div (by omega), Nat.div_eq_of_lt hlt, Nat.add_zero]
  have h2 : (i * G + (j + k * gb)) % G = j + k * gb := by
    rw [Nat.mul_comm, Nat.mul_add_mod, Nat.mod_eq_of_lt hlt]
  have hg : 0 < gb := by omega
  have e : i * G + (j + k * gb) = gb * (i * f + k) + j := by rw [hG]; ring
  refine ⟨h1, ?_, ?_, ?_⟩
  · rw [e, Nat.mul_add_mod, Nat.mod_eq_of_lt hj]
  · rw [e, Nat.mul_add_div hg, Nat.div_eq_of_lt hj, Nat.add_zero]
  · rw [h2, Nat.add_mul_div_right _ _ hg, Nat.div_eq_of_lt hj, Nat.zero_add]

theorem decX (G gb f x : Nat) (hG : G = gb * f) (hg : 0 < gb) (hf : 0 < f) :
    ∃ i j k, j < gb ∧ k < f ∧ x = i * G + (j * f + k) := by
  have hGp : 0 < G := by rw [hG]; exact Nat.mul_pos hg hf
  refine ⟨x / G, x % G / f, x % G % f, ?_, Nat.mod_lt _ hf, ?_⟩
  · rw [Nat.div_lt_iff_lt_mul hf, ← hG]; exact Nat.mod_lt _ hGp
  · have := Nat.div_add_mod (x % G) f
    have h2 := Nat.div_add_mod x G
    rw [Nat.mul_comm (x % G / f), this, Nat.mul_comm, h2]

theorem decY (G gb f x : Nat) (hG : G = gb * f) (hg : 0 < gb) (hf : 0 < f) :
    ∃ i j k, j < gb ∧ k < f ∧ x = i * G + (j + k * gb) := by
  have hGp : 0 < G := by rw [hG]; exact Nat.mul_pos hg hf
  refine ⟨x / G, x % G % gb, x % G / gb, Nat.mod_lt _ hg, ?_, ?_⟩
  · rw [Nat.div_lt_iff_lt_mul hg, Nat.mul_comm, ← hG]; exact Nat.mod_lt _ hGp
  · have := Nat.div_add_mod (x % G) gb
    have h2 := Nat.div_add_mod x G
    rw [Nat.mul_comm (x % G / gb), Nat.add_comm (x % G % gb), this, Nat.mul_comm, h2]

theorem block_lt {G v i r : Nat} (hd : G ∣ v) (h : i * G + r < v) (r' : Nat) (hr' : r' < G) : i * G + r' < v := by
  obtain ⟨w, rfl⟩ := hd
  have : i < w := by
    by_contra hc
    have : w * G ≤ i * G := Nat.mul_le_mul_right _ (by omega)
    rw [Nat.mul_comm G w] at h
    omega
  have h2 : (i + 1) * G ≤ w * G := Nat.mul_le_mul_right _ this
  rw [Nat.mul_comm G w]
  have : (i + 1) * G = i * G + G := by ring
  omega

/-- New position of the entry at position `x`. -/
def shuffle (gb f x : Nat) : Nat := x / (gb * f) * (gb * f) + (x % gb * f + x % (gb * f) / gb)

theorem shuffle_pos {gb f i j k : Nat} (hj : j < gb) (hk : k < f) :
    shuffle gb f (i * (gb * f) + (j + k * gb)) = i * (gb * f) + (j * f + k) := by
  obtain ⟨h1, h2, _, h4⟩ := posY _ gb f i j k rfl hj hk
  unfold shuffle
  rw [h1, h2, h4]

/-! ### The layout -/

structure Lay (n v ts len gb : Nat) (sl : Nat → Nat × Nat) (idx : Nat → Nat) (lay : Nat → Seg) : Prop where
  idx_lt : ∀ p, p < n → idx p < v
  rank : ∀ p, p < n → (lay (idx p)).rank = p
  uniq : ∀ x p, x < v → p < n → (lay x).rank = p → x = idx p
  range : ∀ x, x < v → (lay x).rank = -1 ∨ ∃ p, p < n ∧ (lay x).rank = p
  block : ∀ p, p < n → idx p / gb = p / gb
  full : v = n → ∀ x, x < v → ∃ p, p < n ∧ idx p = x
  base : ∀ p, p < n → p % gb = 0 → idx p = p
  size : ∀ x, x < v → x / gb * gb < n → (lay x).size = (sl (x % gb)).2
  offset : ∀ x, x < v → x / gb * gb < n → (lay x).size ≠ 0 →
    (lay x).offset = ((x / gb * gb * len + (sl (x % gb)).1 : Nat) : Int)

theorem lay_zero (n v ts len : Nat) (hv : n ≤ v) : Lay n v ts len 1 (fun _ => (0, len)) id (layout0 n len) where
  idx_lt := fun p hp => by simp; omega
  rank := fun p hp => by simp [layout0, hp]
  uniq := by
    intro x p hx hp h
    simp only [layout0] at h
    split at h <;> simp at h ⊢ <;> omega
  range := by
    intro x _
    simp only [layout0]
    by_cases h : x < n
    · exact Or.inr ⟨x, h, by simp [h]⟩
    · exact Or.inl (by simp [h])
  block := by simp
  full := fun h x hx => ⟨x, by omega, rfl⟩
  base := by simp
  size := by simp [layout0]
  offset := by intro x _ _ _; simp [layout0]

/-- The step, in terms of positions. -/
theorem relayout_pos (ts u n len gb f : Nat) (old : Nat → Seg) {i j k : Nat} (hj : j < gb) (hk : k < f) :
    relayout ts u n len gb f old (i * (gb * f) + (j * f + k)) =
      (let a := old (i * (gb * f) + j)
       let c := old (i * (gb * f) + (j + k * gb))
       let p : Nat × Nat := if a.size * ts / f ≥ cacheLine then cut c.size u f k else (0, if k = 0 then a.size else 0)
       if a.offset ≥ ((len * n : Nat) : Int) then ⟨0, -1, c.rank⟩ else ⟨p.2, a.offset + p.1, c.rank⟩) := by
  obtain ⟨h1, h2, h3, h4, _⟩ := posX _ gb f i j k rfl hj hk
  unfold relayout
  simp only [h1, h3, h4, Nat.add_assoc]

theorem Lay.next {n v ts len gb sl idx lay} (h : Lay n v ts len gb sl idx lay) (hs : Slices ts len gb sl) {u f : Nat}
    (hg : 0 < gb) (hf : 0 < f) (hd : gb * f ∣ v) (hv : v = n ∨ len * ts < cacheLine) :
    Lay n v ts len (gb * f) (slice ts u f sl) (fun p => shuffle gb f (idx p)) (relayout ts u n len gb f lay) where
  idx_lt := by
    intro p hp
    obtain ⟨i, j, k, hj, hk, hx⟩ := decY _ gb f (idx p) rfl hg hf
    have hlt := h.idx_lt p hp
    show shuffle gb f (idx p) < v
    rw [hx] at hlt ⊢
    rw [shuffle_pos hj hk]
    apply block_lt hd hlt
    have := posX _ gb f i j k rfl hj hk
    rw [← this.2.1]
    exact Nat.mod_lt _ (Nat.mul_pos hg hf)
  rank := by
    intro p hp
    obtain ⟨i, j, k, hj, hk, hx⟩ := decY _ gb f (idx p) rfl hg hf
    have hr := h.rank p hp
    rw [hx] at hr ⊢
    rw [shuffle_pos hj hk, relayout_pos _ _ _ _ _ _ _ hj hk]
    simp only
    split <;> exact hr
  uniq := by
    intro x p hx hp hr
    obtain ⟨i, j, k, hj, hk, rfl⟩ := decX _ gb f x rfl hg hf
    rw [relayout_pos _ _ _ _ _ _ _ hj hk] at hr
    have hr' : (lay (i * (gb * f) + (j + k * gb))).rank = p := by
      simp only at hr
      split at hr <;> exact hr
    have hlt : i * (gb * f) + (j + k * gb) < v := by
      apply block_lt hd hx
      calc j + k * gb < gb + k * gb := by omega
        _ = (k + 1) * gb := by ring
        _ ≤ f * gb := Nat.mul_le_mul_right _ hk
        _ = gb * f := Nat.mul_comm _ _
    have := h.uniq _ p hlt hp hr'
    rw [← this, shuffle_pos hj hk]
  range := by
    intro x hx
    obtain ⟨i, j, k, hj, hk, rfl⟩ := decX _ gb f x rfl hg hf
    have hlt : i * (gb * f) + (j + k * gb) < v := by
      apply block_lt hd hx
      calc j + k * gb < gb + k * gb := by omega
        _ = (k + 1) * gb := by ring
        _ ≤ f * gb := Nat.mul_le_mul_right _ hk
        _ = gb * f := Nat.mul_comm _ _
    rw [relayout_pos _ _ _ _ _ _ _ hj hk]
    simp only
    split <;> exact h.range _ hlt
  block := by
    intro p hp
    obtain ⟨i, j, k, hj, hk, hx⟩ := decY _ gb f (idx p) rfl hg hf
    have hb := h.block p hp
    rw [hx] at hb ⊢
    rw [shuffle_pos hj hk, (posX _ gb f i j k rfl hj hk).1, ← Nat.div_div_eq_div_mul, ← hb,
      (posY _ gb f i j k rfl hj hk).2.2.1, Nat.mul_comm, Nat.mul_add_div hf, Nat.div_eq_of_lt hk, Nat.add_zero]
  full := by
    intro hvn x hx
    obtain ⟨i, j, k, hj, hk, rfl⟩ := decX _ gb f x rfl hg hf
    have hlt : i * (gb * f) + (j + k * gb) < v := by
      apply block_lt hd hx
      calc j + k * gb < gb + k * gb := by omega
        _ = (k + 1) * gb := by ring
        _ ≤ f * gb := Nat.mul_le_mul_right _ hk
        _ = gb * f := Nat.mul_comm _ _
    obtain ⟨p, hp, hpx⟩ := h.full hvn _ hlt
    exact ⟨p, hp, by rw [hpx, shuffle_pos hj hk]⟩
  base := by
    intro p hp hm
    have h1 : p % gb = 0 := by
      have := Nat.mod_mul_right_mod p gb f
      rw [hm] at this
      simpa using this.symm
    rw [h.base p hp h1]
    have : p = p / (gb * f) * (gb * f) + (0 + 0 * gb) := by
      have := Nat.div_add_mod p (gb * f)
      rw [hm, Nat.mul_comm] at this
      simp; omega
    rw [this, shuffle_pos hg hf]
    simp
  size := by
    intro x hx hb
    obtain ⟨i, j, k, hj, hk, rfl⟩ := decX _ gb f x rfl hg hf
    obtain ⟨h1, h2, h3, h4, h5⟩ := posX _ gb f i j k rfl hj hk
    rw [h1] at hb
    rw [relayout_pos _ _ _ _ _ _ _ hj hk]
    have hlt0 : i * (gb * f) + (j + 0 * gb) < v := by
      apply block_lt hd hx
      have := Nat.le_mul_of_pos_right gb hf
      omega
    have hlt : i * (gb * f) + (j + k * gb) < v := by
      apply block_lt hd hx
      calc j + k * gb < gb + k * gb := by omega
        _ = (k + 1) * gb := by ring
        _ ≤ f * gb := Nat.mul_le_mul_right _ hk
        _ = gb * f := Nat.mul_comm _ _
    obtain ⟨y1, y2, y3, _⟩ := posY _ gb f i j 0 rfl hj (by omega)
    obtain ⟨z1, z2, z3, _⟩ := posY _ gb f i j k rfl hj hk
    have e0 : i * (gb * f) + j = i * (gb * f) + (j + 0 * gb) := by omega
    have hbk : (i * (gb * f) + (j + 0 * gb)) / gb * gb < n := by
      rw [y3, Nat.add_zero]
      calc i * f * gb = i * (gb * f) := by ring
        _ < n := hb
    have hsz := h.size _ hlt0 hbk
    rw [y2] at hsz
    have hoff := h.offset _ hlt0 hbk
    rw [← e0] at hsz hoff
    unfold slice
    rw [h2, show (j * f + k) / f = j by rw [← h2]; exact h3, show (j * f + k) % f = k by
      rw [Nat.mul_comm, Nat.mul_add_mod, Nat.mod_eq_of_lt hk]]
    simp only [hsz]
    by_cases h0 : (sl j).2 = 0
    · rw [h0]
      have e1 : ¬ (0 * ts / f ≥ cacheLine) := by simp [cacheLine]
      simp only [e1, if_false]
      split <;> simp
    · have hcond : ¬ (lay (i * (gb * f) + j)).offset ≥ ((len * n : Nat) : Int) := by
        rw [hoff (by rw [hsz]; exact h0)]
        have hi := hs.inside j hj
        rw [e0, y3, y2, Nat.add_zero]
        have : (i * f * gb + 1) * len ≤ n * len :=
          Nat.mul_le_mul_right _ (by rw [e0, y3] at *; rw [Nat.add_zero] at hbk; omega)
        have e2 : (i * f * gb + 1) * len = i * f * gb * len + len := by ring
        have e3 : n * len = len * n := Nat.mul_comm _ _
        intro hge
        have hge' : len * n ≤ i * f * gb * len + (sl j).1 := by exact_mod_cast hge
        omega
      rw [if_neg hcond]
      split
      · rename_i hsp
        have hvn : v = n := by
          rcases hv with hv | hv
          · exact hv
          · have hi := hs.inside j hj
            have h2 : (sl j).2 * ts ≤ len * ts := Nat.mul_le_mul_right _ (by omega)
            have h3 := Nat.div_le_self ((sl j).2 * ts) f
            omega
        have hc := h.size _ hlt (by
          have := Nat.div_mul_le_self (i * (gb * f) + (j + k * gb)) gb
          omega)
        rw [z2] at hc
        rw [hc]
      · rfl
  offset := by
    intro x hx hb
    obtain ⟨i, j, k, hj, hk, rfl⟩ := decX _ gb f x rfl hg hf
    obtain ⟨h1, h2, h3, h4, h5⟩ := posX _ gb f i j k rfl hj hk
    rw [h1] at hb ⊢
    rw [relayout_pos _ _ _ _ _ _ _ hj hk]
    have hlt0 : i * (gb * f) + (j + 0 * gb) < v := by
      apply block_lt hd hx
      have := Nat.le_mul_of_pos_right gb hf
      omega
    have hlt : i * (gb * f) + (j + k * gb) < v := by
      apply block_lt hd hx
      calc j + k * gb < gb + k * gb := by omega
        _ = (k + 1) * gb := by ring
        _ ≤ f * gb := Nat.mul_le_mul_right _ hk
        _ = gb * f := Nat.mul_comm _ _
    obtain ⟨y1, y2, y3, _⟩ := posY _ gb f i j 0 rfl hj (by omega)
    obtain ⟨z1, z2, z3, _⟩ := posY _ gb f i j k rfl hj hk
    have e0 : i * (gb * f) + j = i * (gb * f) + (j + 0 * gb) := by omega
    have hbk : (i * (gb * f) + (j + 0 * gb)) / gb * gb < n := by
      rw [y3, Nat.add_zero]
      calc i * f * gb = i * (gb * f) := by ring
        _ < n := hb
    have hsz := h.size _ hlt0 hbk
    rw [y2] at hsz
    have hoff := h.offset _ hlt0 hbk
    rw [← e0] at hsz hoff
    unfold slice
    rw [h2, show (j * f + k) / f = j by rw [← h2]; exact h3, show (j * f + k) % f = k by
      rw [Nat.mul_comm, Nat.mul_add_mod, Nat.mod_eq_of_lt hk]]
    simp only [hsz]
    by_cases h0 : (sl j).2 = 0
    · rw [h0]
      have e1 : ¬ (0 * ts / f ≥ cacheLine) := by simp [cacheLine]
      simp only [e1, if_false]
      split <;> simp
    · rw [hoff (by rw [hsz]; exact h0), e0, y3, y2, Nat.add_zero]
      split
      · simp
      · intro _
        split
        · rename_i hsp
          have hvn : v = n := by
            rcases hv with hv | hv
            · exact hv
            · have hi := hs.inside j hj
              have h2 : (sl j).2 * ts ≤ len * ts := Nat.mul_le_mul_right _ (by omega)
              have h3 := Nat.div_le_self ((sl j).2 * ts) f
              omega
          have hc := h.size _ hlt (by
            have := Nat.div_mul_le_self (i * (gb * f) + (j + k * gb)) gb
            omega)
          rw [z2] at hc
          rw [hc]
          push_cast
          ring
        · push_cast
          ring

theorem Lay.ownIndex {n v ts len gb sl idx lay} (h : Lay n v ts len gb sl idx lay) {p : Nat} (hp : p < n) :
    ownIndex v lay p = idx p := by
  unfold OnNode.ownIndex
  have hm : idx p ∈ (List.range v).filter fun x => (lay x).rank == (p : Int) := by
    simp [h.idx_lt p hp, h.rank p hp]
  have hne := List.ne_nil_of_mem hm
  rw [List.getLast?_eq_getLast_of_ne_nil hne, Option.getD_some]
  have := List.getLast_mem hne
  simp only [List.mem_filter, List.mem_range, beq_iff_eq] at this
  exact h.uniq _ p this.1 hp this.2

end ExtMpi.OnNode
