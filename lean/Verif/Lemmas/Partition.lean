import Verif.Spec.Partition
import Verif.Model.ParallelMemcpy
import Mathlib.Tactic.Ring
import Mathlib.Tactic.Linarith
import Mathlib.Tactic.ByContra
import Mathlib.Algebra.Order.Ring.Nat

namespace ExtMpi.ParallelMemcpy
open ExtMpi.Lines

/-- Start of the share of process `r` of `E` elements. -/
def startOf (E n r : Nat) : Nat := (E / n) * r + min r (E % n)

theorem startOf_zero (E n : Nat) : startOf E n 0 = 0 := by simp [startOf]

theorem startOf_n (E n : Nat) (hn : 0 < n) : startOf E n n = E := by
  unfold startOf
  have h := Nat.mod_lt E hn
  rw [Nat.min_eq_right (by omega)]
  have := Nat.div_add_mod E n
  rw [Nat.mul_comm]; exact this

theorem startOf_mono {E n a b : Nat} (h : a ≤ b) : startOf E n a ≤ startOf E n b := by
  unfold startOf
  have h1 : (E / n) * a ≤ (E / n) * b := Nat.mul_le_mul_left _ h
  omega

theorem share_spec (S t n r : Nat) :
    share S t n r = (startOf (S / t) n r, startOf (S / t) n (r + 1) - startOf (S / t) n r) := by
  unfold share startOf
  simp only [Nat.mul_add, Nat.mul_one]
  generalize S / t / n = q
  generalize S / t % n = m
  generalize q * r = w
  split
  · rename_i h
    rw [Nat.min_eq_left (by omega), Nat.min_eq_left (by omega)]
    congr 1; omega
  · rename_i h
    rw [Nat.min_eq_right (by omega), Nat.min_eq_right (by omega)]
    congr 1; omega

theorem owner_exists {E n x : Nat} (hn : 0 < n) (hx : x < E) :
    ∃ r, r < n ∧ startOf E n r ≤ x ∧ x < startOf E n (r + 1) := by
  by_contra hcon
  push Not at hcon
  have : ∀ r, r ≤ n → startOf E n r ≤ x := by
    intro r
    induction r with
    | zero => intro _; rw [startOf_zero]; omega
    | succ k ih => intro hk; exact hcon k (by omega) (ih (by omega))
  have := this n (Nat.le_refl n)
  rw [startOf_n E n hn] at this
  omega

theorem owner_unique {E n x r r' : Nat}
    (h : startOf E n r ≤ x ∧ x < startOf E n (r + 1))
    (h' : startOf E n r' ≤ x ∧ x < startOf E n (r' + 1)) : r' = r := by
  rcases Nat.lt_trichotomy r' r with hlt | heq | hgt
  · have := startOf_mono (E := E) (n := n) (show r' + 1 ≤ r by omega); omega
  · exact heq
  · have := startOf_mono (E := E) (n := n) (show r + 1 ≤ r' by omega); omega

/-- The piece in elements: nonempty only inside the line, then it is the share clipped. -/
theorem piece_spec (S size t n r : Nat) (ht : 0 < t) (hd : t ∣ size) :
    (piece S size t n r).1 = startOf (S / t) n r * t ∧
    ∀ e, (startOf (S / t) n r ≤ e ∧ e < startOf (S / t) n r + (piece S size t n r).2 / t) ↔
      (startOf (S / t) n r ≤ e ∧ e < startOf (S / t) n (r + 1) ∧ e < size / t) := by
  obtain ⟨k, rfl⟩ := hd
  unfold piece
  rw [share_spec]
  have hm := startOf_mono (E := S / t) (n := n) (show r ≤ r + 1 by omega)
  generalize startOf (S / t) n r = a at *
  generalize startOf (S / t) n (r + 1) = b at *
  refine ⟨rfl, fun e => ?_⟩
  simp only [Nat.mul_div_cancel _ ht, Nat.mul_div_cancel_left _ ht]
  have h1 : a * t > t * k ↔ a > k := by
    rw [Nat.mul_comm a t]; exact Nat.mul_lt_mul_left ht
  have h2 : (a + (b - a)) * t > t * k ↔ a + (b - a) > k := by
    rw [Nat.mul_comm _ t]; exact Nat.mul_lt_mul_left ht
  simp only [h1, h2]
  split
  · omega
  · split <;> omega

theorem piece_len_dvd (S size t n r : Nat) : t ∣ (piece S size t n r).2 := by
  unfold piece; exact ⟨_, Nat.mul_comm _ _⟩

/-- A byte belongs to the byte range of whole elements iff its element does. -/
theorem byte_range (t a l x : Nat) (ht : 0 < t) :
    (a * t ≤ x ∧ x < a * t + l * t) ↔ (a ≤ x / t ∧ x / t < a + l) := by
  rw [Nat.le_div_iff_mul_le ht, Nat.div_lt_iff_lt_mul ht, Nat.add_mul]

theorem piece_partition (S size t n : Nat) (ht : 0 < t) (hn : 0 < n) (hd : t ∣ size)
    (hS : size ≤ S) :
    Spec.ExactPartition size n (fun r => (piece S size t n r).1)
      (fun r => (piece S size t n r).2) := by
  have hkS : size / t ≤ S / t := Nat.div_le_div_right hS
  have key : ∀ r x, ((piece S size t n r).1 ≤ x ∧
      x < (piece S size t n r).1 + (piece S size t n r).2) ↔
      (startOf (S / t) n r ≤ x / t ∧ x / t < startOf (S / t) n (r + 1) ∧ x / t < size / t) := by
    intro r x
    obtain ⟨h1, h2⟩ := piece_spec S size t n r ht hd
    obtain ⟨l, hl⟩ := piece_len_dvd S size t n r
    have h2 := h2 (x / t)
    rw [hl, Nat.mul_div_cancel_left _ ht] at h2
    rw [← h2, h1, hl, Nat.mul_comm t l]
    exact byte_range t _ l x ht
  refine ⟨fun r hr hl => ?_, fun x hx => ?_⟩
  · show (piece S size t n r).1 + (piece S size t n r).2 ≤ size
    have hl : (piece S size t n r).2 ≠ 0 := hl
    have := (key r ((piece S size t n r).1 + (piece S size t n r).2 - 1)).1 (by omega)
    have h3 := this.2.2
    obtain ⟨k, rfl⟩ := hd
    rw [Nat.mul_div_cancel_left _ ht, Nat.div_lt_iff_lt_mul ht, Nat.mul_comm k t] at h3
    omega
  · have hxt : x / t < size / t := by
      obtain ⟨k, rfl⟩ := hd
      rw [Nat.mul_div_cancel_left _ ht, Nat.div_lt_iff_lt_mul ht, Nat.mul_comm k t]
      exact hx
    obtain ⟨r, hr, ha, hb⟩ := owner_exists (E := S / t) hn (show x / t < S / t by omega)
    refine ⟨r, hr, (key r x).2 ⟨ha, hb, hxt⟩, fun r' _ h' => ?_⟩
    have := (key r' x).1 h'
    exact owner_unique ⟨ha, hb⟩ ⟨this.1, this.2.1⟩

theorem copyinShare_eq (total t n c : Nat) :
    copyinShare total t n c =
      (startOf (total / t) n c * t, (startOf (total / t) n (c + 1) - startOf (total / t) n c) * t) := by
  unfold copyinShare startOf
  simp only [Nat.mul_add, Nat.mul_one]
  generalize total / t / n = q
  generalize total / t % n = m
  generalize q * c = w
  split
  · rename_i h
    rw [Nat.min_eq_right (by omega), Nat.min_eq_right (by omega)]
    congr 2; omega
  · rename_i h
    rw [Nat.min_eq_left (by omega), Nat.min_eq_left (by omega)]
    congr 2; omega

theorem copyin_partition (total t n : Nat) (ht : 0 < t) (hn : 0 < n) (hd : t ∣ total) :
    Spec.ExactPartition total n (fun r => (copyinShare total t n r).1)
      (fun r => (copyinShare total t n r).2) := by
  obtain ⟨k, rfl⟩ := hd
  simp only [copyinShare_eq, Nat.mul_div_cancel_left _ ht]
  have key : ∀ r x, (startOf k n r * t ≤ x ∧
      x < startOf k n r * t + (startOf k n (r + 1) - startOf k n r) * t) ↔
      (startOf k n r ≤ x / t ∧ x / t < startOf k n (r + 1)) := by
    intro r x
    have hm := startOf_mono (E := k) (n := n) (show r ≤ r + 1 by omega)
    rw [byte_range t _ _ x ht]
    omega
  refine ⟨fun r hr _ => ?_, fun x hx => ?_⟩
  · have hm := startOf_mono (E := k) (n := n) (show r ≤ r + 1 by omega)
    rw [← Nat.add_mul, Nat.add_sub_cancel' hm, Nat.mul_comm]
    have := startOf_mono (E := k) (n := n) (show r + 1 ≤ n by omega)
    rw [startOf_n k n hn] at this
    exact Nat.mul_le_mul_left t this
  · have hxt : x / t < k := by
      rw [Nat.div_lt_iff_lt_mul ht, Nat.mul_comm k t]; exact hx
    obtain ⟨r, hr, ha, hb⟩ := owner_exists (E := k) hn hxt
    exact ⟨r, hr, (key r x).2 ⟨ha, hb⟩, fun r' _ h' => owner_unique ⟨ha, hb⟩ ((key r' x).1 h')⟩

end ExtMpi.ParallelMemcpy
