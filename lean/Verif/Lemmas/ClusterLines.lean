import Verif.Lemmas.ClusterCopy
import Verif.Lemmas.RawCodeCopy
/-! The lines of block 0 of a reduction in the copy-in of a node. -/
namespace ExtMpi.OnNode
open Schedule
open RawCode (moffset lo moffset_eq lo_succ lo_end)

/-- Position in the send buffer of element `e` of the lines. -/
def sig (sz : Nat → Nat) : Block → Nat → Nat
  | [], _ => 0
  | l :: ls, e => if e < sz l.frac then moffset sz l.frac + e else sig sz ls (e - sz l.frac)

/-- Number of elements of the lines. -/
def total (sz : Nat → Nat) : Block → Nat
  | [] => 0
  | l :: ls => sz l.frac + total sz ls

theorem sig_map {sz : Nat → Nat} {g : LineD → LineD} (hg : ∀ l, (g l).frac = l.frac) (b : Block) : sig sz (b.map g) = sig sz b := by
  induction b with
  | nil => rfl
  | cons l b ih =>
    funext e
    rw [List.map_cons, sig, sig, hg, ih]

theorem ringSlice_map {g : LineD → LineD} (hg : ∀ l, (g l).frac = l.frac) (k : Nat) (reg : Reg) (start : Nat) (red : Bool)
    (sz : Nat → Nat) (len al sl : Nat) (b : Block) : ∀ add,
    ringSlice k reg start red sz len al sl add (b.map g) = ringSlice k reg start red sz len al sl add b := by
  induction b with
  | nil => intro add; rfl
  | cons l b ih =>
    intro add
    rw [List.map_cons]
    unfold ringSlice
    dsimp only
    rw [hg, ih]

theorem copyInWith_map {g : LineD → LineD} (hg : ∀ l, (g l).frac = l.frac) (fast : Bool) (u : Nat) (pl : Place) (P : Par)
    (sz : Nat → Nat) (b : Block) (bb k own : Nat) :
    copyInWith fast u pl P sz (b.map g) bb k own = copyInWith fast u pl P sz b bb k own := by
  unfold copyInWith reduceCopyin
  simp only [ringSlice_map hg]

/-- Position of the elements of line `n`. -/
theorem sig_line {sz f : Nat → Nat} (b : Block) : ∀ n l i, b[n]? = some l → (∀ k l', k ≤ n → b[k]? = some l' → f k = sz l'.frac) →
    i < sz l.frac → sig sz b (lo f n + i) = moffset sz l.frac + i := by
  induction b generalizing f with
  | nil => intro n l i h; cases h
  | cons l0 b ih =>
    intro n l i h hf hi
    cases n with
    | zero =>
      cases h
      show sig sz (l0 :: b) (0 + i) = _
      rw [Nat.zero_add, sig, if_pos hi]
    | succ n =>
      have h0 := hf 0 l0 (Nat.zero_le _) rfl
      have hl : lo f (n + 1) = sz l0.frac + lo (fun k => f (k + 1)) n := by
        rw [← h0]
        have : ∀ n, lo f (n + 1) = f 0 + lo (fun k => f (k + 1)) n := by
          intro n
          induction n with
          | zero => rw [lo_succ]; show 0 + f 0 = f 0 + 0; omega
          | succ n ih => rw [lo_succ, ih, lo_succ]; omega
        exact this n
      rw [hl, sig, if_neg (by omega), show sz l0.frac + lo (fun k => f (k + 1)) n + i - sz l0.frac = lo (fun k => f (k + 1)) n + i by omega]
      exact ih (f := fun k => f (k + 1)) n l i h (fun k l' hk h' => hf (k + 1) l' (by omega) h') hi

/-- Elements of a part of the vector in the order of the lines. -/
theorem ring_elems {sz : Nat → Nat} {N len : Nat} (hlen : len = moffset sz N) (start : Nat) (red : Bool) (al sl p : Nat)
    (hsl : al + sl ≤ len) (b : Block) (hb : ∀ l, l ∈ b → l.frac < N) : ∀ add,
    (∀ i ∈ ringSlice 0 (.shm 0) start red sz len al sl add b, i.isCopy = true) ∧
    (ringSlice 0 (.shm 0) start red sz len al sl add b).flatMap (Instr.elems p) =
      (List.range' (max al add) (min (al + sl) (add + total sz b) - max al add)).map fun x =>
        ⟨red, Addr.cell ⟨.shm 0, start⟩ p x, .send p 0 (sig sz b (x - add))⟩ := by
  induction b with
  | nil =>
    intro add
    refine ⟨(by intro i hi; exact absurd hi List.not_mem_nil), ?_⟩
    rw [show min (al + sl) (add + total sz []) - max al add = 0 by unfold total; omega]
    rfl
  | cons l b ih =>
    intro add
    obtain ⟨h1, h2⟩ := ih (fun l' hl' => hb l' (List.mem_cons_of_mem _ hl')) (add + sz l.frac)
    have hfr : moffset sz l.frac + sz l.frac ≤ len := by
      rw [hlen, moffset_eq, moffset_eq]
      exact lo_end sz (hb l List.mem_cons_self)
    rw [ringSlice]
    dsimp only
    -- the part of the first line
    obtain ⟨x0, hx0⟩ : ∃ x0, x0 = max al add := ⟨_, rfl⟩
    obtain ⟨n, hn⟩ : ∃ n, n = min (al + sl) (add + sz l.frac) - max al add := ⟨_, rfl⟩
    have hfst : (if al + sl ≤ add ∨ add + sz l.frac ≤ al then [] else
        if (if add + sz l.frac < (if add > al then add else al) + (if add > al then sl - (add - al) else sl) then
            add + sz l.frac - (if add > al then add else al) else if add > al then sl - (add - al) else sl) = 0 then []
        else [Instr.copy red ⟨.shm 0, (len + if add > al then add else al) % len + start⟩
          ⟨.send 0, (len + (if add > al then add else al) - add + moffset sz l.frac) % len⟩
          (if add + sz l.frac < (if add > al then add else al) + (if add > al then sl - (add - al) else sl) then
            add + sz l.frac - (if add > al then add else al) else if add > al then sl - (add - al) else sl)]) =
        if n = 0 then [] else [Instr.copy red ⟨.shm 0, x0 + start⟩ ⟨.send 0, moffset sz l.frac + (x0 - add)⟩ n] := by
      by_cases c : al + sl ≤ add ∨ add + sz l.frac ≤ al
      · rw [if_pos c, if_pos (by omega)]
      · rw [if_neg c]
        have e1 : (if add > al then add else al) = x0 := by split <;> omega
        have e2 : (if add + sz l.frac < (if add > al then add else al) + (if add > al then sl - (add - al) else sl) then
            add + sz l.frac - (if add > al then add else al) else if add > al then sl - (add - al) else sl) = n := by
          split_ifs <;> omega
        rw [e2, e1]
        by_cases hn0 : n = 0
        · rw [if_pos hn0, if_pos hn0]
        · rw [if_neg hn0, if_neg hn0]
          have e3 : (len + x0) % len = x0 := by
            rw [Nat.add_mod_left, Nat.mod_eq_of_lt (by omega)]
          have e4 : (len + x0 - add + moffset sz l.frac) % len = moffset sz l.frac + (x0 - add) := by
            rw [show len + x0 - add + moffset sz l.frac = len + (moffset sz l.frac + (x0 - add)) by omega, Nat.add_mod_left,
              Nat.mod_eq_of_lt (by omega)]
          rw [e3, e4]
    rw [hfst]
    refine ⟨fun i hi => ?_, ?_⟩
    · rcases List.mem_append.1 hi with hi | hi
      · split at hi
        · cases hi
        · rw [List.mem_singleton.1 hi]; rfl
      · exact h1 i hi
    · rw [List.flatMap_append, h2]
      have hsplit : List.range' (max al add) (min (al + sl) (add + total sz (l :: b)) - max al add) =
          List.range' x0 n ++ List.range' (max al (add + sz l.frac))
            (min (al + sl) (add + sz l.frac + total sz b) - max al (add + sz l.frac)) := by
        have ht : total sz (l :: b) = sz l.frac + total sz b := rfl
        rw [ht, ← hx0]
        by_cases c : max al (add + sz l.frac) < min (al + sl) (add + sz l.frac + total sz b)
        · have e : max al (add + sz l.frac) = x0 + n := by omega
          rw [e, List.range'_append_1]
          congr 1
          omega
        · rw [show min (al + sl) (add + sz l.frac + total sz b) - max al (add + sz l.frac) = 0 by omega, List.range'_zero,
            List.append_nil]
          congr 1
          omega
      rw [hsplit, List.map_append]
      congr 1
      · by_cases hn0 : n = 0
        · rw [if_pos hn0, hn0]; rfl
        · rw [if_neg hn0, List.flatMap_singleton]
          show (List.range n).map _ = _
          rw [List.range'_eq_map_range, List.map_map]
          apply List.map_congr_left
          intro e he
          have he := List.mem_range.1 he
          show Elem.mk _ _ _ = Elem.mk _ _ _
          have hs : sig sz (l :: b) (x0 + e - add) = moffset sz l.frac + (x0 - add) + e := by
            rw [sig, if_pos (by omega)]; omega
          dsimp only
          rw [hs]
          congr 1
          show Cell.shm 0 _ = Cell.shm 0 _
          congr 1
          dsimp only; omega
      · apply List.map_congr_left
        intro x hx
        have hx := List.mem_range'_1.1 hx
        have hs : sig sz (l :: b) (x - add) = sig sz b (x - (add + sz l.frac)) := by
          rw [sig, if_neg (by omega)]; congr 1; omega
        rw [hs]

/-- The copy-in of a node reads the send buffers in the order of the lines of block 0. -/
theorem lineOk_sig {sz : Nat → Nat} {N len : Nat} (hlen : len = moffset sz N) (b : Block) (hb : ∀ l, l ∈ b → l.frac < N)
    (ht : len ≤ total sz b) : LineOk sz len b (sig sz b) := by
  intro p start red al sl hsl
  obtain ⟨h1, h2⟩ := ring_elems hlen start red al sl p hsl b hb 0
  refine ⟨h1, ?_⟩
  rw [h2, show max al 0 = al by omega, show min (al + sl) (0 + total sz b) - al = sl by omega, List.range'_eq_map_range, List.map_map]
  apply List.map_congr_left
  intro e _
  rfl

end ExtMpi.OnNode
