import Verif.Props.SingleNode
/-!
# C94: displacements on a single node

`EXT_MPI_Scatterv_init_native` and `EXT_MPI_Gatherv_init_native` (`src/mpi/ext_mpi_native.c:900-1160`, `1162-1375`) have the displacements as a
parameter and do not use it: the programs of the model do not depend on them.
-/
namespace ExtMpi.SingleNode
open OnNode
open RawCode (moffset)
variable {X : Type}

/-- Position of an element in the send buffer as its value. -/
def positions : Cell → Nat
  | .send _ _ e => e
  | _ => 0

/-- Position of an element in the concatenation of all parts, plus one. -/
def numbered (cnt : Nat → Nat) : Cell → Nat
  | .send q _ e => before cnt q + e + 1
  | _ => 0

theorem together_numbered (n : Nat) (cnt : Nat → Nat) (k : Nat) :
    together n cnt (fun q e => numbered cnt (.send q k e)) = (List.range (before cnt n)).map (· + 1) := by
  induction n with
  | zero => simp [together, before]
  | succ n ih =>
    rw [together_succ, ih, before_succ, List.range_add, List.map_append, List.map_map]
    rfl

theorem together_get [AddCommMonoid X] (n : Nat) (cnt : Nat → Nat) (s : Nat → Nat → X) {q e : Nat} (hq : q < n) (he : e < cnt q) :
    (together n cnt s)[before cnt q + e]? = some (s q e) := by
  induction n with
  | zero => omega
  | succ n ih =>
    rw [together_succ]
    by_cases h : q < n
    · have := ih h
      rw [List.getElem?_append_left ((List.getElem?_eq_some_iff.1 this).1)]
      exact this
    · have hq' : q = n := by omega
      subst hq'
      rw [List.getElem?_append_right (by rw [together_length]; omega), together_length, Nat.add_sub_cancel_left, List.getElem?_map,
        List.getElem?_range he]
      rfl

theorem correct_imp {n : Nat} {Y : Type} [AddCommMonoid Y] {prog : Nat → List Instr} {m : Cell → Y} {P Q : (Cell → Y) → Prop} (h : Correct n prog m P)
    (hi : ∀ mem, P mem → Q mem) : Correct n prog m Q := by
  obtain ⟨b, h⟩ := h
  refine ⟨b, fun k s hs => ?_⟩
  obtain ⟨h1, h2⟩ := h k s hs
  exact ⟨h1, h2.imp (fun hf => ⟨hf.1, hi _ hf.2⟩) id⟩

/-- **C94 for scatterv**: right for all data exactly if the displacements of all nonempty parts are those of parts one after the other. -/
theorem scatterv_iff {n root : Nat} (hr : root < n) (cnt displs : Nat → Nat) {mid : Nat} (hm : 0 < mid) (alternate : Bool) :
    (∀ m : Cell → Nat, Correct n (fun p => scatter n cnt root (firstBarriers alternate) mid (bankOf alternate 0) 0 p) m
      fun mem => Delivered n 0 (ScattervD cnt displs root) m mem) ↔
    ∀ p < n, 0 < cnt p → displs p = before cnt p := by
  have hg : ∀ m : Cell → Nat, Correct n (fun p => scatter n cnt root (firstBarriers alternate) mid (bankOf alternate 0) 0 p) m
      fun mem => Delivered n 0 (Scatter cnt root) m mem := by
    intro m
    have := scatter_correct hr cnt hm alternate 1 m
    simp only [List.range_one, List.flatMap_cons, List.flatMap_nil, List.append_nil] at this
    exact correct_imp this fun mem h => h 0 (by omega)
  constructor
  · intro h p hp hc
    obtain ⟨mem, h1, h2⟩ := correct_both (h positions) (hg positions)
    have a := (h1 p hp 0).1
    rw [(h2 p hp 0).1] at a
    simp only [Scatter, ScattervD, if_pos hc, Option.getD_some, positions, Nat.add_zero] at a
    exact a.symm
  · intro h m
    refine correct_imp (hg m) fun mem hd p hp y => ?_
    have := hd p hp y
    refine ⟨?_, this.2⟩
    rw [this.1]
    simp only [Scatter, ScattervD]
    by_cases hy : y < cnt p
    · rw [if_pos hy, if_pos hy, h p hp (by omega)]
    · rw [if_neg hy, if_neg hy]

/-- **C94, violated for scatterv**. -/
theorem scatterv_displs_violated {n root : Nat} (hr : root < n) (cnt displs : Nat → Nat) {mid : Nat} (hm : 0 < mid) (alternate : Bool)
    (hd : ∃ p < n, 0 < cnt p ∧ displs p ≠ before cnt p) :
    ¬ ∀ m : Cell → Nat, Correct n (fun p => scatter n cnt root (firstBarriers alternate) mid (bankOf alternate 0) 0 p) m
      fun mem => Delivered n 0 (ScattervD cnt displs root) m mem := by
  obtain ⟨p, hp, hc, hne⟩ := hd
  intro h
  exact hne ((scatterv_iff hr cnt displs hm alternate).1 h p hp hc)

/-- **C94 for allgatherv** of more than 56 bytes. -/
theorem allgatherv_iff {n ts : Nat} (hn : 0 < n) (cnt displs : Nat → Nat) (steps : Nat) (hbig : 56 < before cnt n * ts) {mid : Nat} (hm : 0 < mid)
    (alternate : Bool) :
    (∀ m : Cell → Nat, Correct n (fun p => gather n ts cnt steps none (firstBarriers alternate) mid (bankOf alternate 0) 0 p) m
      fun mem => AllgathervD n 0 cnt displs m mem) ↔
    ∀ q < n, 0 < cnt q → displs q = before cnt q := by
  have hg : ∀ m : Cell → Nat, Correct n (fun p => gather n ts cnt steps none (firstBarriers alternate) mid (bankOf alternate 0) 0 p) m
      fun mem => Delivered n 0 (Allgather n cnt) m mem := by
    intro m
    have := allgather_partial hn cnt steps hbig hm alternate 1 m
    simp only [List.range_one, List.flatMap_cons, List.flatMap_nil, List.append_nil] at this
    exact correct_imp this fun mem h => h 0 (by omega)
  constructor
  · intro h q hq hc
    obtain ⟨mem, h1, h2⟩ := correct_both (h (numbered cnt)) (hg (numbered cnt))
    have a := h1 0 hn q hq 0 hc
    rw [(h2 0 hn _).1] at a
    simp only [Allgather, together_numbered] at a
    by_cases hd : displs q + 0 < before cnt n
    · rw [List.getElem?_map, List.getElem?_range hd] at a
      simp [numbered] at a
      exact a
    · rw [List.getElem?_eq_none (by simpa using hd)] at a
      simp [numbered] at a
  · intro h m
    refine correct_imp (hg m) fun mem hd p hp q hq e he => ?_
    rw [(hd p hp _).1, h q hq (by omega)]
    simp only [Allgather]
    rw [together_get n cnt _ hq he, Option.getD_some]

/-- 2 processes with 10 longs each, with a gap of 5. -/
example : ¬ ∀ m : Cell → Nat, Correct 2 (fun p => gather 2 8 (fun _ => 10) 1 none (firstBarriers true) 1 (bankOf true 0) 0 p) m
    fun mem => AllgathervD 2 0 (fun _ => 10) (fun q => 15 * q) m mem := by
  intro h
  have := (allgatherv_iff (by decide) (fun _ => 10) (fun q => 15 * q) 1 (by decide) (by decide) true).1 h 1 (by decide) (by decide)
  exact absurd this (by decide)

example : ¬ ∀ m : Cell → Nat, Correct 2 (fun p => scatter 2 (fun _ => 10) 1 (firstBarriers true) 1 (bankOf true 0) 0 p) m
    fun mem => Delivered 2 0 (ScattervD (fun _ => 10) (fun q => 10 * (1 - q)) 1) m mem :=
  scatterv_displs_violated (by decide) _ _ (by decide) true ⟨0, by decide, by decide, by decide⟩

end ExtMpi.SingleNode
