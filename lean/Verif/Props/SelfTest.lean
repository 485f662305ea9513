import Verif.Lemmas.SelfTest
/-!
# The self-test of persistent collectives

C87: an initialisation leaves the buffers of the user as they are. C88: the test stays inside of its buffers. C89: the test accepts
exactly the right results.
-/
namespace ExtMpi.SelfTest

theorem inside_long {size : Buf → Nat} {b : Buf} {lo i v : Nat} (h : lo + 8 * i + 8 ≤ size b) : (setLong b lo i v).inside size = true := by
  simp only [setLong, Op.inside, decide_eq_true_eq]
  exact Or.inr h

theorem inside_int {size : Buf → Nat} {b : Buf} {i v : Nat} (h : 4 * i + 4 ≤ size b) : (setInt b i v).inside size = true := by
  simp only [setInt, Op.inside, decide_eq_true_eq]
  exact Or.inr h

theorem cmpLongs_inside {size : Buf → Nat} {start n : Nat} (h1 : 8 * (start + n) ≤ size .ref) (h2 : 8 * (start + n) ≤ size .recv) :
    ∀ op ∈ cmpLongs start n, op.inside size = true := by
  intro op h
  unfold cmpLongs at h
  obtain ⟨i, hi, rfl⟩ := List.mem_map.1 h
  have hi := List.mem_range.1 hi
  simp only [Op.inside, decide_eq_true_eq]
  exact Or.inr ⟨by omega, by omega⟩

/-- What the comparisons at the end say, if everything before is no comparison. -/
theorem accepts_split {size : Buf → Nat} {pre cmps : List Op} (hs : Safe size (pre ++ cmps)) (h1 : ∀ op ∈ pre, NoCmp op)
    (h2 : ∀ op ∈ cmps, IsCmp op) (mem : Buf → Nat → Nat) :
    Accepts size (pre ++ cmps) mem ↔ ∀ lo len, Op.cmp lo len ∈ cmps → ∀ x, lo ≤ x → x < lo + len →
      (pre.foldl exec ⟨mem, false⟩).mem .recv x = (pre.foldl exec ⟨mem, false⟩).mem .ref x := by
  rw [accepts_iff hs, List.foldl_append, cmp_bad _ h2, noCmp_bad _ h1]
  simp

/-! ## Allreduce -/

/-- All before the comparisons. -/
def allreducePre (rank count ts : Nat) (inPlace : Bool) (R L : Nat → Nat) : List Op :=
  (if inPlace then
    ((List.range (count * ts / 8)).flatMap fun i => [setLong .ref 0 i (rank * count + i), setLong .recv 0 i (rank * count + i)]) ++
      (if count * ts % 8 ≠ 0 then [setInt .ref (count - 1) (rank * count + count - 1), setInt .recv (count - 1) (rank * count + count - 1)] else [])
  else
    ((List.range (count * ts / 8)).flatMap fun i => [setLong .send 0 i (rank * count + i), setLong .recv 0 i (2 ^ 64 - 1)]) ++
      (if count * ts % 8 ≠ 0 then [setInt .send (count - 1) (rank * count + count - 1)] else [])) ++
  [.read (if inPlace then .ref else .send) 0 (count * elem ts), .write .ref 0 (count * elem ts) R,
    .read (if inPlace then .recv else .send) 0 (count * elem ts), .write .recv 0 (count * elem ts) L]

/-- The comparisons. -/
def allreduceCmp (count ts : Nat) : List Op :=
  cmpLongs 0 (count * ts / 8) ++ if count * ts % 8 ≠ 0 then [.cmp (4 * (count - 1)) 4] else []

theorem allreduce_eq (rank count ts : Nat) (inPlace : Bool) (R L : Nat → Nat) :
    allreduce rank count ts inPlace R L = allreducePre rank count ts inPlace R L ++ allreduceCmp count ts := rfl

theorem allreducePre_no (rank count ts : Nat) (inPlace : Bool) (R L : Nat → Nat) : ∀ op ∈ allreducePre rank count ts inPlace R L, NoCmp op := by
  intro op h
  unfold allreducePre at h
  rcases List.mem_append.1 h with h | h
  · cases inPlace
    · simp only [Bool.false_eq_true, if_false] at h
      rcases List.mem_append.1 h with h | h
      · obtain ⟨i, _, h⟩ := List.mem_flatMap.1 h
        simp only [List.mem_cons, List.not_mem_nil, or_false] at h
        rcases h with rfl | rfl <;> trivial
      · split at h
        · simp only [List.mem_cons, List.not_mem_nil, or_false] at h
          subst h; trivial
        · simp at h
    · simp only [if_true] at h
      rcases List.mem_append.1 h with h | h
      · obtain ⟨i, _, h⟩ := List.mem_flatMap.1 h
        simp only [List.mem_cons, List.not_mem_nil, or_false] at h
        rcases h with rfl | rfl <;> trivial
      · split at h
        · simp only [List.mem_cons, List.not_mem_nil, or_false] at h
          rcases h with rfl | rfl <;> trivial
        · simp at h
  · simp only [List.mem_cons, List.not_mem_nil, or_false] at h
    rcases h with rfl | rfl | rfl | rfl <;> trivial

theorem allreduceCmp_is (count ts : Nat) : ∀ op ∈ allreduceCmp count ts, IsCmp op := by
  intro op h
  rcases List.mem_append.1 h with h | h
  · exact cmpLongs_is _ _ op h
  · split at h
    · simp only [List.mem_cons, List.not_mem_nil, or_false] at h
      subst h; trivial
    · simp at h

theorem allreducePre_mem (rank count ts : Nat) (inPlace : Bool) (R L : Nat → Nat) (s : State) (x : Nat) (hx : x < count * elem ts) :
    ((allreducePre rank count ts inPlace R L).foldl exec s).mem .recv x = L x ∧
    ((allreducePre rank count ts inPlace R L).foldl exec s).mem .ref x = R x := by
  unfold allreducePre
  rw [List.foldl_append]
  simp only [List.foldl_cons, List.foldl_nil, exec]
  refine ⟨by rw [if_pos ⟨trivial, by omega, by omega⟩], ?_⟩
  rw [if_neg (fun h => by cases h.1), if_pos ⟨trivial, by omega, by omega⟩]

/-- C88 for allreduce: all types of 4 or 8 bytes, all counts. -/
theorem allreduce_safe (rank count ts : Nat) (hts : ts = 4 ∨ ts = 8) (inPlace : Bool) (R L : Nat → Nat) :
    Safe (allreduceSize count ts) (allreduce rank count ts inPlace R L) := by
  rw [safe_iff, allreduce_eq]
  have he : count * elem ts = count * ts := by rcases hts with rfl | rfl <;> rfl
  have htail : count * ts % 8 ≠ 0 → 4 * (count - 1) + 4 ≤ count * ts := by
    rcases hts with rfl | rfl <;> intro _ <;> omega
  intro op h
  rcases List.mem_append.1 h with h | h
  · unfold allreducePre at h
    rw [he] at h
    rcases List.mem_append.1 h with h | h
    · cases inPlace
      · simp only [Bool.false_eq_true, if_false] at h
        rcases List.mem_append.1 h with h | h
        · obtain ⟨i, hi, h⟩ := List.mem_flatMap.1 h
          have hi := List.mem_range.1 hi
          simp only [List.mem_cons, List.not_mem_nil, or_false] at h
          rcases h with rfl | rfl <;> exact inside_long (by simp only [allreduceSize]; omega)
        · split at h
          · rename_i hn
            simp only [List.mem_cons, List.not_mem_nil, or_false] at h
            subst h
            exact inside_int (htail hn)
          · simp at h
      · simp only [if_true] at h
        rcases List.mem_append.1 h with h | h
        · obtain ⟨i, hi, h⟩ := List.mem_flatMap.1 h
          have hi := List.mem_range.1 hi
          simp only [List.mem_cons, List.not_mem_nil, or_false] at h
          rcases h with rfl | rfl <;> exact inside_long (by simp only [allreduceSize]; omega)
        · split at h
          · rename_i hn
            simp only [List.mem_cons, List.not_mem_nil, or_false] at h
            rcases h with rfl | rfl <;> exact inside_int (htail hn)
          · simp at h
    · simp only [List.mem_cons, List.not_mem_nil, or_false] at h
      rcases h with rfl | rfl | rfl | rfl <;> simp [Op.inside, allreduceSize]
  · rcases List.mem_append.1 h with h | h
    · exact cmpLongs_inside (by simp only [allreduceSize]; omega) (by simp only [allreduceSize]; omega) op h
    · split at h
      · rename_i hn
        simp only [List.mem_cons, List.not_mem_nil, or_false] at h
        subst h
        simp only [Op.inside, decide_eq_true_eq]
        exact Or.inr ⟨htail hn, htail hn⟩
      · simp at h

/-- C88, violated for types smaller than an int: MPI is called for ints. -/
theorem allreduce_small_violated (rank count ts : Nat) (hc : 0 < count) (hts : ts < 4) (inPlace : Bool) (R L : Nat → Nat) (s : State) :
    run (allreduceSize count ts) (allreduce rank count ts inPlace R L) s = none := by
  have he : elem ts = 4 := by
    unfold elem
    rw [if_neg (by omega)]
  refine unsafe_of (op := .write .ref 0 (count * elem ts) R) ?_ ?_ s
  · rw [allreduce_eq]
    refine List.mem_append_left _ (List.mem_append_right _ ?_)
    simp
  · rw [he]
    simp only [Op.inside, allreduceSize]
    apply decide_eq_false
    have : count * ts < count * 4 := Nat.mul_lt_mul_of_pos_left hts hc
    rintro (h | h) <;> omega

/-- **C89 for allreduce**: the test accepts exactly the results of MPI. -/
theorem allreduce_exact (rank count ts : Nat) (hts : ts = 4 ∨ ts = 8) (inPlace : Bool) (R L : Nat → Nat) (mem : Buf → Nat → Nat) :
    Accepts (allreduceSize count ts) (allreduce rank count ts inPlace R L) mem ↔ ∀ x < count * ts, L x = R x := by
  have he : count * elem ts = count * ts := by rcases hts with rfl | rfl <;> rfl
  have hs := allreduce_safe rank count ts hts inPlace R L
  rw [allreduce_eq] at hs ⊢
  rw [accepts_split hs (allreducePre_no _ _ _ _ _ _) (allreduceCmp_is _ _)]
  have hv := fun x (hx : x < count * ts) => allreducePre_mem rank count ts inPlace R L ⟨mem, false⟩ x (by rw [he]; exact hx)
  constructor
  · intro h x hx
    rw [← (hv x hx).1, ← (hv x hx).2]
    by_cases h8 : x < 8 * (count * ts / 8)
    · refine h (8 * (0 + x / 8)) 8 (List.mem_append_left _ (mem_cmpLongs.2 ⟨x / 8, ?_, rfl, rfl⟩)) x ?_ ?_ <;> omega
    · have hn : count * ts % 8 ≠ 0 := by omega
      refine h (4 * (count - 1)) 4 (List.mem_append_right _ ?_) x ?_ ?_
      · rw [if_pos hn]; simp
      · rcases hts with rfl | rfl <;> omega
      · rcases hts with rfl | rfl <;> omega
  · intro h lo len hm x h1 h2
    have hx : x < count * ts := by
      rcases List.mem_append.1 hm with hm | hm
      · obtain ⟨i, hi, rfl, rfl⟩ := mem_cmpLongs.1 hm
        omega
      · split at hm
        · rename_i hn
          simp only [List.mem_cons, List.not_mem_nil, or_false, Op.cmp.injEq] at hm
          obtain ⟨rfl, rfl⟩ := hm
          rcases hts with rfl | rfl <;> omega
        · simp at hm
    rw [(hv x hx).1, (hv x hx).2]
    exact h x hx

/-- **C87, violated for allreduce**: whatever was in the receive buffer before (the input of a reduction in place), after the initialisation it
contains the result for the test data. -/
theorem allreduce_overwrites (debug : Int) (hd : debug ≠ 0) (rank count ts : Nat) (hts : ts = 4 ∨ ts = 8) (inPlace : Bool) (R L : Nat → Nat)
    (mem : Buf → Nat → Nat) (hL : ∀ x < count * ts, L x = R x) :
    ∃ mem', initGeneral debug (allreduceSize count ts) (allreduce rank count ts inPlace R L) mem = some mem' ∧
      ∀ x < count * ts, mem' .recv x = R x := by
  have he : count * elem ts = count * ts := by rcases hts with rfl | rfl <;> rfl
  obtain ⟨s, h1, h2⟩ := (allreduce_exact rank count ts hts inPlace R L mem).2 hL
  refine ⟨s.mem, ?_, fun x hx => ?_⟩
  · unfold initGeneral
    rw [if_pos hd, h1]
    simp [h2]
  · rw [run_safe (allreduce_safe rank count ts hts inPlace R L)] at h1
    injection h1 with h1
    rw [← h1, allreduce_eq, List.foldl_append, cmp_mem _ (allreduceCmp_is _ _),
      (allreducePre_mem rank count ts inPlace R L ⟨mem, false⟩ x (by rw [he]; exact hx)).1]
    exact hL x hx

/-- Two processes that put different data in their buffers before the initialisation have the same data afterwards. -/
theorem allreduce_input_violated (rank count ts : Nat) (hc : 0 < count) (hts : ts = 4 ∨ ts = 8) (R L : Nat → Nat) (hL : ∀ x < count * ts, L x = R x) :
    ¬ ∀ mem mem', initGeneral 1 (allreduceSize count ts) (allreduce rank count ts true R L) mem = some mem' →
      ∀ x < count * ts, mem' .recv x = mem .recv x := by
  intro h
  obtain ⟨m1, e1, f1⟩ := allreduce_overwrites 1 (by decide) rank count ts hts true R L (fun _ _ => R 0 + 1) hL
  have hp : 0 < count * ts := Nat.mul_pos hc (by omega)
  have a := h _ _ e1 0 hp
  have b := f1 0 hp
  rw [a] at b
  omega

/-- 3 ints: the test accepts a right result and refuses one with a wrong last byte. -/
example : Accepts (allreduceSize 3 4) (allreduce 1 3 4 false (fun x => x) (fun x => x)) (fun _ _ => 7) ∧
    ¬ Accepts (allreduceSize 3 4) (allreduce 1 3 4 false (fun x => x) (fun x => if x = 11 then 0 else x)) (fun _ _ => 7) := by
  refine ⟨(allreduce_exact 1 3 4 (Or.inl rfl) false _ _ _).2 fun _ _ => rfl, fun h => ?_⟩
  have := (allreduce_exact 1 3 4 (Or.inl rfl) false _ _ _).1 h 11 (by omega)
  simp at this

/-! ## Reduce and reduce_scatter -/

theorem sendLongs_no (b : Buf) (n : Nat) (f : Nat → Nat) : ∀ op ∈ (List.range n).map fun i => setLong b 0 i (f i), NoCmp op := by
  intro op h
  obtain ⟨i, _, rfl⟩ := List.mem_map.1 h
  trivial

theorem sendLongs_inside {size : Buf → Nat} {b : Buf} {n : Nat} (h : 8 * n ≤ size b) (f : Nat → Nat) :
    ∀ op ∈ (List.range n).map fun i => setLong b 0 i (f i), op.inside size = true := by
  intro op ho
  obtain ⟨i, hi, rfl⟩ := List.mem_map.1 ho
  have hi := List.mem_range.1 hi
  exact inside_long (by omega)

/-- C88 for reduce_scatter. -/
theorem reduceScatter_safe (rank total mine : Nat) (R L : Nat → Nat) :
    Safe (reduceScatterSize total mine) (reduceScatter rank total mine R L) := by
  rw [safe_iff]
  intro op h
  unfold reduceScatter at h
  rcases List.mem_append.1 h with h | h
  · rcases List.mem_append.1 h with h | h
    · exact sendLongs_inside (by simp only [reduceScatterSize]; omega) _ op h
    · simp only [List.mem_cons, List.not_mem_nil, or_false] at h
      rcases h with rfl | rfl | rfl | rfl <;> simp [Op.inside, reduceScatterSize]
  · exact cmpLongs_inside (by simp only [reduceScatterSize]; omega) (by simp only [reduceScatterSize]; omega) op h

/-- C89 for reduce_scatter: sums of longs. -/
theorem reduceScatter_exact (rank total mine : Nat) (R L : Nat → Nat) (mem : Buf → Nat → Nat) :
    Accepts (reduceScatterSize total mine) (reduceScatter rank total mine R L) mem ↔ ∀ x < mine * 8, L x = R x := by
  have hs := reduceScatter_safe rank total mine R L
  unfold reduceScatter at hs ⊢
  rw [accepts_split hs ?_ (cmpLongs_is _ _)]
  · rw [List.foldl_append]
    simp only [List.foldl_cons, List.foldl_nil, exec]
    constructor
    · intro h x hx
      have := h (8 * (0 + x / 8)) 8 (mem_cmpLongs.2 ⟨x / 8, by omega, rfl, rfl⟩) x (by omega) (by omega)
      rwa [if_pos ⟨trivial, by omega, by omega⟩, if_neg (fun h => by cases h.1), if_pos ⟨trivial, by omega, by omega⟩] at this
    · intro h lo len hm x h1 h2
      obtain ⟨i, hi, rfl, rfl⟩ := mem_cmpLongs.1 hm
      rw [if_pos ⟨trivial, by omega, by omega⟩, if_neg (fun h => by cases h.1), if_pos ⟨trivial, by omega, by omega⟩]
      exact h x (by omega)
  · intro op h
    rcases List.mem_append.1 h with h | h
    · exact sendLongs_no _ _ _ op h
    · simp only [List.mem_cons, List.not_mem_nil, or_false] at h
      rcases h with rfl | rfl | rfl | rfl <;> trivial

/-- C88 for reduce. -/
theorem reduce_safe (rank count : Nat) (isRoot : Bool) (R L : Nat → Nat) :
    Safe (allreduceSize count 8) (reduce rank count isRoot R L) := by
  rw [safe_iff]
  intro op h
  unfold reduce at h
  rcases List.mem_append.1 h with h | h
  · rcases List.mem_append.1 h with h | h
    · rcases List.mem_append.1 h with h | h
      · rcases List.mem_append.1 h with h | h
        · exact sendLongs_inside (by simp only [allreduceSize]; omega) _ op h
        · simp only [List.mem_cons, List.not_mem_nil, or_false] at h
          subst h; simp [Op.inside, allreduceSize]
      · cases isRoot
        · simp at h
        · simp only [if_true, List.mem_cons, List.not_mem_nil, or_false] at h
          subst h; simp [Op.inside, allreduceSize]
    · simp only [List.mem_cons, List.not_mem_nil, or_false] at h
      subst h; simp [Op.inside, allreduceSize]
  · cases isRoot
    · simp at h
    · simp only [if_true, List.mem_cons] at h
      rcases h with rfl | h
      · simp [Op.inside, allreduceSize]
      · exact cmpLongs_inside (by simp only [allreduceSize]; omega) (by simp only [allreduceSize]; omega) op h

/-- C89 for reduce, on the root: sums of longs. -/
theorem reduce_exact (rank count : Nat) (R L : Nat → Nat) (mem : Buf → Nat → Nat) :
    Accepts (allreduceSize count 8) (reduce rank count true R L) mem ↔ ∀ x < count * 8, L x = R x := by
  have hs := reduce_safe rank count true R L
  have e : reduce rank count true R L = (((List.range (count * 8 / 8)).map fun i => setLong .send 0 i (rank * count + i)) ++
      [.read .send 0 (count * 8), .write .ref 0 (count * 8) R, .read .send 0 (count * 8), .write .recv 0 (count * 8) L]) ++
        cmpLongs 0 (count * 8 / 8) := by
    simp [reduce]
  rw [e] at hs ⊢
  rw [accepts_split hs ?_ (cmpLongs_is _ _)]
  · rw [List.foldl_append]
    simp only [List.foldl_cons, List.foldl_nil, exec]
    constructor
    · intro h x hx
      have := h (8 * (0 + x / 8)) 8 (mem_cmpLongs.2 ⟨x / 8, by omega, rfl, rfl⟩) x (by omega) (by omega)
      rwa [if_pos ⟨trivial, by omega, by omega⟩, if_neg (fun h => by cases h.1), if_pos ⟨trivial, by omega, by omega⟩] at this
    · intro h lo len hm x h1 h2
      obtain ⟨i, hi, rfl, rfl⟩ := mem_cmpLongs.1 hm
      rw [if_pos ⟨trivial, by omega, by omega⟩, if_neg (fun h => by cases h.1), if_pos ⟨trivial, by omega, by omega⟩]
      exact h x (by omega)
  · intro op h
    rcases List.mem_append.1 h with h | h
    · exact sendLongs_no _ _ _ op h
    · simp only [List.mem_cons, List.not_mem_nil, or_false] at h
      rcases h with rfl | rfl | rfl | rfl <;> trivial

/-- 2 longs of 3 processes. -/
example : Accepts (reduceScatterSize 6 2) (reduceScatter 1 6 2 (fun x => x) (fun x => x)) (fun _ _ => 0) ∧
    ¬ Accepts (allreduceSize 2 8) (reduce 0 2 true (fun x => x) (fun _ => 0)) (fun _ _ => 0) := by
  refine ⟨(reduceScatter_exact 1 6 2 _ _ _).2 fun _ _ => rfl, fun h => ?_⟩
  have := (reduce_exact 0 2 _ _ _).1 h 1 (by omega)
  omega

/-! ## Bcast -/

/-- The broadcast before the comparisons. -/
def bcastPre (rank count ts : Nat) (R L : Nat → Nat) : List Op :=
  [.copy .recv .send (count * ts)] ++
  ((List.range (count * ts / 8)).flatMap fun i => [setLong .recv 0 i (rank * count + i + 1073), setLong .ref 0 i (rank * count + i + 1073)]) ++
  [.read .ref 0 (count * ts), .write .ref 0 (count * ts) R, .read .recv 0 (count * ts), .write .recv 0 (count * ts) L]

theorem bcast_eq (rank count ts : Nat) (R L : Nat → Nat) :
    bcast rank count ts R L = bcastPre rank count ts R L ++ (cmpLongs 0 (count * ts / 8) ++ [.copy .send .recv (count * ts)]) := rfl

theorem bcastPre_no (rank count ts : Nat) (R L : Nat → Nat) : ∀ op ∈ bcastPre rank count ts R L, NoCmp op := by
  intro op h
  unfold bcastPre at h
  rcases List.mem_append.1 h with h | h
  · rcases List.mem_append.1 h with h | h
    · simp only [List.mem_cons, List.not_mem_nil, or_false] at h
      subst h; trivial
    · obtain ⟨i, _, h⟩ := List.mem_flatMap.1 h
      simp only [List.mem_cons, List.not_mem_nil, or_false] at h
      rcases h with rfl | rfl <;> trivial
  · simp only [List.mem_cons, List.not_mem_nil, or_false] at h
    rcases h with rfl | rfl | rfl | rfl <;> trivial

theorem bcastPre_mem (rank count ts : Nat) (R L : Nat → Nat) (s : State) (x : Nat) (hx : x < count * ts) :
    ((bcastPre rank count ts R L).foldl exec s).mem .recv x = L x ∧
    ((bcastPre rank count ts R L).foldl exec s).mem .ref x = R x := by
  unfold bcastPre
  rw [List.foldl_append]
  simp only [List.foldl_cons, List.foldl_nil, exec]
  refine ⟨by rw [if_pos ⟨trivial, by omega, by omega⟩], ?_⟩
  rw [if_neg (fun h => by cases h.1), if_pos ⟨trivial, by omega, by omega⟩]

/-- The copy of the buffer of the user. -/
theorem bcastPre_send (rank count ts : Nat) (R L : Nat → Nat) (s : State) (x : Nat) (hx : x < count * ts) :
    ((bcastPre rank count ts R L).foldl exec s).mem .send x = s.mem .recv x := by
  unfold bcastPre
  rw [List.append_assoc, List.foldl_append, keeps_mem]
  · simp only [List.foldl_cons, List.foldl_nil, exec]
    rw [if_pos ⟨trivial, hx⟩]
  · intro op h
    rcases List.mem_append.1 h with h | h
    · obtain ⟨i, _, h⟩ := List.mem_flatMap.1 h
      simp only [List.mem_cons, List.not_mem_nil, or_false] at h
      rcases h with rfl | rfl <;> simp [Keeps, setLong]
    · simp only [List.mem_cons, List.not_mem_nil, or_false] at h
      rcases h with rfl | rfl | rfl | rfl <;> simp [Keeps]

/-- C88 for bcast: all types, all counts. -/
theorem bcast_safe (rank count ts : Nat) (R L : Nat → Nat) : Safe (allreduceSize count ts) (bcast rank count ts R L) := by
  rw [safe_iff, bcast_eq]
  intro op h
  rcases List.mem_append.1 h with h | h
  · unfold bcastPre at h
    rcases List.mem_append.1 h with h | h
    · rcases List.mem_append.1 h with h | h
      · simp only [List.mem_cons, List.not_mem_nil, or_false] at h
        subst h; simp [Op.inside, allreduceSize]
      · obtain ⟨i, hi, h⟩ := List.mem_flatMap.1 h
        have hi := List.mem_range.1 hi
        simp only [List.mem_cons, List.not_mem_nil, or_false] at h
        rcases h with rfl | rfl <;> exact inside_long (by simp only [allreduceSize]; omega)
    · simp only [List.mem_cons, List.not_mem_nil, or_false] at h
      rcases h with rfl | rfl | rfl | rfl <;> simp [Op.inside, allreduceSize]
  · rcases List.mem_append.1 h with h | h
    · exact cmpLongs_inside (by simp only [allreduceSize]; omega) (by simp only [allreduceSize]; omega) op h
    · simp only [List.mem_cons, List.not_mem_nil, or_false] at h
      subst h; simp [Op.inside, allreduceSize]

/-- What the test of a broadcast accepts: only whole longs are compared. -/
theorem bcast_accepts (rank count ts : Nat) (R L : Nat → Nat) (mem : Buf → Nat → Nat) :
    Accepts (allreduceSize count ts) (bcast rank count ts R L) mem ↔ ∀ x < 8 * (count * ts / 8), L x = R x := by
  rw [accepts_iff (bcast_safe rank count ts R L), bcast_eq, List.foldl_append, List.foldl_append,
    noCmp_bad [Op.copy .send .recv (count * ts)] (by intro op h; simp only [List.mem_cons, List.not_mem_nil, or_false] at h; subst h; trivial),
    cmp_bad _ (cmpLongs_is _ _), noCmp_bad _ (bcastPre_no _ _ _ _ _)]
  have hv := fun x (hx : x < count * ts) => bcastPre_mem rank count ts R L ⟨mem, false⟩ x hx
  constructor
  · rintro ⟨_, h⟩ x hx
    have := h (8 * (0 + x / 8)) 8 (mem_cmpLongs.2 ⟨x / 8, by omega, rfl, rfl⟩) x (by omega) (by omega)
    rwa [(hv x (by omega)).1, (hv x (by omega)).2] at this
  · refine fun h => ⟨rfl, fun lo len hm x h1 h2 => ?_⟩
    obtain ⟨i, hi, rfl, rfl⟩ := mem_cmpLongs.1 hm
    rw [(hv x (by omega)).1, (hv x (by omega)).2]
    exact h x (by omega)

/-- C89 for bcast, messages that are multiples of 8 bytes. -/
theorem bcast_exact_partial (rank count ts : Nat) (h8 : 8 ∣ count * ts) (R L : Nat → Nat) (mem : Buf → Nat → Nat) :
    Accepts (allreduceSize count ts) (bcast rank count ts R L) mem ↔ ∀ x < count * ts, L x = R x := by
  rw [bcast_accepts, Nat.mul_div_cancel' h8]

/-- C89, violated for bcast: the bytes behind the last whole long are not tested, a wrong result is accepted. -/
theorem bcast_violated (rank count ts : Nat) (h8 : ¬ 8 ∣ count * ts) (mem : Buf → Nat → Nat) :
    ∃ R L : Nat → Nat, (∃ x < count * ts, L x ≠ R x) ∧ Accepts (allreduceSize count ts) (bcast rank count ts R L) mem := by
  refine ⟨fun _ => 0, fun x => if x < 8 * (count * ts / 8) then 0 else 1, ⟨8 * (count * ts / 8), ?_, ?_⟩, (bcast_accepts ..).2 fun x hx => ?_⟩
  · have : count * ts % 8 ≠ 0 := fun h => h8 (Nat.dvd_of_mod_eq_zero h)
    omega
  · simp
  · simp [hx]

/-- **C87 for bcast**: the buffer of the user is unchanged, inside and outside of the message. -/
theorem bcast_unchanged (debug : Int) (rank count ts : Nat) (R L : Nat → Nat) (mem mem' : Buf → Nat → Nat)
    (h : initGeneral debug (allreduceSize count ts) (bcast rank count ts R L) mem = some mem') (x : Nat) (hx : x < count * ts) :
    mem' .recv x = mem .recv x := by
  unfold initGeneral at h
  by_cases hd : debug ≠ 0
  · rw [if_pos hd, run_safe (bcast_safe rank count ts R L)] at h
    simp only at h
    split at h
    · cases h
    · injection h with h
      rw [← h, bcast_eq, List.foldl_append, List.foldl_append]
      simp only [List.foldl_cons, List.foldl_nil, exec]
      rw [if_pos ⟨trivial, hx⟩, cmp_mem _ (cmpLongs_is _ _), bcastPre_send _ _ _ _ _ _ x hx]
  · rw [if_neg hd] at h
    injection h with h
    rw [h]

/-- 3 longs; 3 ints with a wrong last byte. -/
example : (∃ mem', initGeneral 1 (allreduceSize 3 8) (bcast 0 3 8 (fun _ => 1) (fun _ => 1)) (fun _ x => x) = some mem' ∧ mem' .recv 5 = 5) ∧
    Accepts (allreduceSize 3 4) (bcast 0 3 4 (fun _ => 1) (fun x => if x = 11 then 0 else 1)) (fun _ _ => 0) := by
  constructor
  · obtain ⟨s, h1, h2⟩ := (bcast_exact_partial 0 3 8 (by decide) (fun _ => 1) (fun _ => 1) (fun _ x => x)).2 fun _ _ => rfl
    have e : initGeneral 1 (allreduceSize 3 8) (bcast 0 3 8 (fun _ => 1) (fun _ => 1)) (fun _ x => x) = some s.mem := by
      unfold initGeneral
      rw [if_pos (by decide), h1]
      simp [h2]
    exact ⟨s.mem, e, bcast_unchanged 1 0 3 8 _ _ _ _ e 5 (by decide)⟩
  · refine (bcast_accepts 0 3 4 _ _ _).2 fun x hx => ?_
    rw [if_neg (by omega)]

/-! ## Allgatherv and gatherv -/

/-- All of the allgatherv before the comparisons. -/
def gatherPre (rank me P ts : Nat) (counts displs : Nat → Nat) (R L : Nat → Nat) : List Op :=
  ((List.range (counts me * ts / 8)).map fun i => setLong .send 0 i (rank * maxOf P counts + i)) ++
  ([.read .send 0 (counts me * ts)] ++ parts .ref P ts counts displs R ++ [.read .send 0 (counts me * ts)] ++
    parts .recv P ts counts displs L)

theorem parts_no (b : Buf) (P ts : Nat) (counts displs f : Nat → Nat) : ∀ op ∈ parts b P ts counts displs f, NoCmp op := by
  intro op h
  obtain ⟨j, _, rfl⟩ := List.mem_map.1 h
  trivial

theorem parts_keeps {b c : Buf} (hbc : b ≠ c) (P ts : Nat) (counts displs f : Nat → Nat) : ∀ op ∈ parts b P ts counts displs f, Keeps c op := by
  intro op h
  obtain ⟨j, _, rfl⟩ := List.mem_map.1 h
  exact hbc

theorem gatherPre_no (rank me P ts : Nat) (counts displs R L : Nat → Nat) : ∀ op ∈ gatherPre rank me P ts counts displs R L, NoCmp op := by
  intro op h
  rcases List.mem_append.1 h with h | h
  · exact sendLongs_no _ _ _ op h
  · rcases List.mem_append.1 h with h | h
    · rcases List.mem_append.1 h with h | h
      · rcases List.mem_append.1 h with h | h
        · simp only [List.mem_cons, List.not_mem_nil, or_false] at h
          subst h; trivial
        · exact parts_no _ _ _ _ _ _ op h
      · simp only [List.mem_cons, List.not_mem_nil, or_false] at h
        subst h; trivial
    · exact parts_no _ _ _ _ _ _ op h

theorem sendLongs_keeps {b c : Buf} (hbc : b ≠ c) (n : Nat) (f : Nat → Nat) :
    ∀ op ∈ (List.range n).map fun i => setLong b 0 i (f i), Keeps c op := by
  intro op h
  obtain ⟨i, _, rfl⟩ := List.mem_map.1 h
  exact hbc

/-- Memory before the comparisons: inside of the parts the results, elsewhere what was there before. -/
theorem gatherPre_mem (rank me P ts : Nat) (counts displs R L : Nat → Nat) (s : State) (x : Nat) :
    (Covered P ts counts displs x → ((gatherPre rank me P ts counts displs R L).foldl exec s).mem .recv x = L x ∧
      ((gatherPre rank me P ts counts displs R L).foldl exec s).mem .ref x = R x) ∧
    (¬ Covered P ts counts displs x → ((gatherPre rank me P ts counts displs R L).foldl exec s).mem .recv x = s.mem .recv x ∧
      ((gatherPre rank me P ts counts displs R L).foldl exec s).mem .ref x = s.mem .ref x) := by
  unfold gatherPre
  rw [List.foldl_append, List.foldl_append, List.foldl_append, List.foldl_append]
  simp only [List.foldl_cons, List.foldl_nil, exec]
  generalize hs1 : ((List.range (counts me * ts / 8)).map fun i => setLong .send 0 i (rank * maxOf P counts + i)).foldl exec s = s1
  have a1 : s1.mem .recv = s.mem .recv := by rw [← hs1]; exact keeps_mem _ (sendLongs_keeps (by decide) _ _) s
  have a2 : s1.mem .ref = s.mem .ref := by rw [← hs1]; exact keeps_mem _ (sendLongs_keeps (by decide) _ _) s
  have b1 := parts_mem .ref P ts counts displs R s1 x
  have b2 := parts_mem .recv P ts counts displs L ((parts .ref P ts counts displs R).foldl exec s1) x
  have b3 := congrFun (keeps_mem _ (parts_keeps (b := .ref) (c := .recv) (by decide) P ts counts displs R) s1) x
  have b4 := congrFun (keeps_mem _ (parts_keeps (b := .recv) (c := .ref) (by decide) P ts counts displs L)
    ((parts .ref P ts counts displs R).foldl exec s1)) x
  refine ⟨fun h => ⟨b2.1 h, by rw [b4]; exact b1.1 h⟩, fun h => ⟨?_, ?_⟩⟩
  · rw [b2.2 h, b3, a1]
  · rw [b4, b1.2 h, a2]

/-- C88 for allgatherv: all types, counts and displacements for which the result fits in the buffer of the user. -/
theorem allgatherv_safe (rank me P ts user : Nat) (counts displs R L : Nat → Nat) (hf : Fits P ts user counts displs) :
    Safe (allgathervSize me P ts user counts displs) (allgatherv rank me P ts counts displs R L) := by
  have hr : ∀ j < P, displs j * ts + counts j * ts ≤ (maxOf P displs + maxOf P counts) * ts := by
    intro j hj
    rw [← Nat.add_mul]
    exact Nat.mul_le_mul_right _ (Nat.add_le_add (maxOf_ge P displs j hj) (maxOf_ge P counts j hj))
  rw [safe_iff]
  intro op h
  rcases List.mem_append.1 h with h | h
  · rcases List.mem_append.1 h with h | h
    · exact sendLongs_inside (by simp only [allgathervSize]; omega) _ op h
    · rcases List.mem_append.1 h with h | h
      · rcases List.mem_append.1 h with h | h
        · rcases List.mem_append.1 h with h | h
          · simp only [List.mem_cons, List.not_mem_nil, or_false] at h
            subst h; simp [Op.inside, allgathervSize]
          · obtain ⟨j, hj, rfl⟩ := List.mem_map.1 h
            simp only [Op.inside, allgathervSize]
            exact decide_eq_true (Or.inr (hr j (List.mem_range.1 hj)))
        · simp only [List.mem_cons, List.not_mem_nil, or_false] at h
          subst h; simp [Op.inside, allgathervSize]
      · obtain ⟨j, hj, rfl⟩ := List.mem_map.1 h
        simp only [Op.inside, allgathervSize]
        exact decide_eq_true (Or.inr (hf j (List.mem_range.1 hj)))
  · obtain ⟨j, hj, h⟩ := List.mem_flatMap.1 h
    have hj := List.mem_range.1 hj
    have h1 := hr j hj
    have h2 := hf j hj
    exact cmpLongs_inside (by simp only [allgathervSize]; omega) (by simp only [allgathervSize]; omega) op h

theorem allgatherv_eq (rank me P ts : Nat) (counts displs R L : Nat → Nat) :
    allgatherv rank me P ts counts displs R L = gatherPre rank me P ts counts displs R L ++ cmpParts P ts counts displs := rfl

theorem mem_cmpParts {P ts : Nat} {counts displs : Nat → Nat} {lo len : Nat} :
    Op.cmp lo len ∈ cmpParts P ts counts displs ↔ ∃ j < P, ∃ i < counts j * ts / 8, lo = 8 * (displs j * ts / 8 + i) ∧ len = 8 := by
  unfold cmpParts
  simp only [List.mem_flatMap, List.mem_range, mem_cmpLongs]

/-- C89 for allgatherv if all parts are multiples of 8 bytes at multiples of 8 bytes. -/
theorem allgatherv_exact_partial (rank me P ts user : Nat) (counts displs R L : Nat → Nat) (hf : Fits P ts user counts displs)
    (h8 : ∀ j < P, 8 ∣ counts j * ts ∧ 8 ∣ displs j * ts) (mem : Buf → Nat → Nat) :
    Accepts (allgathervSize me P ts user counts displs) (allgatherv rank me P ts counts displs R L) mem ↔
      ∀ x, Covered P ts counts displs x → L x = R x := by
  have hs := allgatherv_safe rank me P ts user counts displs R L hf
  rw [allgatherv_eq] at hs ⊢
  rw [accepts_split hs (gatherPre_no _ _ _ _ _ _ _ _) (cmpParts_is _ _ _ _)]
  have hv := fun x => (gatherPre_mem rank me P ts counts displs R L ⟨mem, false⟩ x).1
  constructor
  · intro h x hx
    rw [← (hv x hx).1, ← (hv x hx).2]
    obtain ⟨j, hj, h1, h2⟩ := hx
    obtain ⟨h3, h4⟩ := h8 j hj
    refine h (8 * (displs j * ts / 8 + (x - displs j * ts) / 8)) 8 (mem_cmpParts.2 ⟨j, hj, (x - displs j * ts) / 8, ?_, rfl, rfl⟩) x ?_ ?_ <;> omega
  · intro h lo len hm x h1 h2
    obtain ⟨j, hj, i, hi, rfl, rfl⟩ := mem_cmpParts.1 hm
    obtain ⟨h3, h4⟩ := h8 j hj
    have hc : Covered P ts counts displs x := ⟨j, hj, by omega, by omega⟩
    rw [(hv x hc).1, (hv x hc).2]
    exact h x hc

/-- Types of 8 bytes (`MPI_LONG`, `MPI_DOUBLE`): all counts and displacements. -/
theorem allgatherv_long (rank me P user : Nat) (counts displs R L : Nat → Nat) (hf : Fits P 8 user counts displs) (mem : Buf → Nat → Nat) :
    Accepts (allgathervSize me P 8 user counts displs) (allgatherv rank me P 8 counts displs R L) mem ↔
      ∀ x, Covered P 8 counts displs x → L x = R x :=
  allgatherv_exact_partial rank me P 8 user counts displs R L hf (fun j _ => ⟨Nat.dvd_mul_left 8 _, Nat.dvd_mul_left 8 _⟩) mem

/-- C89, violated for allgatherv: parts of less than 8 bytes (one int) are not tested at all, every result is accepted. -/
theorem allgatherv_unsound_violated (rank me P ts user : Nat) (counts displs R L : Nat → Nat) (hf : Fits P ts user counts displs)
    (h8 : ∀ j < P, counts j * ts < 8) (mem : Buf → Nat → Nat) :
    Accepts (allgathervSize me P ts user counts displs) (allgatherv rank me P ts counts displs R L) mem := by
  have hs := allgatherv_safe rank me P ts user counts displs R L hf
  rw [allgatherv_eq] at hs ⊢
  rw [accepts_split hs (gatherPre_no _ _ _ _ _ _ _ _) (cmpParts_is _ _ _ _)]
  intro lo len hm
  obtain ⟨j, hj, i, hi, _⟩ := mem_cmpParts.1 hm
  have := h8 j hj
  omega

/-- C89, violated for allgatherv: 2 processes, 2 ints each at the displacements 0 and 3. The test compares the gap between the parts,
which nobody writes: a right result is refused (the program ends) unless the memory of the test happens to equal that of the user. -/
theorem allgatherv_incomplete_violated (rank me : Nat) (hme : me < 2) (R : Nat → Nat) (mem : Buf → Nat → Nat) (hm : mem .recv 8 ≠ mem .ref 8) :
    ¬ Accepts (allgathervSize me 2 4 20 (fun _ => 2) (fun j => 3 * j)) (allgatherv rank me 2 4 (fun _ => 2) (fun j => 3 * j) R R) mem := by
  have hf : Fits 2 4 20 (fun _ => 2) (fun j => 3 * j) := by
    intro j hj
    show 3 * j * 4 + 2 * 4 ≤ 20
    omega
  have hs := allgatherv_safe rank me 2 4 20 (fun _ => 2) (fun j => 3 * j) R R hf
  rw [allgatherv_eq] at hs ⊢
  rw [accepts_split hs (gatherPre_no _ _ _ _ _ _ _ _) (cmpParts_is _ _ _ _)]
  intro h
  have := h 8 8 (mem_cmpParts.2 ⟨1, by omega, 0, by decide, rfl, rfl⟩) 8 (by omega) (by omega)
  have hn : ¬ Covered 2 4 (fun _ => 2) (fun j => 3 * j) 8 := by
    rintro ⟨j, hj, h1, h2⟩
    simp only at h1 h2
    omega
  have hv := (gatherPre_mem rank me 2 4 (fun _ => 2) (fun j => 3 * j) R R ⟨mem, false⟩ 8).2 hn
  rw [hv.1, hv.2] at this
  exact hm this

/-- C87, violated for allgatherv: after the initialisation the receive buffer contains the gathered test data. -/
theorem allgatherv_overwrites (rank me P ts user : Nat) (counts displs R L : Nat → Nat) (hf : Fits P ts user counts displs)
    (mem mem' : Buf → Nat → Nat)
    (h : initGeneral 1 (allgathervSize me P ts user counts displs) (allgatherv rank me P ts counts displs R L) mem = some mem')
    (x : Nat) (hx : Covered P ts counts displs x) : mem' .recv x = L x := by
  unfold initGeneral at h
  rw [if_pos (by decide), run_safe (allgatherv_safe rank me P ts user counts displs R L hf)] at h
  simp only at h
  split at h
  · cases h
  · injection h with h
    rw [← h, allgatherv_eq, List.foldl_append, cmp_mem _ (cmpParts_is _ _ _ _)]
    exact ((gatherPre_mem rank me P ts counts displs R L ⟨mem, false⟩ x).1 hx).1

/-- On the root the test of gatherv is that of allgatherv. -/
theorem gatherv_root (rank me P ts : Nat) (counts displs R L : Nat → Nat) :
    gatherv rank me P ts true counts displs R L = allgatherv rank me P ts counts displs R L := rfl

/-- Elsewhere it accepts everything and leaves the buffer of the user as it is. -/
theorem gatherv_other (debug : Int) (rank me P ts user : Nat) (counts displs R L : Nat → Nat) (mem : Buf → Nat → Nat) :
    ∃ mem', initGeneral debug (allgathervSize me P ts user counts displs) (gatherv rank me P ts false counts displs R L) mem = some mem' ∧
      mem' .recv = mem .recv := by
  unfold initGeneral
  by_cases hd : debug ≠ 0
  · have e : gatherv rank me P ts false counts displs R L =
        ((List.range (counts me * ts / 8)).map fun i => setLong .send 0 i (rank * maxOf P counts + i)) ++
          [.read .send 0 (counts me * ts), .read .send 0 (counts me * ts)] := by simp [gatherv]
    have hs : Safe (allgathervSize me P ts user counts displs) (gatherv rank me P ts false counts displs R L) := by
      rw [safe_iff, e]
      intro op h
      rcases List.mem_append.1 h with h | h
      · exact sendLongs_inside (by simp only [allgathervSize]; omega) _ op h
      · simp only [List.mem_cons, List.not_mem_nil, or_false] at h
        rcases h with rfl | rfl <;> simp [Op.inside, allgathervSize]
    have hb : ((gatherv rank me P ts false counts displs R L).foldl exec ⟨mem, false⟩).bad = false := by
      rw [e]
      refine noCmp_bad _ ?_ _
      intro op h
      rcases List.mem_append.1 h with h | h
      · exact sendLongs_no _ _ _ op h
      · simp only [List.mem_cons, List.not_mem_nil, or_false] at h
        rcases h with rfl | rfl <;> trivial
    rw [if_pos hd, run_safe hs]
    simp only [hb]
    refine ⟨_, rfl, ?_⟩
    rw [e]
    refine keeps_mem _ ?_ _
    intro op h
    rcases List.mem_append.1 h with h | h
    · exact sendLongs_keeps (by decide) _ _ op h
    · simp only [List.mem_cons, List.not_mem_nil, or_false] at h
      rcases h with rfl | rfl <;> trivial
  · rw [if_neg hd]
    exact ⟨mem, rfl, rfl⟩

/-- 3 processes with 1, 2 and 3 longs, with gaps. -/
example : Accepts (allgathervSize 1 3 8 200 (fun j => j + 1) (fun j => 5 * j))
    (allgatherv 1 1 3 8 (fun j => j + 1) (fun j => 5 * j) (fun x => x) (fun x => x)) (fun _ _ => 0) :=
  (allgatherv_long 1 1 3 200 _ _ _ _ (by intro j hj; show 5 * j * 8 + (j + 1) * 8 ≤ 200; omega) _).2 fun _ _ => rfl

/-- 3 processes with one int each: a wrong result is accepted. -/
example : Accepts (allgathervSize 1 3 4 12 (fun _ => 1) (fun j => j))
    (allgatherv 1 1 3 4 (fun _ => 1) (fun j => j) (fun x => x) (fun _ => 99)) (fun _ _ => 0) :=
  allgatherv_unsound_violated 1 1 3 4 12 _ _ _ _ (by intro j hj; show j * 4 + 1 * 4 ≤ 12; omega) (by intro j hj; show 1 * 4 < 8; omega) _

/-! ## Scatterv -/

/-- **C88, violated for scatterv**: for every type smaller than 8 bytes (int, float) and every process that receives anything the test writes
behind the end of its buffer. -/
theorem scatterv_violated (rank me P ts count : Nat) (isRoot : Bool) (counts displs R L : Nat → Nat) (hts : ts < 8) (hc : 0 < count) (s : State) :
    run (scattervSize P ts count counts displs) (scatterv rank me P ts count isRoot counts displs R L) s = none := by
  refine unsafe_of (op := .write .ref 0 (count * 8) R) ?_ ?_ s
  · unfold scatterv
    simp
  · simp only [Op.inside, scattervSize]
    apply decide_eq_false
    have : count * ts < count * 8 := Nat.mul_lt_mul_of_pos_left hts hc
    rintro (h | h) <;> omega

/-- C88, violated for scatterv with longs: a part that lies behind that of the last process is written outside of the buffer, on every
process. -/
theorem scatterv_order_violated (rank me P count i : Nat) (isRoot : Bool) (counts displs R L : Nat → Nat) (hi : i < P) (hc : 0 < counts i)
    (hd : displs (P - 1) + counts (P - 1) < displs i + counts i) (s : State) :
    run (scattervSize P 8 count counts displs) (scatterv rank me P 8 count isRoot counts displs R L) s = none := by
  refine unsafe_of (op := setLong .send (displs i * 8) (counts i - 1) (rank * ((displs (P - 1) + counts (P - 1)) * 8 / 8) +
    ((List.range i).map fun k => counts k * 8 / 8).sum + (counts i - 1))) ?_ ?_ s
  · unfold scatterv
    refine List.mem_append_left _ (List.mem_append_left _ (List.mem_flatMap.2 ⟨i, List.mem_range.2 hi, List.mem_map.2 ⟨counts i - 1, ?_, rfl⟩⟩))
    rw [List.mem_range]
    omega
  · simp only [setLong, Op.inside, scattervSize]
    apply decide_eq_false
    rintro (h | h) <;> omega

/-- C88 for scatterv, types of 8 bytes if no part ends behind that of the last process. -/
theorem scatterv_safe_partial (rank me P count : Nat) (isRoot : Bool) (counts displs R L : Nat → Nat)
    (hl : ∀ i < P, displs i + counts i ≤ displs (P - 1) + counts (P - 1)) :
    Safe (scattervSize P 8 count counts displs) (scatterv rank me P 8 count isRoot counts displs R L) := by
  have hreads : ∀ op ∈ (if isRoot then (List.range P).map fun i => Op.read .send (displs i * 8) (counts i * 8) else []),
      op.inside (scattervSize P 8 count counts displs) = true := by
    intro op h
    cases isRoot
    · simp at h
    · obtain ⟨i, hi, rfl⟩ := List.mem_map.1 h
      have := hl i (List.mem_range.1 hi)
      simp only [Op.inside, scattervSize]
      exact decide_eq_true (Or.inr (by omega))
  rw [safe_iff]
  intro op h
  unfold scatterv at h
  rcases List.mem_append.1 h with h | h
  · rcases List.mem_append.1 h with h | h
    · obtain ⟨i, hi, h⟩ := List.mem_flatMap.1 h
      obtain ⟨j, hj, rfl⟩ := List.mem_map.1 h
      have := hl i (List.mem_range.1 hi)
      have hj := List.mem_range.1 hj
      exact inside_long (by simp only [scattervSize]; omega)
    · rcases List.mem_append.1 h with h | h
      · rcases List.mem_append.1 h with h | h
        · rcases List.mem_append.1 h with h | h
          · exact hreads op h
          · simp only [List.mem_cons, List.not_mem_nil, or_false] at h
            subst h; simp [Op.inside, scattervSize]
        · exact hreads op h
      · simp only [List.mem_cons, List.not_mem_nil, or_false] at h
        subst h; simp [Op.inside, scattervSize]
  · exact cmpLongs_inside (by simp only [scattervSize]; omega) (by simp only [scattervSize]; omega) op h

/-- C89 for scatterv under the same conditions. -/
theorem scatterv_exact_partial (rank me P count : Nat) (isRoot : Bool) (counts displs R L : Nat → Nat)
    (hl : ∀ i < P, displs i + counts i ≤ displs (P - 1) + counts (P - 1)) (mem : Buf → Nat → Nat) :
    Accepts (scattervSize P 8 count counts displs) (scatterv rank me P 8 count isRoot counts displs R L) mem ↔ ∀ x < count * 8, L x = R x := by
  have hs := scatterv_safe_partial rank me P count isRoot counts displs R L hl
  unfold scatterv at hs ⊢
  have hreads : ∀ op ∈ (if isRoot then (List.range P).map fun i => Op.read .send (displs i * 8) (counts i * 8) else []),
      NoCmp op ∧ Keeps .ref op := by
    intro op h
    cases isRoot
    · simp at h
    · obtain ⟨i, hi, rfl⟩ := List.mem_map.1 h
      exact ⟨trivial, trivial⟩
  rw [accepts_split hs ?_ (cmpLongs_is _ _)]
  · have hv : ∀ (pre : List Op) (x : Nat), x < count * 8 →
        ((pre ++ ((if isRoot then (List.range P).map fun i => Op.read .send (displs i * 8) (counts i * 8) else []) ++ [Op.write .ref 0 (count * 8) R] ++
          (if isRoot then (List.range P).map fun i => Op.read .send (displs i * 8) (counts i * 8) else []) ++
            [Op.write .recv 0 (count * 8) L])).foldl exec ⟨mem, false⟩).mem .recv x = L x ∧
        ((pre ++ ((if isRoot then (List.range P).map fun i => Op.read .send (displs i * 8) (counts i * 8) else []) ++ [Op.write .ref 0 (count * 8) R] ++
          (if isRoot then (List.range P).map fun i => Op.read .send (displs i * 8) (counts i * 8) else []) ++
            [Op.write .recv 0 (count * 8) L])).foldl exec ⟨mem, false⟩).mem .ref x = R x := by
      intro pre x hx
      rw [List.foldl_append, List.foldl_append]
      simp only [List.foldl_cons, List.foldl_nil, exec]
      refine ⟨by rw [if_pos ⟨trivial, by omega, by omega⟩], ?_⟩
      rw [if_neg (fun h => by cases h.1), List.foldl_append, keeps_mem _ (fun op h => (hreads op h).2), List.foldl_append]
      simp only [List.foldl_cons, List.foldl_nil, exec]
      rw [if_pos ⟨trivial, by omega, by omega⟩]
    constructor
    · intro h x hx
      have := h (8 * (0 + x / 8)) 8 (mem_cmpLongs.2 ⟨x / 8, by omega, rfl, rfl⟩) x (by omega) (by omega)
      rwa [(hv _ x hx).1, (hv _ x hx).2] at this
    · intro h lo len hm x h1 h2
      obtain ⟨i, hi, rfl, rfl⟩ := mem_cmpLongs.1 hm
      rw [(hv _ x (by omega)).1, (hv _ x (by omega)).2]
      exact h x (by omega)
  · intro op h
    rcases List.mem_append.1 h with h | h
    · obtain ⟨i, _, h⟩ := List.mem_flatMap.1 h
      obtain ⟨j, _, rfl⟩ := List.mem_map.1 h
      trivial
    · rcases List.mem_append.1 h with h | h
      · rcases List.mem_append.1 h with h | h
        · rcases List.mem_append.1 h with h | h
          · exact (hreads op h).1
          · simp only [List.mem_cons, List.not_mem_nil, or_false] at h
            subst h; trivial
        · exact (hreads op h).1
      · simp only [List.mem_cons, List.not_mem_nil, or_false] at h
        subst h; trivial

/-- Scatterv of 3 ints to each of 2 processes faults; of 3 longs it works. -/
example : run (scattervSize 2 4 3 (fun _ => 3) (fun j => 3 * j)) (scatterv 0 0 2 4 3 true (fun _ => 3) (fun j => 3 * j) (fun x => x) (fun x => x))
      ⟨fun _ _ => 0, false⟩ = none ∧
    Accepts (scattervSize 2 8 3 (fun _ => 3) (fun j => 3 * j)) (scatterv 0 0 2 8 3 true (fun _ => 3) (fun j => 3 * j) (fun x => x) (fun x => x))
      (fun _ _ => 0) := by
  refine ⟨scatterv_violated 0 0 2 4 3 true _ _ _ _ (by omega) (by omega) _, (scatterv_exact_partial 0 0 2 3 true _ _ _ _ ?_ _).2 fun _ _ => rfl⟩
  intro i hi
  show 3 * i + 3 ≤ 3 * 1 + 3
  omega

end ExtMpi.SelfTest
