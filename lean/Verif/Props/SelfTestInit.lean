import Verif.Props.SelfTest
/-!
# The self-test at the start of an initialisation

C87 for the remaining collectives, and C89 in terms of the initialisation: it ends the program exactly if the result is wrong.
-/
namespace ExtMpi.SelfTest

/-- An initialisation with the test ends the program, or has undefined behaviour, exactly if the test does not accept. -/
theorem init_iff (debug : Int) (hd : debug ≠ 0) (size : Buf → Nat) (test : List Op) (mem : Buf → Nat → Nat) :
    initGeneral debug size test mem = none ↔ ¬ Accepts size test mem := by
  unfold initGeneral Accepts
  rw [if_pos hd]
  cases h : run size test ⟨mem, false⟩ with
  | none => simp
  | some s => cases hb : s.bad <;> simp [hb]

/-- An initialisation without the test leaves memory as it is, whatever the library would deliver. -/
theorem init_off (size : Buf → Nat) (test : List Op) (mem : Buf → Nat → Nat) : initGeneral 0 size test mem = some mem := rfl

/-- C89: the initialisation of an allreduce ends the program exactly if the library delivers a wrong byte. -/
theorem allreduce_ends_iff (debug : Int) (hd : debug ≠ 0) (rank count ts : Nat) (hts : ts = 4 ∨ ts = 8) (inPlace : Bool) (R L : Nat → Nat)
    (mem : Buf → Nat → Nat) :
    initGeneral debug (allreduceSize count ts) (allreduce rank count ts inPlace R L) mem = none ↔ ∃ x < count * ts, L x ≠ R x := by
  rw [init_iff debug hd, allreduce_exact rank count ts hts]
  push Not
  rfl

/-- C89 for the root of a reduce. -/
theorem reduce_ends_iff (debug : Int) (hd : debug ≠ 0) (rank count : Nat) (R L : Nat → Nat) (mem : Buf → Nat → Nat) :
    initGeneral debug (allreduceSize count 8) (reduce rank count true R L) mem = none ↔ ∃ x < count * 8, L x ≠ R x := by
  rw [init_iff debug hd, reduce_exact]
  push Not
  rfl

/-- C89 for reduce_scatter. -/
theorem reduceScatter_ends_iff (debug : Int) (hd : debug ≠ 0) (rank total mine : Nat) (R L : Nat → Nat) (mem : Buf → Nat → Nat) :
    initGeneral debug (reduceScatterSize total mine) (reduceScatter rank total mine R L) mem = none ↔ ∃ x < mine * 8, L x ≠ R x := by
  rw [init_iff debug hd, reduceScatter_exact]
  push Not
  rfl

/-- A test that writes the result into the receive buffer and then only compares leaves the result there. -/
theorem result_stays {debug : Int} (hd : debug ≠ 0) {size : Buf → Nat} {pre cmps : List Op} {n : Nat} {L : Nat → Nat}
    (hc : ∀ op ∈ cmps, IsCmp op) {mem mem' : Buf → Nat → Nat}
    (h : initGeneral debug size (pre ++ .write .recv 0 n L :: cmps) mem = some mem') {x : Nat} (hx : x < n) : mem' .recv x = L x := by
  unfold initGeneral at h
  rw [if_pos hd, run_eq] at h
  by_cases hi : ∀ op ∈ pre ++ Op.write .recv 0 n L :: cmps, op.inside size = true
  · rw [if_pos hi] at h
    simp only at h
    split at h
    · cases h
    · injection h with h
      rw [← h, List.foldl_append, List.foldl_cons, cmp_mem _ hc]
      simp only [exec]
      rw [if_pos ⟨trivial, by omega, by omega⟩]
  · rw [if_neg hi] at h
    cases h

/-- C87, violated for the root of a reduce of longs: whatever was in the receive buffer, afterwards it is the result for the test data. -/
theorem reduce_overwrites (debug : Int) (hd : debug ≠ 0) (rank count : Nat) (R L : Nat → Nat) (hL : ∀ x < count * 8, L x = R x)
    (mem : Buf → Nat → Nat) :
    ∃ mem', initGeneral debug (allreduceSize count 8) (reduce rank count true R L) mem = some mem' ∧
      ∀ x < count * 8, mem' .recv x = R x := by
  have hn : initGeneral debug (allreduceSize count 8) (reduce rank count true R L) mem ≠ none := by
    rw [Ne, reduce_ends_iff debug hd]
    rintro ⟨x, h1, h2⟩
    exact h2 (hL x h1)
  obtain ⟨mem', h⟩ := Option.ne_none_iff_exists'.1 hn
  refine ⟨mem', h, fun x hx => ?_⟩
  have e : reduce rank count true R L = (((List.range (count * 8 / 8)).map fun i => setLong .send 0 i (rank * count + i)) ++
      [.read .send 0 (count * 8), .write .ref 0 (count * 8) R, .read .send 0 (count * 8)]) ++
        .write .recv 0 (count * 8) L :: cmpLongs 0 (count * 8 / 8) := by
    simp [reduce]
  rw [e] at h
  rw [result_stays hd (cmpLongs_is _ _) h hx, hL x hx]

/-- C87 for the other processes of a reduce: the receive buffer stays as it is. -/
theorem reduce_other (debug : Int) (rank count : Nat) (R L : Nat → Nat) (mem : Buf → Nat → Nat) :
    ∃ mem', initGeneral debug (allreduceSize count 8) (reduce rank count false R L) mem = some mem' ∧ mem' .recv = mem .recv := by
  unfold initGeneral
  by_cases hd : debug ≠ 0
  · rw [if_pos hd, run_safe (reduce_safe rank count false R L)]
    have e : reduce rank count false R L = ((List.range (count * 8 / 8)).map fun i => setLong .send 0 i (rank * count + i)) ++
        [.read .send 0 (count * 8), .read .send 0 (count * 8)] := by
      simp [reduce]
    have hb : ((reduce rank count false R L).foldl exec ⟨mem, false⟩).bad = false := by
      rw [e, noCmp_bad]
      intro op h
      rcases List.mem_append.1 h with h | h
      · exact sendLongs_no _ _ _ op h
      · simp only [List.mem_cons, List.not_mem_nil, or_false] at h
        rcases h with rfl | rfl <;> trivial
    refine ⟨((reduce rank count false R L).foldl exec ⟨mem, false⟩).mem, by simp only [hb, Bool.false_eq_true, if_false], ?_⟩
    rw [e]
    refine keeps_mem _ (fun op h => ?_) _
    rcases List.mem_append.1 h with h | h
    · exact sendLongs_keeps (by decide) _ _ op h
    · simp only [List.mem_cons, List.not_mem_nil, or_false] at h
      rcases h with rfl | rfl <;> trivial
  · rw [if_neg hd]
    exact ⟨mem, rfl, rfl⟩

/-- C87, violated for a reduce_scatter of longs. -/
theorem reduceScatter_overwrites (debug : Int) (hd : debug ≠ 0) (rank total mine : Nat) (R L : Nat → Nat) (hL : ∀ x < mine * 8, L x = R x)
    (mem : Buf → Nat → Nat) :
    ∃ mem', initGeneral debug (reduceScatterSize total mine) (reduceScatter rank total mine R L) mem = some mem' ∧
      ∀ x < mine * 8, mem' .recv x = R x := by
  have hn : initGeneral debug (reduceScatterSize total mine) (reduceScatter rank total mine R L) mem ≠ none := by
    rw [Ne, reduceScatter_ends_iff debug hd]
    rintro ⟨x, h1, h2⟩
    exact h2 (hL x h1)
  obtain ⟨mem', h⟩ := Option.ne_none_iff_exists'.1 hn
  refine ⟨mem', h, fun x hx => ?_⟩
  have e : reduceScatter rank total mine R L = (((List.range (total * 8 / 8)).map fun i => setLong .send 0 i (rank * total + i)) ++
      [.read .send 0 (total * 8), .write .ref 0 (mine * 8) R, .read .send 0 (total * 8)]) ++
        .write .recv 0 (mine * 8) L :: cmpLongs 0 (mine * 8 / 8) := by
    simp [reduceScatter]
  rw [e] at h
  rw [result_stays hd (cmpLongs_is _ _) h hx, hL x hx]

/-- C87, violated for a scatterv of longs whose last part is the furthest. -/
theorem scatterv_overwrites (debug : Int) (hd : debug ≠ 0) (rank me P count : Nat) (isRoot : Bool) (counts displs R L : Nat → Nat)
    (hl : ∀ i < P, displs i + counts i ≤ displs (P - 1) + counts (P - 1)) (hL : ∀ x < count * 8, L x = R x) (mem : Buf → Nat → Nat) :
    ∃ mem', initGeneral debug (scattervSize P 8 count counts displs) (scatterv rank me P 8 count isRoot counts displs R L) mem = some mem' ∧
      ∀ x < count * 8, mem' .recv x = R x := by
  have hn : initGeneral debug (scattervSize P 8 count counts displs) (scatterv rank me P 8 count isRoot counts displs R L) mem ≠ none := by
    rw [Ne, init_iff debug hd, scatterv_exact_partial rank me P count isRoot counts displs R L hl]
    exact fun h => h hL
  obtain ⟨mem', h⟩ := Option.ne_none_iff_exists'.1 hn
  refine ⟨mem', h, fun x hx => ?_⟩
  unfold scatterv at h
  simp only [← List.append_assoc] at h
  rw [List.append_assoc _ [Op.write Buf.recv 0 (count * 8) L], List.singleton_append] at h
  rw [result_stays hd (cmpLongs_is _ _) h hx, hL x hx]

/-- One wrong byte of 3 ints ends the program; 2 longs of a reduce replace what was in the buffer. -/
example : initGeneral 1 (allreduceSize 3 4) (allreduce 0 3 4 false (fun _ => 1) (fun x => if x = 11 then 0 else 1)) (fun _ _ => 0) = none ∧
    ∃ mem', initGeneral 1 (allreduceSize 2 8) (reduce 0 2 true (fun _ => 1) (fun _ => 1)) (fun _ _ => 7) = some mem' ∧ mem' .recv 3 = 1 := by
  refine ⟨(allreduce_ends_iff 1 (by decide) 0 3 4 (Or.inl rfl) false _ _ _).2 ⟨11, by decide, by decide⟩, ?_⟩
  obtain ⟨mem', h1, h2⟩ := reduce_overwrites 1 (by decide) 0 2 (fun _ => 1) (fun _ => 1) (fun _ _ => rfl) (fun _ _ => 7)
  exact ⟨mem', h1, h2 3 (by decide)⟩

end ExtMpi.SelfTest
