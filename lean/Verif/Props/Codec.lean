import Verif.Lemmas.CodecLines
import Verif.Spec.Codec
/-! # Serialisation between the passes (C15, C16, C17) -/
namespace ExtMpi.Codec

/-- C15: an algorithm is read back unchanged, whatever follows it in the buffer, and exactly its bytes
are consumed. -/
theorem algorithm_roundtrip (a : Algorithm) (h : a.length < 2 ^ 31)
    (hb : ∀ b, b ∈ a → b.length < 2 ^ 31) (hl : ∀ b, b ∈ a → ∀ l, l ∈ b → ALine.Fits l)
    (rest : List Byte) : getAlgorithm (putAlgorithm a ++ rest) = some (a, rest) := by
  unfold getAlgorithm putAlgorithm
  rw [List.append_assoc, getWord_put]
  simp only [Option.bind_eq_bind, Option.bind_some]
  rw [val_len a h]
  exact repeatRead_put getBlock putBlock a (fun x hx => getBlock_put x (hb x hx) (hl x hx)) rest

/-- C15: different algorithms have different serialised forms, none a prefix of another. -/
theorem algorithm_injective (a a' : Algorithm) (h : a.length < 2 ^ 31) (h' : a'.length < 2 ^ 31)
    (hb : ∀ b, b ∈ a → b.length < 2 ^ 31) (hl : ∀ b, b ∈ a → ∀ l, l ∈ b → ALine.Fits l)
    (hb' : ∀ b, b ∈ a' → b.length < 2 ^ 31) (hl' : ∀ b, b ∈ a' → ∀ l, l ∈ b → ALine.Fits l)
    (r r' : List Byte) (e : putAlgorithm a ++ r = putAlgorithm a' ++ r') : a = a' := by
  have h1 := algorithm_roundtrip a h hb hl r
  rw [e, algorithm_roundtrip a' h' hb' hl' r'] at h1
  exact (congrArg Prod.fst (Option.some.inj h1)).symm

/-- Algorithm with an empty block and a line with every kind of entry. -/
example (rest : List Byte) : getAlgorithm (putAlgorithm
    [[⟨3, [(1, 2), (5, 0)], [(4, 4)], [7], []⟩, ⟨word (-1), [], [], [], [1, 2]⟩], []] ++ rest) =
    some ([[⟨3, [(1, 2), (5, 0)], [(4, 4)], [7], []⟩, ⟨word (-1), [], [], [], [1, 2]⟩], []], rest) :=
  algorithm_roundtrip _ (by decide) (by decide)
    (by
      intro b hb l hl
      simp only [List.mem_cons, List.not_mem_nil, or_false] at hb
      rcases hb with rfl | rfl
      · simp only [List.mem_cons, List.not_mem_nil, or_false] at hl
        rcases hl with rfl | rfl <;> constructor <;> decide
      · cases hl) rest

/-- C16: read with the pattern it was written with, a line gives its fields and its length. -/
theorem asm_roundtrip (fs : List Field) (hlen : 4 + 5 * fs.length < 2 ^ 31) (rest : List Byte) :
    getAsm (putAsm fs ++ rest) (fs.map Field.kind) =
      some (((putAsm fs).length : Int), fs.map fun f => some f.value) := by
  have h : fieldRead fs (fs.map Field.kind) = some (true, fs.map fun f => some f.value, []) := by
    clear hlen
    induction fs with
    | nil => rfl
    | cons f fs ih => simp only [List.map_cons, fieldRead, if_true, ih]; rfl
  rw [getAsm_fieldRead fs hlen _ rest _ _ _ h]
  rw [putAsm_length]
  rfl

/-- C16: a proper prefix of the pattern gives the leading fields and the return value 0. -/
theorem asm_prefix (fs gs : List Field) (hgs : gs ≠ []) (hlen : 4 + 5 * (fs ++ gs).length < 2 ^ 31)
    (rest : List Byte) :
    getAsm (putAsm (fs ++ gs) ++ rest) (fs.map Field.kind) = some (0, fs.map fun f => some f.value) := by
  have h : fieldRead (fs ++ gs) (fs.map Field.kind) = some (true, fs.map fun f => some f.value, gs) := by
    clear hlen
    induction fs with
    | nil => cases gs <;> rfl
    | cons f fs ih => simp only [List.cons_append, List.map_cons, fieldRead, if_true, ih]; rfl
  rw [getAsm_fieldRead _ hlen _ rest _ _ _ h]
  simp [hgs]

/-- C16: every other pattern is rejected, whatever follows the line. -/
theorem asm_reject (fs : List Field) (hlen : 4 + 5 * fs.length < 2 ^ 31) (ks : List Kind)
    (hne : ¬ks <+: fs.map Field.kind) (rest : List Byte) :
    (∀ r, getAsm (putAsm fs ++ rest) ks = some r → r.1 = -11) ∧
    (5 * ks.length ≤ 5 * fs.length + rest.length → ∃ r, getAsm (putAsm fs ++ rest) ks = some r) := by
  obtain ⟨w, hw⟩ : ∃ w, w = BitVec.ofNat 32 (4 + (fs.flatMap putField).length) := ⟨_, rfl⟩
  have hv : val w = ((4 + 5 * fs.length : Nat) : Int) := by
    rw [hw, putFields_length, val_ofNat _ hlen]
  obtain ⟨_, _, h3, h4⟩ := getFields_spec fs ks (putWord w) rest (val w) (by rw [hv, putWord_length])
  rw [putWord_length] at h3 h4
  have hg : getWord (putAsm fs ++ rest) = some (w, fs.flatMap putField ++ rest) := by
    unfold putAsm
    rw [← hw, List.append_assoc, getWord_put]
  have hp : putAsm fs ++ rest = putWord w ++ fs.flatMap putField ++ rest := by unfold putAsm; rw [← hw]
  unfold getAsm
  rw [hg]
  simp only
  rw [hp]
  constructor
  · intro r hr
    cases hf : getFields (putWord w ++ fs.flatMap putField ++ rest) (val w) ks 4 with
    | none => rw [hf] at hr; cases hr
    | some g =>
      obtain ⟨ok, vs, j⟩ := g
      rw [hf] at hr
      cases ok with
      | false => cases hr; rfl
      | true =>
        rcases h3 hne _ hf with h | h
        · cases h
        · simp only at hr h
          rw [if_neg (by omega), if_neg (by omega)] at hr
          cases hr; rfl
  · intro hl
    obtain ⟨⟨ok, vs, j⟩, hr⟩ := h4 hl
    rw [hr]
    cases ok with
    | false => exact ⟨_, rfl⟩
    | true =>
      simp only
      by_cases c1 : (j : Int) = val w
      · rw [if_pos c1]; exact ⟨_, rfl⟩
      · rw [if_neg c1]
        by_cases c2 : (j : Int) < val w
        · rw [if_pos c2]; exact ⟨_, rfl⟩
        · rw [if_neg c2]; exact ⟨_, rfl⟩

open Kind in
/-- A line with an operand in shared memory and trailing garbage. -/
example : getAsm (putAsm [⟨s, 4⟩, ⟨s, 22⟩, ⟨d, 1⟩, ⟨s, 24⟩, ⟨d, word (-8)⟩] ++ [0, 1, 2]) [s, s, d, s, d] =
    some (29, [some 4, some 22, some 1, some 24, some (word (-8))]) :=
  asm_roundtrip [⟨s, 4⟩, ⟨s, 22⟩, ⟨d, 1⟩, ⟨s, 24⟩, ⟨d, word (-8)⟩] (by decide) [0, 1, 2]

open Kind in
example : ∀ r, getAsm (putAsm [⟨s, 4⟩, ⟨s, 22⟩] ++ [1, 0, 0, 0, 0]) [s, s, d] = some r → r.1 = -11 :=
  (asm_reject [⟨s, 4⟩, ⟨s, 22⟩] (by decide) [s, s, d] (by decide) [1, 0, 0, 0, 0]).1

/-! ## Streams -/

/-- Reading one line of a stream. -/
theorem readLine_put (fs : List Field) (hlen : 4 + 5 * fs.length ≤ 99) (rest : List Byte) :
    readLine (putAsm fs ++ rest) = some (((putAsm fs).length : Int), putAsm fs, rest) := by
  have hl := putAsm_length fs
  obtain ⟨w, hw⟩ : ∃ w, w = BitVec.ofNat 32 (4 + (fs.flatMap putField).length) := ⟨_, rfl⟩
  have hv : val w = ((4 + 5 * fs.length : Nat) : Int) := by
    rw [hw, putFields_length, val_ofNat _ (by omega)]
  have hg : getWord (putAsm fs ++ rest) = some (w, fs.flatMap putField ++ rest) := by
    unfold putAsm
    rw [← hw, List.append_assoc, getWord_put]
  unfold readLine
  rw [hg]
  simp only
  have hn : (val w).toNat = (putAsm fs).length := by rw [hv, hl]; rfl
  rw [if_neg (by rw [hn, hv, List.length_append]; omega), hn, List.take_left, List.drop_left, hv, hl]

/-- C16: a pass reads exactly the lines that the previous pass wrote and stops at the end mark,
whatever follows it. Lines of the passes have at most 14 fields. -/
theorem stream_roundtrip (ls : List (List Field)) (hlen : ∀ l, l ∈ ls → l.length ≤ 19) (rest : List Byte) :
    readLines (ls.length + 1) (ls.flatMap putAsm ++ eof ++ rest) = some (ls.map putAsm) := by
  induction ls with
  | nil =>
    have : readLine (eof ++ rest) = some (0, [], eof ++ rest) := by
      unfold readLine eof
      rw [getWord_put]
      rfl
    show (match readLine (eof ++ rest) with | none => none | some (r, line, rest) => _) = _
    rw [this]
    rfl
  | cons l ls ih =>
    have h1 := readLine_put l (by have := hlen l List.mem_cons_self; omega) (ls.flatMap putAsm ++ eof ++ rest)
    have hl := putAsm_length l
    rw [List.length_cons, readLines, List.flatMap_cons]
    have e : putAsm l ++ ls.flatMap putAsm ++ eof ++ rest = putAsm l ++ (ls.flatMap putAsm ++ eof ++ rest) := by
      simp
    rw [e, h1]
    simp only
    rw [if_neg (by omega), ih fun x hx => hlen x (List.mem_cons_of_mem _ hx)]
    rfl

open Kind in
example (rest : List Byte) :
    readLines 3 ([[⟨s, 1⟩], [⟨s, 4⟩, ⟨s, 22⟩, ⟨d, 1⟩]].flatMap putAsm ++ eof ++ rest) =
      some ([[⟨s, 1⟩], [⟨s, 4⟩, ⟨s, 22⟩, ⟨d, 1⟩]].map putAsm) :=
  stream_roundtrip [[⟨s, 1⟩], [⟨s, 4⟩, ⟨s, 22⟩, ⟨d, 1⟩]] (by decide) rest

/-! ## Copy, reduce and message lines -/

open Kind Var

theorem ecp_ne : ecp ≠ ecpbuffer_offseto := by decide

theorem message_private (st st0 : Store) (ht : isMessage (st type)) (h1 : st bt1 ≠ eshmemo) (rest : List Byte) :
    ∃ st', readMessage (writeMessage st ++ rest) st0 = some (1, st') ∧ st' type = st type ∧
      operand1 st' = (operand1 st).norm ∧ st' size = st size ∧ st' partner = st partner ∧
      st' mtag = st mtag := by
  have hw : writeMessage st = putAsm [⟨s, st type⟩, ⟨s, st bt1⟩, ⟨d, st off1⟩, ⟨d, st size⟩, ⟨d, st partner⟩, ⟨d, st mtag⟩] := by
    unfold writeMessage operand
    rw [if_pos h1]; rfl
  rw [hw]
  unfold readMessage
  simp only
  rw [readInto_part _ (by simp) [(s, type)] rest _ _ _ _ rfl]
  simp only [Option.bind_eq_bind, Option.bind_some]
  rw [if_pos ⟨by decide, by simpa [assign, Store.set] using ht⟩]
  rw [readInto_exact _ (by simp) [(s, type), (s, bt1), (d, off1), (d, size), (d, partner), (d, mtag)] rest _ _ rfl]
  simp only [Option.bind_eq_bind, Option.bind_some]
  rw [if_neg (not_or.2 ⟨by omega, by simp [assign, Store.set, h1]⟩)]
  refine ⟨_, rfl, ?_⟩
  simp [operand1, Operand.norm, assign, Store.set, h1]

theorem message_shared (st st0 : Store) (ht : isMessage (st type)) (h1 : st bt1 = eshmemo) (g1 : st is1 = 0) (rest : List Byte) :
    ∃ st', readMessage (writeMessage st ++ rest) st0 = some (1, st') ∧ st' type = st type ∧
      operand1 st' = (operand1 st).norm ∧ st' size = st size ∧ st' partner = st partner ∧
      st' mtag = st mtag := by
  have hw : writeMessage st = putAsm [⟨s, st type⟩, ⟨s, st bt1⟩, ⟨d, st bn1⟩, ⟨s, ecp⟩, ⟨d, st off1⟩, ⟨d, st size⟩, ⟨d, st partner⟩, ⟨d, st mtag⟩] := by
    unfold writeMessage operand
    rw [if_neg (fun h => h h1), if_pos g1]; rfl
  rw [hw]
  unfold readMessage
  simp only
  rw [readInto_part _ (by simp) [(s, type)] rest _ _ _ _ rfl]
  simp only [Option.bind_eq_bind, Option.bind_some]
  rw [if_pos ⟨by decide, by simpa [assign, Store.set] using ht⟩]
  rw [readInto_fail _ (by simp) [(s, type), (s, bt1), (d, off1), (d, size), (d, partner), (d, mtag)] rest _ _ _ rfl]
  simp only [Option.bind_eq_bind, Option.bind_some]
  rw [if_pos (Or.inl (by decide))]
  rw [readInto_exact _ (by simp) [(s, type), (s, bt1), (d, bn1), (s, estr), (d, off1), (d, size), (d, partner), (d, mtag)] rest _ _ rfl]
  simp only [Option.bind_eq_bind, Option.bind_some]
  rw [if_neg (not_or.2 ⟨by omega, by simp [assign, Store.set, ecp_ne]⟩)]
  refine ⟨_, rfl, ?_⟩
  simp [operand1, Operand.norm, assign, Store.set, h1, g1]

theorem message_offset (st st0 : Store) (ht : isMessage (st type)) (h1 : st bt1 = eshmemo) (g1 : st is1 ≠ 0) (rest : List Byte) :
    ∃ st', readMessage (writeMessage st ++ rest) st0 = some (1, st') ∧ st' type = st type ∧
      operand1 st' = (operand1 st).norm ∧ st' size = st size ∧ st' partner = st partner ∧
      st' mtag = st mtag := by
  have hw : writeMessage st = putAsm [⟨s, st type⟩, ⟨s, st bt1⟩, ⟨d, st bn1⟩, ⟨s, ecpbuffer_offseto⟩, ⟨d, st on1⟩, ⟨s, ecp⟩, ⟨d, st off1⟩, ⟨d, st size⟩, ⟨d, st partner⟩, ⟨d, st mtag⟩] := by
    unfold writeMessage operand
    rw [if_neg (fun h => h h1), if_neg g1]; rfl
  rw [hw]
  unfold readMessage
  simp only
  rw [readInto_part _ (by simp) [(s, type)] rest _ _ _ _ rfl]
  simp only [Option.bind_eq_bind, Option.bind_some]
  rw [if_pos ⟨by decide, by simpa [assign, Store.set] using ht⟩]
  rw [readInto_fail _ (by simp) [(s, type), (s, bt1), (d, off1), (d, size), (d, partner), (d, mtag)] rest _ _ _ rfl]
  simp only [Option.bind_eq_bind, Option.bind_some]
  rw [if_pos (Or.inl (by decide))]
  rw [readInto_fail _ (by simp) [(s, type), (s, bt1), (d, bn1), (s, estr), (d, off1), (d, size), (d, partner), (d, mtag)] rest _ _ _ rfl]
  simp only [Option.bind_eq_bind, Option.bind_some]
  rw [if_pos (Or.inl (by decide))]
  unfold readOrExit
  rw [readInto_exact _ (by simp) [(s, type), (s, bt1), (d, bn1), (s, estr), (d, on1), (s, estr), (d, off1), (d, size), (d, partner), (d, mtag)] rest _ _ rfl]
  simp only
  rw [if_neg (by omega)]
  simp only [Option.bind_eq_bind, Option.bind_some]
  have g1' : ¬st is1 = 0#32 := g1
  refine ⟨_, rfl, ?_⟩
  simp [operand1, Operand.norm, assign, Store.set, h1, g1']

/-- C17: every message line is read back with the operands written. -/
theorem message_roundtrip (st st0 : Store) (ht : isMessage (st type)) (rest : List Byte) :
    ∃ st', readMessage (writeMessage st ++ rest) st0 = some (1, st') ∧ st' type = st type ∧
      operand1 st' = (operand1 st).norm ∧ st' size = st size ∧ st' partner = st partner ∧
      st' mtag = st mtag := by
  by_cases h1 : st bt1 = eshmemo
  · by_cases g1 : st is1 = 0
    · exact message_shared st st0 ht h1 g1 rest
    · exact message_offset st st0 ht h1 g1 rest
  · exact message_private st st0 ht h1 rest

theorem copy_private_private (st st0 : Store) (ht : isMemcpyReduce (st type)) (h1 : st bt1 ≠ eshmemo) (h2 : st bt2 ≠ eshmemo)
    (rest : List Byte) :
    ∃ st', readCopy (writeCopy st ++ rest) st0 = some (1, st') ∧ st' type = st type ∧
      operand1 st' = (operand1 st).norm ∧ operand2 st' = (operand2 st).norm ∧ st' size = st size := by
  have hw : writeCopy st = putAsm [⟨s, st type⟩, ⟨s, st bt1⟩, ⟨d, st off1⟩, ⟨s, st bt2⟩, ⟨d, st off2⟩, ⟨d, st size⟩] := by
    unfold writeCopy operand
    rw [if_pos h1, if_pos h2]; rfl
  rw [hw]
  unfold readCopy
  simp only
  rw [readInto_part _ (by simp) [(s, type)] rest _ _ _ _ rfl]
  simp only [Option.bind_eq_bind, Option.bind_some]
  rw [if_pos ⟨by decide, by simpa [assign, Store.set] using ht⟩]
  rw [readInto_part _ (by simp) [(s, type), (s, bt1), (d, off1)] rest _ _ _ _ rfl]
  simp only [Option.bind_eq_bind, Option.bind_some]
  rw [if_neg (by simp [assign, Store.set, h1])]
  unfold readPrivate1
  simp only
  rw [readInto_exact _ (by simp) [(s, type), (s, bt1), (d, off1), (s, bt2), (d, off2), (d, size)] rest _ _ rfl]
  simp only [Option.bind_eq_bind, Option.bind_some]
  rw [if_neg (not_or.2 ⟨by omega, by simp [assign, Store.set, h2]⟩)]
  refine ⟨_, rfl, ?_⟩
  simp [operand1, operand2, Operand.norm, assign, Store.set, h1, h2]

theorem copy_private_shared (st st0 : Store) (ht : isMemcpyReduce (st type)) (h1 : st bt1 ≠ eshmemo) (h2 : st bt2 = eshmemo) (g2 : st is2 = 0)
    (rest : List Byte) :
    ∃ st', readCopy (writeCopy st ++ rest) st0 = some (1, st') ∧ st' type = st type ∧
      operand1 st' = (operand1 st).norm ∧ operand2 st' = (operand2 st).norm ∧ st' size = st size := by
  have hw : writeCopy st = putAsm [⟨s, st type⟩, ⟨s, st bt1⟩, ⟨d, st off1⟩, ⟨s, st bt2⟩, ⟨d, st bn2⟩, ⟨s, ecp⟩, ⟨d, st off2⟩, ⟨d, st size⟩] := by
    unfold writeCopy operand
    rw [if_pos h1, if_neg (fun h => h h2), if_pos g2]; rfl
  rw [hw]
  unfold readCopy
  simp only
  rw [readInto_part _ (by simp) [(s, type)] rest _ _ _ _ rfl]
  simp only [Option.bind_eq_bind, Option.bind_some]
  rw [if_pos ⟨by decide, by simpa [assign, Store.set] using ht⟩]
  rw [readInto_part _ (by simp) [(s, type), (s, bt1), (d, off1)] rest _ _ _ _ rfl]
  simp only [Option.bind_eq_bind, Option.bind_some]
  rw [if_neg (by simp [assign, Store.set, h1])]
  unfold readPrivate1
  simp only
  rw [readInto_fail _ (by simp) [(s, type), (s, bt1), (d, off1), (s, bt2), (d, off2), (d, size)] rest _ _ _ rfl]
  simp only [Option.bind_eq_bind, Option.bind_some]
  rw [if_pos (Or.inl (by decide))]
  rw [readInto_exact _ (by simp) [(s, type), (s, bt1), (d, off1), (s, bt2), (d, bn2), (s, estr), (d, off2), (d, size)] rest _ _ rfl]
  simp only [Option.bind_eq_bind, Option.bind_some]
  rw [if_neg (not_or.2 ⟨by omega, by simp [assign, Store.set, ecp_ne]⟩)]
  refine ⟨_, rfl, ?_⟩
  simp [operand1, operand2, Operand.norm, assign, Store.set, h1, h2, g2]

theorem copy_private_offset (st st0 : Store) (ht : isMemcpyReduce (st type)) (h1 : st bt1 ≠ eshmemo) (h2 : st bt2 = eshmemo) (g2 : st is2 ≠ 0)
    (rest : List Byte) :
    ∃ st', readCopy (writeCopy st ++ rest) st0 = some (1, st') ∧ st' type = st type ∧
      operand1 st' = (operand1 st).norm ∧ operand2 st' = (operand2 st).norm ∧ st' size = st size := by
  have hw : writeCopy st = putAsm [⟨s, st type⟩, ⟨s, st bt1⟩, ⟨d, st off1⟩, ⟨s, st bt2⟩, ⟨d, st bn2⟩, ⟨s, ecpbuffer_offseto⟩, ⟨d, st on2⟩, ⟨s, ecp⟩, ⟨d, st off2⟩, ⟨d, st size⟩] := by
    unfold writeCopy operand
    rw [if_pos h1, if_neg (fun h => h h2), if_neg g2]; rfl
  rw [hw]
  unfold readCopy
  simp only
  rw [readInto_part _ (by simp) [(s, type)] rest _ _ _ _ rfl]
  simp only [Option.bind_eq_bind, Option.bind_some]
  rw [if_pos ⟨by decide, by simpa [assign, Store.set] using ht⟩]
  rw [readInto_part _ (by simp) [(s, type), (s, bt1), (d, off1)] rest _ _ _ _ rfl]
  simp only [Option.bind_eq_bind, Option.bind_some]
  rw [if_neg (by simp [assign, Store.set, h1])]
  unfold readPrivate1
  simp only
  rw [readInto_fail _ (by simp) [(s, type), (s, bt1), (d, off1), (s, bt2), (d, off2), (d, size)] rest _ _ _ rfl]
  simp only [Option.bind_eq_bind, Option.bind_some]
  rw [if_pos (Or.inl (by decide))]
  rw [readInto_fail _ (by simp) [(s, type), (s, bt1), (d, off1), (s, bt2), (d, bn2), (s, estr), (d, off2), (d, size)] rest _ _ _ rfl]
  simp only [Option.bind_eq_bind, Option.bind_some]
  rw [if_pos (Or.inl (by decide))]
  unfold readOrExit
  rw [readInto_exact _ (by simp) [(s, type), (s, bt1), (d, off1), (s, bt2), (d, bn2), (s, estr), (d, on2), (s, estr), (d, off2), (d, size)] rest _ _ rfl]
  simp only
  rw [if_neg (by omega)]
  have g2' : ¬st is2 = 0#32 := g2
  refine ⟨_, rfl, ?_⟩
  simp [operand1, operand2, Operand.norm, assign, Store.set, h1, h2, g2']

theorem copy_shared_private (st st0 : Store) (ht : isMemcpyReduce (st type)) (h1 : st bt1 = eshmemo) (g1 : st is1 = 0) (h2 : st bt2 ≠ eshmemo)
    (rest : List Byte) :
    ∃ st', readCopy (writeCopy st ++ rest) st0 = some (1, st') ∧ st' type = st type ∧
      operand1 st' = (operand1 st).norm ∧ operand2 st' = (operand2 st).norm ∧ st' size = st size := by
  have hw : writeCopy st = putAsm [⟨s, st type⟩, ⟨s, st bt1⟩, ⟨d, st bn1⟩, ⟨s, ecp⟩, ⟨d, st off1⟩, ⟨s, st bt2⟩, ⟨d, st off2⟩, ⟨d, st size⟩] := by
    unfold writeCopy operand
    rw [if_neg (fun h => h h1), if_pos g1, if_pos h2]; rfl
  rw [hw]
  unfold readCopy
  simp only
  rw [readInto_part _ (by simp) [(s, type)] rest _ _ _ _ rfl]
  simp only [Option.bind_eq_bind, Option.bind_some]
  rw [if_pos ⟨by decide, by simpa [assign, Store.set] using ht⟩]
  rw [readInto_part _ (by simp) [(s, type), (s, bt1), (d, off1)] rest _ _ _ _ rfl]
  simp only [Option.bind_eq_bind, Option.bind_some]
  rw [if_pos (Or.inr (by simp [assign, Store.set, h1]))]
  rw [readInto_part _ (by simp) [(s, type), (s, bt1), (d, bn1), (s, estr), (d, off1)] rest _ _ _ _ rfl]
  simp only [Option.bind_eq_bind, Option.bind_some]
  rw [if_neg (by simp [assign, Store.set, ecp_ne])]
  unfold readShared1
  simp only
  rw [readInto_exact _ (by simp) [(s, type), (s, bt1), (d, bn1), (s, estr), (d, off1), (s, bt2), (d, off2), (d, size)] rest _ _ rfl]
  simp only [Option.bind_eq_bind, Option.bind_some]
  rw [if_neg (not_or.2 ⟨by omega, by simp [assign, Store.set, h2]⟩)]
  refine ⟨_, rfl, ?_⟩
  simp [operand1, operand2, Operand.norm, assign, Store.set, h1, h2, g1]

theorem copy_shared_shared (st st0 : Store) (ht : isMemcpyReduce (st type)) (h1 : st bt1 = eshmemo) (g1 : st is1 = 0) (h2 : st bt2 = eshmemo) (g2 : st is2 = 0)
    (rest : List Byte) :
    ∃ st', readCopy (writeCopy st ++ rest) st0 = some (1, st') ∧ st' type = st type ∧
      operand1 st' = (operand1 st).norm ∧ operand2 st' = (operand2 st).norm ∧ st' size = st size := by
  have hw : writeCopy st = putAsm [⟨s, st type⟩, ⟨s, st bt1⟩, ⟨d, st bn1⟩, ⟨s, ecp⟩, ⟨d, st off1⟩, ⟨s, st bt2⟩, ⟨d, st bn2⟩, ⟨s, ecp⟩, ⟨d, st off2⟩, ⟨d, st size⟩] := by
    unfold writeCopy operand
    rw [if_neg (fun h => h h1), if_pos g1, if_neg (fun h => h h2), if_pos g2]; rfl
  rw [hw]
  unfold readCopy
  simp only
  rw [readInto_part _ (by simp) [(s, type)] rest _ _ _ _ rfl]
  simp only [Option.bind_eq_bind, Option.bind_some]
  rw [if_pos ⟨by decide, by simpa [assign, Store.set] using ht⟩]
  rw [readInto_part _ (by simp) [(s, type), (s, bt1), (d, off1)] rest _ _ _ _ rfl]
  simp only [Option.bind_eq_bind, Option.bind_some]
  rw [if_pos (Or.inr (by simp [assign, Store.set, h1]))]
  rw [readInto_part _ (by simp) [(s, type), (s, bt1), (d, bn1), (s, estr), (d, off1)] rest _ _ _ _ rfl]
  simp only [Option.bind_eq_bind, Option.bind_some]
  rw [if_neg (by simp [assign, Store.set, ecp_ne])]
  unfold readShared1
  simp only
  rw [readInto_fail _ (by simp) [(s, type), (s, bt1), (d, bn1), (s, estr), (d, off1), (s, bt2), (d, off2), (d, size)] rest _ _ _ rfl]
  simp only [Option.bind_eq_bind, Option.bind_some]
  rw [if_pos (Or.inl (by decide))]
  rw [readInto_exact _ (by simp) [(s, type), (s, bt1), (d, bn1), (s, estr), (d, off1), (s, bt2), (d, bn2), (s, estr2), (d, off2), (d, size)] rest _ _ rfl]
  simp only [Option.bind_eq_bind, Option.bind_some]
  rw [if_neg (not_or.2 ⟨by omega, by simp [assign, Store.set, ecp_ne]⟩)]
  refine ⟨_, rfl, ?_⟩
  simp [operand1, operand2, Operand.norm, assign, Store.set, h1, h2, g1, g2]

theorem copy_shared_offset (st st0 : Store) (ht : isMemcpyReduce (st type)) (h1 : st bt1 = eshmemo) (g1 : st is1 = 0) (h2 : st bt2 = eshmemo) (g2 : st is2 ≠ 0)
    (rest : List Byte) :
    ∃ st', readCopy (writeCopy st ++ rest) st0 = some (1, st') ∧ st' type = st type ∧
      operand1 st' = (operand1 st).norm ∧ operand2 st' = (operand2 st).norm ∧ st' size = st size := by
  have hw : writeCopy st = putAsm [⟨s, st type⟩, ⟨s, st bt1⟩, ⟨d, st bn1⟩, ⟨s, ecp⟩, ⟨d, st off1⟩, ⟨s, st bt2⟩, ⟨d, st bn2⟩, ⟨s, ecpbuffer_offseto⟩, ⟨d, st on2⟩, ⟨s, ecp⟩, ⟨d, st off2⟩, ⟨d, st size⟩] := by
    unfold writeCopy operand
    rw [if_neg (fun h => h h1), if_pos g1, if_neg (fun h => h h2), if_neg g2]; rfl
  rw [hw]
  unfold readCopy
  simp only
  rw [readInto_part _ (by simp) [(s, type)] rest _ _ _ _ rfl]
  simp only [Option.bind_eq_bind, Option.bind_some]
  rw [if_pos ⟨by decide, by simpa [assign, Store.set] using ht⟩]
  rw [readInto_part _ (by simp) [(s, type), (s, bt1), (d, off1)] rest _ _ _ _ rfl]
  simp only [Option.bind_eq_bind, Option.bind_some]
  rw [if_pos (Or.inr (by simp [assign, Store.set, h1]))]
  rw [readInto_part _ (by simp) [(s, type), (s, bt1), (d, bn1), (s, estr), (d, off1)] rest _ _ _ _ rfl]
  simp only [Option.bind_eq_bind, Option.bind_some]
  rw [if_neg (by simp [assign, Store.set, ecp_ne])]
  unfold readShared1
  simp only
  rw [readInto_fail _ (by simp) [(s, type), (s, bt1), (d, bn1), (s, estr), (d, off1), (s, bt2), (d, off2), (d, size)] rest _ _ _ rfl]
  simp only [Option.bind_eq_bind, Option.bind_some]
  rw [if_pos (Or.inl (by decide))]
  rw [readInto_fail _ (by simp) [(s, type), (s, bt1), (d, bn1), (s, estr), (d, off1), (s, bt2), (d, bn2), (s, estr2), (d, off2), (d, size)] rest _ _ _ rfl]
  simp only [Option.bind_eq_bind, Option.bind_some]
  rw [if_pos (Or.inl (by decide))]
  unfold readOrExit
  rw [readInto_exact _ (by simp) [(s, type), (s, bt1), (d, bn1), (s, estr), (d, off1), (s, bt2), (d, bn2), (s, estr), (d, on2), (s, estr), (d, off2), (d, size)] rest _ _ rfl]
  simp only
  rw [if_neg (by omega)]
  have g2' : ¬st is2 = 0#32 := g2
  refine ⟨_, rfl, ?_⟩
  simp [operand1, operand2, Operand.norm, assign, Store.set, h1, h2, g1, g2']

theorem copy_offset_private (st st0 : Store) (ht : isMemcpyReduce (st type)) (h1 : st bt1 = eshmemo) (g1 : st is1 ≠ 0) (h2 : st bt2 ≠ eshmemo)
    (rest : List Byte) :
    ∃ st', readCopy (writeCopy st ++ rest) st0 = some (1, st') ∧ st' type = st type ∧
      operand1 st' = (operand1 st).norm ∧ operand2 st' = (operand2 st).norm ∧ st' size = st size := by
  have hw : writeCopy st = putAsm [⟨s, st type⟩, ⟨s, st bt1⟩, ⟨d, st bn1⟩, ⟨s, ecpbuffer_offseto⟩, ⟨d, st on1⟩, ⟨s, ecp⟩, ⟨d, st off1⟩, ⟨s, st bt2⟩, ⟨d, st off2⟩, ⟨d, st size⟩] := by
    unfold writeCopy operand
    rw [if_neg (fun h => h h1), if_neg g1, if_pos h2]; rfl
  rw [hw]
  unfold readCopy
  simp only
  rw [readInto_part _ (by simp) [(s, type)] rest _ _ _ _ rfl]
  simp only [Option.bind_eq_bind, Option.bind_some]
  rw [if_pos ⟨by decide, by simpa [assign, Store.set] using ht⟩]
  rw [readInto_part _ (by simp) [(s, type), (s, bt1), (d, off1)] rest _ _ _ _ rfl]
  simp only [Option.bind_eq_bind, Option.bind_some]
  rw [if_pos (Or.inr (by simp [assign, Store.set, h1]))]
  rw [readInto_part _ (by simp) [(s, type), (s, bt1), (d, bn1), (s, estr), (d, off1)] rest _ _ _ _ rfl]
  simp only [Option.bind_eq_bind, Option.bind_some]
  rw [if_pos (Or.inr (by simp [assign, Store.set, h1]))]
  unfold readOffset1
  simp only
  rw [readInto_exact _ (by simp) [(s, type), (s, bt1), (d, bn1), (s, estr), (d, on1), (s, estr), (d, off1), (s, bt2), (d, off2), (d, size)] rest _ _ rfl]
  simp only [Option.bind_eq_bind, Option.bind_some]
  rw [if_neg (not_or.2 ⟨by omega, by simp [assign, Store.set, h2]⟩)]
  have g1' : ¬st is1 = 0#32 := g1
  refine ⟨_, rfl, ?_⟩
  simp [operand1, operand2, Operand.norm, assign, Store.set, h1, h2, g1']

theorem copy_offset_shared (st st0 : Store) (ht : isMemcpyReduce (st type)) (h1 : st bt1 = eshmemo) (g1 : st is1 ≠ 0) (h2 : st bt2 = eshmemo) (g2 : st is2 = 0)
    (rest : List Byte) :
    ∃ st', readCopy (writeCopy st ++ rest) st0 = some (1, st') ∧ st' type = st type ∧
      operand1 st' = (operand1 st).norm ∧ operand2 st' = (operand2 st).norm ∧ st' size = st size := by
  have hw : writeCopy st = putAsm [⟨s, st type⟩, ⟨s, st bt1⟩, ⟨d, st bn1⟩, ⟨s, ecpbuffer_offseto⟩, ⟨d, st on1⟩, ⟨s, ecp⟩, ⟨d, st off1⟩, ⟨s, st bt2⟩, ⟨d, st bn2⟩, ⟨s, ecp⟩, ⟨d, st off2⟩, ⟨d, st size⟩] := by
    unfold writeCopy operand
    rw [if_neg (fun h => h h1), if_neg g1, if_neg (fun h => h h2), if_pos g2]; rfl
  rw [hw]
  unfold readCopy
  simp only
  rw [readInto_part _ (by simp) [(s, type)] rest _ _ _ _ rfl]
  simp only [Option.bind_eq_bind, Option.bind_some]
  rw [if_pos ⟨by decide, by simpa [assign, Store.set] using ht⟩]
  rw [readInto_part _ (by simp) [(s, type), (s, bt1), (d, off1)] rest _ _ _ _ rfl]
  simp only [Option.bind_eq_bind, Option.bind_some]
  rw [if_pos (Or.inr (by simp [assign, Store.set, h1]))]
  rw [readInto_part _ (by simp) [(s, type), (s, bt1), (d, bn1), (s, estr), (d, off1)] rest _ _ _ _ rfl]
  simp only [Option.bind_eq_bind, Option.bind_some]
  rw [if_pos (Or.inr (by simp [assign, Store.set, h1]))]
  unfold readOffset1
  simp only
  rw [readInto_fail _ (by simp) [(s, type), (s, bt1), (d, bn1), (s, estr), (d, on1), (s, estr), (d, off1), (s, bt2), (d, off2), (d, size)] rest _ _ _ rfl]
  simp only [Option.bind_eq_bind, Option.bind_some]
  rw [if_pos (Or.inl (by decide))]
  rw [readInto_exact _ (by simp) [(s, type), (s, bt1), (d, bn1), (s, estr), (d, on1), (s, estr), (d, off1), (s, bt2), (d, bn2), (s, estr2), (d, off2), (d, size)] rest _ _ rfl]
  simp only [Option.bind_eq_bind, Option.bind_some]
  rw [if_neg (not_or.2 ⟨by omega, by simp [assign, Store.set, ecp_ne]⟩)]
  have g1' : ¬st is1 = 0#32 := g1
  refine ⟨_, rfl, ?_⟩
  simp [operand1, operand2, Operand.norm, assign, Store.set, h1, h2, g1', g2]

theorem copy_offset_offset (st st0 : Store) (ht : isMemcpyReduce (st type)) (h1 : st bt1 = eshmemo) (g1 : st is1 ≠ 0) (h2 : st bt2 = eshmemo) (g2 : st is2 ≠ 0)
    (rest : List Byte) :
    ∃ st', readCopy (writeCopy st ++ rest) st0 = some (1, st') ∧ st' type = st type ∧
      operand1 st' = (operand1 st).norm ∧ operand2 st' = (operand2 st).norm ∧ st' size = st size := by
  have hw : writeCopy st = putAsm [⟨s, st type⟩, ⟨s, st bt1⟩, ⟨d, st bn1⟩, ⟨s, ecpbuffer_offseto⟩, ⟨d, st on1⟩, ⟨s, ecp⟩, ⟨d, st off1⟩, ⟨s, st bt2⟩, ⟨d, st bn2⟩, ⟨s, ecpbuffer_offseto⟩, ⟨d, st on2⟩, ⟨s, ecp⟩, ⟨d, st off2⟩, ⟨d, st size⟩] := by
    unfold writeCopy operand
    rw [if_neg (fun h => h h1), if_neg g1, if_neg (fun h => h h2), if_neg g2]; rfl
  rw [hw]
  unfold readCopy
  simp only
  rw [readInto_part _ (by simp) [(s, type)] rest _ _ _ _ rfl]
  simp only [Option.bind_eq_bind, Option.bind_some]
  rw [if_pos ⟨by decide, by simpa [assign, Store.set] using ht⟩]
  rw [readInto_part _ (by simp) [(s, type), (s, bt1), (d, off1)] rest _ _ _ _ rfl]
  simp only [Option.bind_eq_bind, Option.bind_some]
  rw [if_pos (Or.inr (by simp [assign, Store.set, h1]))]
  rw [readInto_part _ (by simp) [(s, type), (s, bt1), (d, bn1), (s, estr), (d, off1)] rest _ _ _ _ rfl]
  simp only [Option.bind_eq_bind, Option.bind_some]
  rw [if_pos (Or.inr (by simp [assign, Store.set, h1]))]
  unfold readOffset1
  simp only
  rw [readInto_fail _ (by simp) [(s, type), (s, bt1), (d, bn1), (s, estr), (d, on1), (s, estr), (d, off1), (s, bt2), (d, off2), (d, size)] rest _ _ _ rfl]
  simp only [Option.bind_eq_bind, Option.bind_some]
  rw [if_pos (Or.inl (by decide))]
  rw [readInto_fail _ (by simp) [(s, type), (s, bt1), (d, bn1), (s, estr), (d, on1), (s, estr), (d, off1), (s, bt2), (d, bn2), (s, estr2), (d, off2), (d, size)] rest _ _ _ rfl]
  simp only [Option.bind_eq_bind, Option.bind_some]
  rw [if_pos (Or.inl (by decide))]
  unfold readOrExit
  rw [readInto_exact _ (by simp) [(s, type), (s, bt1), (d, bn1), (s, estr), (d, on1), (s, estr), (d, off1), (s, bt2), (d, bn2), (s, estr), (d, on2), (s, estr), (d, off2), (d, size)] rest _ _ rfl]
  simp only
  rw [if_neg (by omega)]
  have g1' : ¬st is1 = 0#32 := g1
  have g2' : ¬st is2 = 0#32 := g2
  refine ⟨_, rfl, ?_⟩
  simp [operand1, operand2, Operand.norm, assign, Store.set, h1, h2, g1', g2']

/-- C17: every copy or reduce line is read back with the operands written, for all nine combinations
of buffer kinds. -/
theorem copy_roundtrip (st st0 : Store) (ht : isMemcpyReduce (st type)) (rest : List Byte) :
    ∃ st', readCopy (writeCopy st ++ rest) st0 = some (1, st') ∧ st' type = st type ∧
      operand1 st' = (operand1 st).norm ∧ operand2 st' = (operand2 st).norm ∧ st' size = st size := by
  by_cases h1 : st bt1 = eshmemo
  · by_cases g1 : st is1 = 0
    · by_cases h2 : st bt2 = eshmemo
      · by_cases g2 : st is2 = 0
        · exact copy_shared_shared st st0 ht h1 g1 h2 g2 rest
        · exact copy_shared_offset st st0 ht h1 g1 h2 g2 rest
      · exact copy_shared_private st st0 ht h1 g1 h2 rest
    · by_cases h2 : st bt2 = eshmemo
      · by_cases g2 : st is2 = 0
        · exact copy_offset_shared st st0 ht h1 g1 h2 g2 rest
        · exact copy_offset_offset st st0 ht h1 g1 h2 g2 rest
      · exact copy_offset_private st st0 ht h1 g1 h2 rest
  · by_cases h2 : st bt2 = eshmemo
    · by_cases g2 : st is2 = 0
      · exact copy_private_shared st st0 ht h1 h2 g2 rest
      · exact copy_private_offset st st0 ht h1 h2 g2 rest
    · exact copy_private_private st st0 ht h1 h2 rest

/-- A reduction from shared memory with buffer offset into the receive buffer. -/
example (st0 : Store) (rest : List Byte) :
    ∃ st', readCopy (writeCopy (fun x => match x with
      | type => ereduce | bt1 => 20 | off1 => 16 | bt2 => eshmemo | bn2 => 3 | is2 => 1 | on2 => 5
      | off2 => 8 | size => 64 | _ => 0) ++ rest) st0 = some (1, st') ∧
      operand1 st' = ⟨20, word (-1), 0, word (-1), 16⟩ ∧ operand2 st' = ⟨eshmemo, 3, 1, 5, 8⟩ := by
  obtain ⟨st', h1, _, h2, h3, _⟩ := copy_roundtrip (fun x => match x with
      | type => ereduce | bt1 => 20 | off1 => 16 | bt2 => eshmemo | bn2 => 3 | is2 => 1 | on2 => 5
      | off2 => 8 | size => 64 | _ => 0) st0 (by decide) rest
  exact ⟨st', h1, h2, h3⟩

/-- A send from shared memory. -/
example (st0 : Store) (rest : List Byte) :
    ∃ st', readMessage (writeMessage (fun x => match x with
      | type => eisend | bt1 => eshmemo | bn1 => 2 | off1 => 16 | size => 64 | partner => 9 | _ => 0) ++ rest)
        st0 = some (1, st') ∧ operand1 st' = ⟨eshmemo, 2, 0, word (-1), 16⟩ ∧ st' partner = 9 := by
  obtain ⟨st', h1, _, h2, _, h3, _⟩ := message_roundtrip (fun x => match x with
      | type => eisend | bt1 => eshmemo | bn1 => 2 | off1 => 16 | size => 64 | partner => 9 | _ => 0) st0
      (by decide) rest
  exact ⟨st', h1, h2, h3⟩

end ExtMpi.Codec
