import Verif.Model.Codec
/-! Round trips of the binary format. -/
namespace ExtMpi.Codec

theorem getWord_put (w : Word) (rest : List Byte) : getWord (putWord w ++ rest) = some (w, rest) := by
  show some (_, rest) = some (w, rest)
  congr 2
  apply BitVec.eq_of_toNat_eq
  have h := w.isLt
  simp only [BitVec.toNat_ofNat]
  omega

theorem putWord_length (w : Word) : (putWord w).length = 4 := rfl

theorem val_len {α : Type} (l : List α) (h : l.length < 2 ^ 31) : (val (len l)).toNat = l.length := by
  have h2 : (BitVec.ofNat 32 l.length).toNat = l.length := by
    rw [BitVec.toNat_ofNat]; exact Nat.mod_eq_of_lt (by omega)
  unfold val len
  rw [BitVec.toInt_eq_toNat_cond, h2, if_pos (by omega)]
  rfl

theorem val_ofNat (n : Nat) (h : n < 2 ^ 31) : val (BitVec.ofNat 32 n) = n := by
  have h2 : (BitVec.ofNat 32 n).toNat = n := by
    rw [BitVec.toNat_ofNat]; exact Nat.mod_eq_of_lt (by omega)
  unfold val
  rw [BitVec.toInt_eq_toNat_cond, h2, if_pos (by omega)]

theorem repeatRead_put {α : Type} (rd : List Byte → Option (α × List Byte)) (wr : α → List Byte)
    (l : List α) (h : ∀ x, x ∈ l → ∀ rest, rd (wr x ++ rest) = some (x, rest)) (rest : List Byte) :
    repeatRead rd l.length (l.flatMap wr ++ rest) = some (l, rest) := by
  induction l generalizing rest with
  | nil => rfl
  | cons x xs ih =>
    rw [List.length_cons, repeatRead, List.flatMap_cons, List.append_assoc,
      h x List.mem_cons_self]
    simp only [Option.bind_eq_bind, Option.bind_some]
    rw [ih fun y hy => h y (List.mem_cons_of_mem _ hy)]
    rfl

theorem getWords_put (l : List Word) (n : Word) (hn : (val n).toNat = l.length) (rest : List Byte) :
    getWords n (putWords l ++ rest) = some (l, rest) := by
  unfold getWords
  rw [hn]
  exact repeatRead_put getWord putWord l (fun x _ => getWord_put x) rest

/-- All counts fit an `int`. -/
structure ALine.Fits (l : ALine) : Prop where
  sendto : l.sendto.length < 2 ^ 31
  recvfrom : l.recvfrom.length < 2 ^ 31
  reducefrom : l.reducefrom.length < 2 ^ 31
  copyreducefrom : l.copyreducefrom.length < 2 ^ 31

theorem zip_fst_snd {α β : Type} (l : List (α × β)) : (l.map Prod.fst).zip (l.map Prod.snd) = l := by
  induction l with
  | nil => rfl
  | cons x xs ih => simp [ih]

theorem getLine_put (l : ALine) (h : l.Fits) (rest : List Byte) :
    getLine (putLine l ++ rest) = some (l, rest) := by
  have h1 := val_len l.sendto h.sendto
  have h2 := val_len l.recvfrom h.recvfrom
  have h3 := val_len l.reducefrom h.reducefrom
  have h4 := val_len l.copyreducefrom h.copyreducefrom
  unfold getLine putLine
  simp only [List.append_assoc, Option.bind_eq_bind, getWord_put, Option.bind_some]
  rw [getWords_put (l.sendto.map Prod.fst) _ (by rw [h1, List.length_map])]
  simp only [Option.bind_some]
  rw [getWords_put (l.sendto.map Prod.snd) _ (by rw [h1, List.length_map])]
  simp only [Option.bind_some]
  rw [getWords_put (l.recvfrom.map Prod.fst) _ (by rw [h2, List.length_map])]
  simp only [Option.bind_some]
  rw [getWords_put (l.recvfrom.map Prod.snd) _ (by rw [h2, List.length_map])]
  simp only [Option.bind_some]
  rw [getWords_put l.reducefrom _ h3]
  simp only [Option.bind_some]
  rw [getWords_put l.copyreducefrom _ h4]
  simp only [Option.bind_some, zip_fst_snd]
  rfl

theorem getBlock_put (b : List ALine) (hb : b.length < 2 ^ 31) (h : ∀ l, l ∈ b → l.Fits) (rest : List Byte) :
    getBlock (putBlock b ++ rest) = some (b, rest) := by
  unfold getBlock putBlock
  rw [List.append_assoc, getWord_put]
  simp only [Option.bind_eq_bind, Option.bind_some]
  rw [val_len b hb]
  exact repeatRead_put getLine putLine b (fun x hx => getLine_put x (h x hx)) rest

theorem putField_length (f : Field) : (putField f).length = 5 := rfl

theorem putFields_length (fs : List Field) : (fs.flatMap putField).length = 5 * fs.length := by
  induction fs with
  | nil => rfl
  | cons f fs ih => rw [List.flatMap_cons, List.length_append, ih, putField_length, List.length_cons]; omega

theorem tag_inj {j k : Kind} (h : tag j = tag k) : j = k := by
  cases j <;> cases k <;> first | rfl | exact absurd h (by decide)

theorem getElem?_at {α : Type} (pre post : List α) (x : α) : (pre ++ x :: post)[pre.length]? = some x := by
  rw [List.getElem?_append_right (Nat.le_refl _)]
  simp

theorem drop_at {α : Type} (pre post : List α) (x : α) : (pre ++ x :: post).drop (pre.length + 1) = post := by
  rw [← List.drop_drop, List.drop_left]
  rfl

/-- Reading one field that was written at this position. -/
theorem getField_at (pre post : List Byte) (f : Field) (n : Int) (k : Kind)
    (hn : ((pre.length + 1 : Nat) : Int) < n) :
    getField (pre ++ putField f ++ post) n k pre.length =
      some (if f.kind = k then .ok (some f.value) else .mismatch) := by
  unfold getField putField
  rw [List.append_assoc, List.cons_append, getElem?_at]
  simp only
  by_cases h : f.kind = k
  · rw [if_pos h, if_pos (by rw [h]), if_pos hn, drop_at, getWord_put]
  · rw [if_neg h, if_neg fun e => h (tag_inj e)]

/-- Reading a pattern from a line: `pre` has been read, `fs` is left of the line. -/
theorem getFields_spec (fs : List Field) (ks : List Kind) (pre rest : List Byte) (n : Int)
    (hn : n = ((pre.length + 5 * fs.length : Nat) : Int)) :
    (fs.map Field.kind = ks → getFields (pre ++ fs.flatMap putField ++ rest) n ks pre.length =
      some (true, fs.map fun f => some f.value, pre.length + 5 * fs.length)) ∧
    (∀ fs' gs, fs = fs' ++ gs → fs'.map Field.kind = ks →
      getFields (pre ++ fs.flatMap putField ++ rest) n ks pre.length =
        some (true, fs'.map fun f => some f.value, pre.length + 5 * fs'.length)) ∧
    (¬ks <+: fs.map Field.kind → ∀ r, getFields (pre ++ fs.flatMap putField ++ rest) n ks pre.length = some r →
      r.1 = false ∨ n < (r.2.2 : Int)) ∧
    (5 * ks.length ≤ 5 * fs.length + rest.length →
      ∃ r, getFields (pre ++ fs.flatMap putField ++ rest) n ks pre.length = some r) := by
  induction ks generalizing fs pre rest with
  | nil =>
    refine ⟨?_, ?_, ?_, ?_⟩
    · intro h
      have : fs = [] := by simpa using h
      subst this; rfl
    · intro fs' gs h1 h2
      have : fs' = [] := by simpa using h2
      subst this; rfl
    · intro h; exact absurd List.nil_prefix h
    · intro _; exact ⟨_, rfl⟩
  | cons k ks ih =>
    cases fs with
    | nil =>
      -- behind the end of the line
      have hbeyond : ∀ (ks : List Kind) (buf : List Byte) (i : Nat), n ≤ (i : Int) → ∀ r,
          getFields buf n ks i = some r → ks ≠ [] → r.1 = false ∨ n < (r.2.2 : Int) := by
        intro ks
        induction ks with
        | nil => intro _ _ _ _ _ h; exact absurd rfl h
        | cons k ks ih2 =>
          intro buf i hi r hr _
          rw [getFields] at hr
          cases hg : getField buf n k i with
          | none => rw [hg] at hr; cases hr
          | some g =>
            rw [hg] at hr
            cases g with
            | mismatch => cases hr; left; rfl
            | ok v =>
              simp only at hr
              obtain ⟨r2, h1, h2⟩ := Option.map_eq_some_iff.1 hr
              by_cases hk : ks = []
              · subst hk
                cases h1
                cases h2
                right
                show n < ((i + 5 : Nat) : Int)
                omega
              · rcases ih2 buf (i + 5) (by omega) r2 h1 hk with h | h
                · left; rw [← h2]; exact h
                · right; rw [← h2]; exact h
      have hdef : ∀ (ks : List Kind) (buf : List Byte) (i : Nat), n ≤ (i : Int) →
          i + 5 * ks.length ≤ buf.length → ∃ r, getFields buf n ks i = some r := by
        intro ks
        induction ks with
        | nil => intro _ _ _ _; exact ⟨_, rfl⟩
        | cons k ks ih2 =>
          intro buf i hi hl
          rw [List.length_cons] at hl
          obtain ⟨r, hr⟩ := ih2 buf (i + 5) (by omega) (by omega)
          have hb : buf[i]? = some (buf[i]'(by omega)) := List.getElem?_eq_getElem (by omega)
          rw [getFields]
          unfold getField
          rw [hb]
          simp only
          by_cases ht : buf[i]'(by omega) = tag k
          · rw [if_pos ht, if_neg (by omega)]
            exact ⟨_, by rw [hr]; rfl⟩
          · rw [if_neg ht]; exact ⟨_, rfl⟩
      have hn' : n = (pre.length : Int) := by simpa using hn
      refine ⟨fun h => by simp at h, ?_, ?_, ?_⟩
      · intro fs' gs h1 h2
        have : fs' = [] := (List.append_eq_nil_iff.1 h1.symm).1
        subst this; simp at h2
      · intro _ r hr
        exact hbeyond (k :: ks) _ pre.length (by omega) r hr (by simp)
      · intro h
        apply hdef (k :: ks) _ pre.length (by omega)
        simp at h ⊢
        omega
    | cons f fs =>
      have hb : pre ++ (f :: fs).flatMap putField ++ rest =
          pre ++ putField f ++ (fs.flatMap putField ++ rest) := by
        simp
      have hb2 : pre ++ (f :: fs).flatMap putField ++ rest =
          (pre ++ putField f) ++ fs.flatMap putField ++ rest := by
        simp
      have hl : (pre ++ putField f).length = pre.length + 5 := by
        rw [List.length_append, putField_length]
      have hlt : ((pre.length + 1 : Nat) : Int) < n := by
        rw [hn, List.length_cons]; omega
      have hg := getField_at pre (fs.flatMap putField ++ rest) f n k hlt
      rw [← hb] at hg
      obtain ⟨i1, i2, i3, i4⟩ := ih fs (pre ++ putField f) rest (by
        rw [hn, hl, List.length_cons]; congr 1; omega)
      rw [hl, ← hb2] at i1 i2 i3 i4
      rw [getFields, hg]
      by_cases hk : f.kind = k
      · rw [if_pos hk]
        simp only
        refine ⟨?_, ?_, ?_, ?_⟩
        · intro h
          rw [i1 (List.tail_eq_of_cons_eq h)]
          simp only [Option.map_some, List.map_cons, List.length_cons]
          congr 3
          omega
        · intro fs' gs h1 h2
          cases fs' with
          | nil => simp at h2
          | cons f' fs' =>
            have hf : f = f' := List.head_eq_of_cons_eq h1
            subst hf
            rw [i2 fs' gs (List.tail_eq_of_cons_eq h1) (List.tail_eq_of_cons_eq h2)]
            simp only [Option.map_some, List.map_cons, List.length_cons]
            congr 3
            omega
        · intro h r hr
          obtain ⟨r2, h1, h2⟩ := Option.map_eq_some_iff.1 hr
          have : ¬ks <+: fs.map Field.kind := by
            intro hp
            apply h
            rw [List.map_cons, hk]
            exact List.cons_prefix_cons.2 ⟨rfl, hp⟩
          rcases i3 this r2 h1 with e | e
          · left; rw [← h2]; exact e
          · right; rw [← h2]; exact e
        · intro h
          obtain ⟨r, hr⟩ := i4 (by simp only [List.length_cons] at h; omega)
          exact ⟨_, by rw [hr]; rfl⟩
      · rw [if_neg hk]
        refine ⟨?_, ?_, ?_, ?_⟩
        · intro h; exact absurd (List.head_eq_of_cons_eq h) hk
        · intro fs' gs h1 h2
          cases fs' with
          | nil => simp at h2
          | cons f' fs' =>
            have hf : f = f' := List.head_eq_of_cons_eq h1
            subst hf
            exact absurd (List.head_eq_of_cons_eq h2) hk
        · intro h r hr
          cases hr
          left; rfl
        · intro _; exact ⟨_, rfl⟩

end ExtMpi.Codec
