import Verif.Model.CodecLines
import Verif.Lemmas.Codec
/-! Reading a line that was written, on the level of fields. -/
namespace ExtMpi.Codec

/-- Outcome of a pattern that does not run past the end of the line. -/
def fieldRead : List Field → List Kind → Option (Bool × List (Option Word) × List Field)
  | fs, [] => some (true, [], fs)
  | [], _ :: _ => none
  | f :: fs, k :: ks =>
    if f.kind = k then (fieldRead fs ks).map fun r => (r.1, some f.value :: r.2.1, r.2.2)
    else some (false, [some (failValue k)], fs)

theorem getFields_fieldRead (fs : List Field) (ks : List Kind) (pre rest : List Byte) (n : Int)
    (hn : n = ((pre.length + 5 * fs.length : Nat) : Int)) (ok : Bool) (vs : List (Option Word))
    (gs : List Field) (h : fieldRead fs ks = some (ok, vs, gs)) :
    ∃ j, getFields (pre ++ fs.flatMap putField ++ rest) n ks pre.length = some (ok, vs, j) ∧
      (ok = true → (j : Int) = n - 5 * gs.length) := by
  induction ks generalizing fs pre ok vs gs with
  | nil =>
    have : fieldRead fs [] = some (true, [], fs) := by cases fs <;> rfl
    rw [this] at h
    cases h
    exact ⟨pre.length, rfl, fun _ => by rw [hn]; push_cast; omega⟩
  | cons k ks ih =>
    cases fs with
    | nil => cases h
    | cons f fs =>
      have hb : pre ++ (f :: fs).flatMap putField ++ rest =
          pre ++ putField f ++ (fs.flatMap putField ++ rest) := by
        simp
      have hb2 : pre ++ (f :: fs).flatMap putField ++ rest =
          (pre ++ putField f) ++ fs.flatMap putField ++ rest := by
        simp
      have hl : (pre ++ putField f).length = pre.length + 5 := by
        rw [List.length_append, putField_length]
      have hlt : ((pre.length + 1 : Nat) : Int) < n := by
        rw [hn, List.length_cons]; omega
      have hg := getField_at pre (fs.flatMap putField ++ rest) f n k hlt
      rw [← hb] at hg
      rw [fieldRead] at h
      rw [getFields, hg]
      by_cases hk : f.kind = k
      · rw [if_pos hk] at h
        obtain ⟨⟨ok', vs', gs'⟩, h1, h2⟩ := Option.map_eq_some_iff.1 h
        cases h2
        obtain ⟨j, h3, h4⟩ := ih fs (pre ++ putField f) (by
          rw [hn, hl, List.length_cons]; congr 1; omega) ok' vs' gs' h1
        rw [hl, ← hb2] at h3
        refine ⟨j, ?_, h4⟩
        rw [if_pos hk]
        simp only [h3]
        rfl
      · rw [if_neg hk] at h
        cases h
        exact ⟨pre.length + 1, by rw [if_neg hk], fun e => by cases e⟩

theorem getAsm_fieldRead (fs : List Field) (hlen : 4 + 5 * fs.length < 2 ^ 31) (ks : List Kind)
    (rest : List Byte) (ok : Bool) (vs : List (Option Word)) (gs : List Field)
    (h : fieldRead fs ks = some (ok, vs, gs)) :
    getAsm (putAsm fs ++ rest) ks = some (if ok then (if gs = [] then ((4 + 5 * fs.length : Nat) : Int) else 0)
      else -11, vs) := by
  obtain ⟨w, hw⟩ : ∃ w, w = BitVec.ofNat 32 (4 + (fs.flatMap putField).length) := ⟨_, rfl⟩
  have hv : val w = ((4 + 5 * fs.length : Nat) : Int) := by
    rw [hw, putFields_length, val_ofNat _ hlen]
  obtain ⟨j, h1, h2⟩ := getFields_fieldRead fs ks (putWord w) rest (val w) (by
    rw [hv, putWord_length]) ok vs gs h
  unfold getAsm putAsm
  rw [← hw]
  have hg : getWord (putWord w ++ fs.flatMap putField ++ rest) = some (w, fs.flatMap putField ++ rest) := by
    rw [List.append_assoc, getWord_put]
  rw [hg]
  simp only
  rw [putWord_length] at h1
  rw [h1]
  cases ok with
  | false => rfl
  | true =>
    have h3 := h2 rfl
    simp only [if_true]
    by_cases hgs : gs = []
    · rw [if_pos hgs, if_pos (by rw [h3, hgs]; simp), hv]
    · have : 0 < gs.length := List.length_pos_iff.2 hgs
      rw [if_neg hgs, if_neg (by omega), if_pos (by omega)]

/-- Reading into variables. -/
theorem readInto_fieldRead (fs : List Field) (hlen : 4 + 5 * fs.length < 2 ^ 31) (ps : List (Kind × Var))
    (rest : List Byte) (st : Store) (ok : Bool) (vs : List (Option Word)) (gs : List Field)
    (h : fieldRead fs (ps.map Prod.fst) = some (ok, vs, gs)) :
    readInto (putAsm fs ++ rest) ps st =
      some (if ok then (if gs = [] then ((4 + 5 * fs.length : Nat) : Int) else 0) else -11,
        assign st (ps.map Prod.snd) vs) := by
  unfold readInto
  rw [getAsm_fieldRead fs hlen _ rest ok vs gs h]
  rfl

theorem readInto_exact (fs : List Field) (hlen : fs.length ≤ 99) (ps : List (Kind × Var))
    (rest : List Byte) (st : Store) (vs : List (Option Word))
    (h : fieldRead fs (ps.map Prod.fst) = some (true, vs, [])) :
    readInto (putAsm fs ++ rest) ps st =
      some (((4 + 5 * fs.length : Nat) : Int), assign st (ps.map Prod.snd) vs) := by
  rw [readInto_fieldRead fs (by omega) ps rest st _ _ _ h]
  rfl

theorem readInto_part (fs : List Field) (hlen : fs.length ≤ 99) (ps : List (Kind × Var))
    (rest : List Byte) (st : Store) (vs : List (Option Word)) (g : Field) (gs : List Field)
    (h : fieldRead fs (ps.map Prod.fst) = some (true, vs, g :: gs)) :
    readInto (putAsm fs ++ rest) ps st = some (0, assign st (ps.map Prod.snd) vs) := by
  rw [readInto_fieldRead fs (by omega) ps rest st _ _ _ h]
  rfl

theorem readInto_fail (fs : List Field) (hlen : fs.length ≤ 99) (ps : List (Kind × Var))
    (rest : List Byte) (st : Store) (vs : List (Option Word)) (gs : List Field)
    (h : fieldRead fs (ps.map Prod.fst) = some (false, vs, gs)) :
    readInto (putAsm fs ++ rest) ps st = some (-11, assign st (ps.map Prod.snd) vs) := by
  rw [readInto_fieldRead fs (by omega) ps rest st _ _ _ h]
  rfl

theorem putAsm_length (fs : List Field) : (putAsm fs).length = 4 + 5 * fs.length := by
  unfold putAsm
  rw [List.length_append, putFields_length, putWord_length]

end ExtMpi.Codec
