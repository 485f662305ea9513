import Verif.Spec.ByteCode
import Verif.Lemmas.Codec
namespace ExtMpi.ByteCode
open Codec (Byte Word putWord getWord val getWord_put)

/-- Bytes of an instruction. -/
def enc : Ins → List Byte
  | .ret => [opReturn]
  | .memcpy p1 p2 n => opMemcpy :: (ptrBytes p1 ++ ptrBytes p2 ++ putWord n)
  | .irecv p n r q => opIrecv :: (ptrBytes p ++ putWord n ++ putWord r ++ ptrBytes q)
  | .isend p n r q => opIsend :: (ptrBytes p ++ putWord n ++ putWord r ++ ptrBytes q)
  | .waitall n p => opWaitall :: (putWord n ++ ptrBytes p)
  | .waitany n k p => opWaitany :: (putWord n ++ putWord k ++ ptrBytes p)
  | .socketBarrier => [opSocketBarrier]
  | .nodeBarrier => [opNodeBarrier]
  | .set e => opSet :: putWord e
  | .wait e => opWait :: putWord e
  | .reduce op p1 p2 n => opReduce :: op :: (ptrBytes p1 ++ ptrBytes p2 ++ putWord n)
  | .attached => [opAttached]

theorem getPtr_put (p : Ptr) (rest : List Byte) : getPtr (ptrBytes p ++ rest) = some (p, rest) := by
  unfold getPtr ptrBytes
  rw [List.append_assoc, getWord_put]
  simp only [Option.bind_eq_bind, Option.bind_some, getWord_put]
  congr 2
  apply BitVec.eq_of_toNat_eq
  have := p.isLt
  simp only [BitVec.toNat_ofNat]
  omega

theorem fetch_enc (i : Ins) (rest : List Byte) : fetch (enc i ++ rest) = some (i, rest) := by
  have hb : ∀ {α β : Type} (x : α) (f : α → Option β), (some x >>= f) = f x := fun _ _ => rfl
  cases i <;>
    simp only [enc, fetch, List.cons_append, List.nil_append, List.append_assoc, getChar, hb, getPtr_put, getWord_put] <;>
    rfl

/-- The position is inside the memory. -/
def Out.Ok (o : Out) : Prop := ∀ mem, o.mem = some mem → o.ip ≤ mem.length

theorem overwrite_length {mem : List Byte} {i : Nat} {bs : List Byte} (h : i + bs.length ≤ mem.length) :
    (overwrite mem i bs).length = mem.length := by
  unfold overwrite; simp only [List.length_append, List.length_take, List.length_drop]; omega

theorem overwrite_append {mem : List Byte} {i : Nat} {b1 b2 : List Byte}
    (h : i + b1.length + b2.length ≤ mem.length) :
    overwrite (overwrite mem i b1) (i + b1.length) b2 = overwrite mem i (b1 ++ b2) := by
  unfold overwrite
  have h1 : (mem.take i ++ b1).length = i + b1.length := by
    rw [List.length_append, List.length_take]; omega
  rw [← h1, List.take_left, ← List.append_assoc]
  congr 1
  rw [h1, List.length_append, List.drop_append, List.drop_eq_nil_of_le (by rw [h1]; omega), List.nil_append,
    List.drop_drop]
  congr 1
  rw [h1]; omega

theorem put_nil {o : Out} (h : o.Ok) : put [] o = some o := by
  rcases o with ⟨ip, _ | mem⟩
  · rfl
  · have := h mem rfl
    simp only at this
    unfold put
    simp only [List.length_nil, Nat.add_zero, if_pos this, overwrite, List.append_nil, List.take_append_drop]

theorem put_ok {b : List Byte} {o o' : Out} (h : put b o = some o') : o'.Ok := by
  rcases o with ⟨ip, _ | mem⟩
  · simp only [put, Option.some.injEq] at h
    subst h; intro m hm; cases hm
  · simp only [put] at h
    split at h
    · rename_i hle
      simp only [Option.some.injEq] at h
      subst h
      intro m hm
      simp only [Option.some.injEq] at hm
      subst hm
      rw [overwrite_length hle]; exact hle
    · cases h

theorem put_put (b1 b2 : List Byte) (o : Out) : (put b1 o).bind (put b2) = put (b1 ++ b2) o := by
  rcases o with ⟨ip, _ | mem⟩
  · simp [put, Nat.add_assoc]
  · by_cases h : ip + (b1 ++ b2).length ≤ mem.length
    · have h' : ip + b1.length + b2.length ≤ mem.length := by rw [List.length_append] at h; omega
      simp only [put, if_pos h, if_pos (show ip + b1.length ≤ mem.length by omega), Option.bind_some]
      rw [if_pos (by rw [overwrite_length (by omega)]; exact h'), overwrite_append h', List.length_append,
        Nat.add_assoc]
    · simp only [put, if_neg h]
      split
      · rename_i h1
        simp only [Option.bind_some]
        have hlen := overwrite_length h1
        rw [List.length_append] at h
        exact if_neg (by show ¬ (ip + b1.length + b2.length ≤ _); omega)
      · rfl

/-- Writing a sequence of pieces. -/
theorem put_bind (b : List Byte) (o : Out) (f : Out → Option Out) (c : List Byte)
    (h : ∀ o', put b o = some o' → f o' = put c o') : (put b o).bind f = put (b ++ c) o := by
  rw [← put_put]
  cases hp : put b o with
  | none => rfl
  | some o' => exact h o' hp

theorem emit_eq {a : Args} {l : Ln} {is : List Ins} (h : Means a l is) {o : Out} (ho : o.Ok) :
    emit a o l = put (is.flatMap enc) o := by
  have hb : ∀ {α β : Type} (x : α) (f : α → Option β), (some x >>= f) = f x := fun _ _ => rfl
  cases h with
  | ret => rfl
  | setMany hn =>
    simp only [emit, if_pos hn, putChar, putInt, Option.bind_eq_bind, put_put]; rfl
  | setOne hn => rw [List.flatMap_nil, put_nil ho]; simp [emit, hn]
  | waitMany hn =>
    simp only [emit, if_pos hn, putChar, putInt, Option.bind_eq_bind, put_put]; rfl
  | waitOne hn => rw [List.flatMap_nil, put_nil ho]; simp [emit, hn]
  | waitall hn =>
    simp only [emit, if_pos hn, putChar, putInt, putPtr, Option.bind_eq_bind, put_put, ← Option.bind_assoc]; rfl
  | waitall0 => rw [List.flatMap_nil, put_nil ho]; simp [emit]
  | waitany =>
    simp only [emit, putChar, putInt, putPtr, Option.bind_eq_bind, put_put, ← Option.bind_assoc]; rfl
  | attached => rfl
  | isend hq hr =>
    simp only [emit, emitMessage, hq, hr, hb, putChar, putInt, putPtr, Option.bind_eq_bind, put_put,
      ← Option.bind_assoc, Option.bind_some]
    simp [enc]
  | irecv hq hr =>
    simp only [emit, emitMessage, hq, hr, hb, putChar, putInt, putPtr, Option.bind_eq_bind, put_put,
      ← Option.bind_assoc, Option.bind_some]
    simp [enc]
  | nodeBarrier => rfl
  | socketMany hn => simp only [emit, if_pos hn]; rfl
  | socketOne hn => rw [List.flatMap_nil, put_nil ho]; simp [emit, hn]
  | memcpy h1 h2 =>
    simp only [emit, h1, h2, hb, putChar, putInt, putPtr, Option.bind_eq_bind, put_put,
      ← Option.bind_assoc, Option.bind_some]
    simp [enc]
  | reduce h1 h2 =>
    simp only [emit, h1, h2, hb, putChar, putInt, putPtr, Option.bind_eq_bind, put_put,
      ← Option.bind_assoc, Option.bind_some]
    simp [enc]
  | other => rw [List.flatMap_nil, put_nil ho]; rfl

theorem emit_all {a : Args} {ls : List Ln} {is : List Ins} (h : Program a ls is) :
    ∀ {o : Out}, o.Ok → ls.foldlM (emit a) o = put (is.flatMap enc) o := by
  induction h with
  | nil => intro o ho; rw [List.flatMap_nil, put_nil ho]; rfl
  | cons hm _ ih =>
    intro o ho
    rw [List.foldlM_cons, emit_eq hm ho, List.flatMap_append]
    exact put_bind _ _ _ _ fun o' h' => ih (put_ok h')

theorem generate_eq {a : Args} {ls : List Ln} {is : List Ins} (h : Program a ls is) (mem : Option (List Byte)) :
    generate a mem ls = (put (a.header ++ is.flatMap enc ++ a.commRow ++ a.commColumn) ⟨0, mem⟩).map fun o =>
      ⟨o.ip, (a.header ++ is.flatMap enc).length, o.mem⟩ := by
  have hip : ∀ {b : List Byte} {o o' : Out}, put b o = some o' → o'.ip = o.ip + b.length := by
    intro b o o' h
    rcases o with ⟨ip, _ | m⟩
    · simp only [put, Option.some.injEq] at h; subst h; rfl
    · simp only [put] at h
      split at h
      · simp only [Option.some.injEq] at h; subst h; rfl
      · cases h
  unfold generate
  rw [← put_put, ← put_put, ← put_put]
  cases h1 : put a.header ⟨0, mem⟩ with
  | none => rfl
  | some o1 =>
    simp only [Option.bind_eq_bind, Option.bind_some]
    rw [emit_all h (put_ok h1)]
    cases h2 : put (is.flatMap enc) o1 with
    | none => rfl
    | some o2 =>
      simp only [Option.bind_some]
      cases h3 : put a.commRow o2 with
      | none => rfl
      | some o3 =>
        simp only [Option.bind_some]
        cases h4 : put a.commColumn o3 with
        | none => rfl
        | some o4 =>
          simp only [Option.bind_some, Option.map_some]
          rw [hip h2, hip h1, List.length_append]
          simp

theorem program_exists {a : Args} {ls : List Ln} (h : ∀ l ∈ ls, LineOk a l) : ∃ is, Program a ls is := by
  induction ls with
  | nil => exact ⟨[], .nil⟩
  | cons l ls ih =>
    obtain ⟨is', h'⟩ := ih fun l' hl => h l' (by simp [hl])
    have hl := h l (by simp)
    suffices ∃ is, Means a l is by
      obtain ⟨is, hm⟩ := this; exact ⟨_, .cons hm h'⟩
    by_cases hn : a.numCores = 1
    all_goals cases l with
    | ret => exact ⟨_, .ret⟩
    | setBarrier e => first | exact ⟨_, .setOne hn⟩ | exact ⟨_, .setMany hn⟩
    | waitBarrier e => first | exact ⟨_, .waitOne hn⟩ | exact ⟨_, .waitMany hn⟩
    | waitall n =>
      by_cases h0 : n = 0
      · subst h0; exact ⟨_, .waitall0⟩
      · exact ⟨_, .waitall h0⟩
    | waitany n k => exact ⟨_, .waitany⟩
    | attached => exact ⟨_, .attached⟩
    | isend o s p t =>
      obtain ⟨⟨q, hq⟩, hp⟩ := hl
      exact ⟨_, .isend hq (List.getElem?_eq_getElem hp)⟩
    | irecv o s p t =>
      obtain ⟨⟨q, hq⟩, hp⟩ := hl
      exact ⟨_, .irecv hq (List.getElem?_eq_getElem hp)⟩
    | nodeBarrier => exact ⟨_, .nodeBarrier⟩
    | socketBarrier => first | exact ⟨_, .socketOne hn⟩ | exact ⟨_, .socketMany hn⟩
    | memcpy o1 o2 s => obtain ⟨⟨p1, h1⟩, ⟨p2, h2⟩⟩ := hl; exact ⟨_, .memcpy h1 h2⟩
    | reduce o1 o2 s => obtain ⟨⟨p1, h1⟩, ⟨p2, h2⟩⟩ := hl; exact ⟨_, .reduce h1 h2⟩
    | other => exact ⟨_, .other⟩

theorem means_size {a a' : Args} (hc : a'.numCores = a.numCores) {l : Ln} {is is' : List Ins}
    (h : Means a l is) (h' : Means a' l is') : (is.flatMap enc).length = (is'.flatMap enc).length := by
  cases h <;> cases h' <;> first
    | rfl
    | exact absurd rfl ‹_ ≠ _›
    | omega

theorem program_size {a a' : Args} (hc : a'.numCores = a.numCores) {ls : List Ln} :
    ∀ {is is' : List Ins}, Program a ls is → Program a' ls is' →
      (is.flatMap enc).length = (is'.flatMap enc).length := by
  induction ls with
  | nil => intro is is' h h'; cases h; cases h'; rfl
  | cons l ls ih =>
    intro is is' h h'
    cases h with
    | cons hm hp =>
      cases h' with
      | cons hm' hp' =>
        rw [List.flatMap_append, List.flatMap_append, List.length_append, List.length_append,
          means_size hc hm hm', ih hp hp']

theorem readCode_grouped {is : List Ins} {p : Nat} (h : Grouped p is) (rest : List Byte) :
    ∀ fuel, is.length < fuel → readCode fuel p (is.flatMap enc ++ enc .ret ++ rest) = some (is ++ [.ret], rest) := by
  have hb : ∀ {α β : Type} (x : α) (f : α → Option β), (some x >>= f) = f x := fun _ _ => rfl
  induction h with
  | nil =>
    intro fuel hf
    obtain ⟨f, rfl⟩ : ∃ f, fuel = f + 1 := ⟨fuel - 1, by simp at hf; omega⟩
    simp only [List.flatMap_nil, List.nil_append, readCode, fetch_enc, hb]
  | waitany hn _ ih =>
    intro fuel hf
    obtain ⟨f, rfl⟩ : ∃ f, fuel = f + 1 := ⟨fuel - 1, by simp at hf; omega⟩
    simp only [List.flatMap_cons, List.append_assoc, readCode, fetch_enc, hb]
    rw [if_neg (by omega)]
    have := ih f (by simpa using hf)
    simp only [List.append_assoc] at this
    rw [this]; rfl
  | @plain i is hr hw _ ih =>
    intro fuel hf
    obtain ⟨f, rfl⟩ : ∃ f, fuel = f + 1 := ⟨fuel - 1, by simp at hf; omega⟩
    have := ih f (by simpa using hf)
    simp only [List.append_assoc] at this
    simp only [List.flatMap_cons, List.append_assoc, readCode, fetch_enc, hb]
    cases i <;> first | exact absurd rfl hr | exact absurd rfl (hw _ _ _) | (simp only [this]; rfl)
  | attached _ ih =>
    intro fuel hf
    obtain ⟨f, rfl⟩ : ∃ f, fuel = f + 1 := ⟨fuel - 1, by simp at hf; omega⟩
    have := ih f (by simpa using hf)
    simp only [List.append_assoc] at this
    simp only [List.flatMap_cons, List.append_assoc, readCode, fetch_enc, hb, this]; rfl
  | reduce _ ih =>
    intro fuel hf
    obtain ⟨f, rfl⟩ : ∃ f, fuel = f + 1 := ⟨fuel - 1, by simp at hf; omega⟩
    have := ih f (by simpa using hf)
    simp only [List.append_assoc] at this
    simp only [List.flatMap_cons, List.append_assoc, readCode, fetch_enc, hb, this]; rfl

end ExtMpi.ByteCode
