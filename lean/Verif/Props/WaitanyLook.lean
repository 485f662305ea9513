import Verif.Model.WaitanyLook
import Verif.Props.Codec
import Verif.Props.Waitany
/-!
# C46: data being sent are not modified
-/
namespace ExtMpi.WaitanyLook
open Codec

/-- The line `socket_barrier`. -/
def barrierLine : List Byte := putAsm [⟨.s, esocket_barrier⟩]

theorem fetch_zero (rest : List Byte) : fetch (0#8 :: 0#8 :: 0#8 :: 0#8 :: rest) =
    some (0, List.replicate 99 255#8) := by
  unfold fetch readLine getWord
  rfl

/-- The stream that follows the wait in the program of a step: the look-ahead starts 24 bytes late, inside
of the reduce line. -/
theorem drop_stream (st : Store) (rest : List Byte) (h : st .type = ereduce) :
    ∃ tail, (barrierLine ++ barrierLine ++ writeCopy st ++ rest).drop 24 =
      0#8 :: 0#8 :: 0#8 :: 0#8 :: tail := by
  unfold writeCopy
  rw [h]
  have key : ∀ (o : List Field) (h1 : ∃ f o', o = f :: o' ∧ f.kind = .s) ,
      ∃ tail, (barrierLine ++ barrierLine ++ putAsm (⟨.s, ereduce⟩ :: o) ++ rest).drop 24 =
        0#8 :: 0#8 :: 0#8 :: 0#8 :: tail := by
    rintro o ⟨⟨k, v⟩, o', rfl, rfl⟩
    exact ⟨_, rfl⟩
  apply key
  unfold operand
  split
  · exact ⟨_, _, rfl, rfl⟩
  · split <;> exact ⟨_, _, rfl, rfl⟩

/-- C46 is violated in the pass: with two barriers between the wait and the first reduction, as
`src/core/raw_code.c:207-300` writes them, the look-ahead answers "no conflict" whatever the reduction and
the send are, even if the reduction writes to the offset being sent. -/
theorem look_violated (st : Store) (rest : List Byte) (h : st .type = ereduce) (sent : Word) (fuel : Nat) :
    look (barrierLine ++ barrierLine ++ writeCopy st ++ rest) sent (fuel + 1) = some 1 := by
  obtain ⟨tail, ht⟩ := drop_stream st rest h
  unfold look lookLoop
  rw [show waitallSize + 0 = 24 from rfl, ht, fetch_zero]
  rfl

/-- The reduction does write to the offset being sent. -/
example (rest : List Byte) : ∃ (st : Store), st .type = ereduce ∧ st .off1 = 16 ∧
    (∃ st', readCopy (writeCopy st ++ rest) st = some (1, st') ∧ (operand1 st').offset = 16) ∧
    look (barrierLine ++ barrierLine ++ writeCopy st ++ rest) 16 1 = some 1 := by
  let st : Store := fun x => match x with
      | .type => ereduce | .bt1 => eshmemo | .bn1 => 0 | .off1 => 16 | .bt2 => eshmemo | .bn2 => 0 | .is2 => 0
      | .off2 => 32 | .size => 8 | _ => 0
  refine ⟨st, rfl, rfl, ?_, look_violated st rest rfl 16 0⟩
  obtain ⟨st', h1, _, h2, _⟩ := copy_roundtrip st st (by decide) rest
  exact ⟨st', h1, by rw [h2]; decide⟩

theorem fetch_put (fs : List Field) (hlen : 4 + 5 * fs.length ≤ 99) (rest : List Byte) :
    ∃ pad, fetch (putAsm fs ++ rest) = some (((putAsm fs).length : Int), putAsm fs ++ pad) := by
  unfold fetch
  rw [readLine_put fs hlen rest]
  exact ⟨_, rfl⟩

theorem type_put (f : Field) (hf : f.kind = .s) (fs : List Field) (hlen : fs.length ≤ 18) (rest : List Byte) :
    ∃ r, getAsm (putAsm (f :: fs) ++ rest) [.s] = some (r, [some f.value]) := by
  cases fs with
  | nil =>
    have := asm_roundtrip [f] (by simp) rest
    simp only [List.map_cons, hf, List.map_nil] at this
    exact ⟨_, this⟩
  | cons g gs =>
    have := asm_prefix [f] (g :: gs) (by simp) (by simp at hlen ⊢; omega) rest
    simp only [List.map_cons, hf, List.map_nil] at this
    exact ⟨_, this⟩

theorem operand_length (bt bn is on off : Word) : (operand bt bn is on off).length ≤ 6 := by
  unfold operand
  split
  · simp
  · split <;> simp

/-- Reading at the position after the wait line (`flag = 0`), the same loop would find the reduction and
report the conflict: the answer is `-1` exactly if the first reduction writes to the offset of the last
send. -/
theorem look_repaired (st : Store) (rest : List Byte) (h : st .type = ereduce) (fuel : Nat) (sent : Word) :
    lookLoop (barrierLine ++ barrierLine ++ writeCopy st ++ rest) 0 sent (fuel + 3) 0 =
      some (if sent = st .off1 then -1 else 1) := by
  have hstep : ∀ (pre : List Byte) (tl : List Byte) (fuel : Nat),
      lookLoop (pre ++ barrierLine ++ tl) 0 sent (fuel + 1) pre.length =
        lookLoop (pre ++ barrierLine ++ tl) 0 sent fuel (pre ++ barrierLine).length := by
    intro pre tl fuel
    obtain ⟨pad, hf⟩ := fetch_put [⟨.s, esocket_barrier⟩] (by decide) tl
    obtain ⟨r, hr⟩ := type_put ⟨.s, esocket_barrier⟩ rfl [] (by decide) pad
    have hd : (pre ++ barrierLine ++ tl).drop (0 + pre.length) = putAsm [⟨.s, esocket_barrier⟩] ++ tl := by
      rw [Nat.zero_add, List.append_assoc, List.drop_left]; rfl
    rw [lookLoop, hd, hf]
    simp only [Option.bind_eq_bind, Option.bind_some, hr]
    rw [if_neg (by decide), if_neg (by decide), List.length_append, if_neg]
    · rfl
    · show ¬ (pre.length + 9 = 0)
      omega
  have e0 : barrierLine ++ barrierLine ++ writeCopy st ++ rest =
      [] ++ barrierLine ++ (barrierLine ++ writeCopy st ++ rest) := by simp
  rw [e0, show (0 : Nat) = ([] : List Byte).length from rfl]
  have h1 := hstep [] (barrierLine ++ writeCopy st ++ rest) (fuel + 2)
  rw [show ([] : List Byte).length = 0 from rfl] at h1 ⊢
  rw [h1]
  have e1 : [] ++ barrierLine ++ (barrierLine ++ writeCopy st ++ rest) =
      barrierLine ++ barrierLine ++ (writeCopy st ++ rest) := by simp
  rw [e1, List.nil_append, hstep barrierLine _ (fuel + 1)]
  have hd : (barrierLine ++ barrierLine ++ (writeCopy st ++ rest)).drop
      (0 + (barrierLine ++ barrierLine).length) = writeCopy st ++ rest := by
    rw [Nat.zero_add, List.drop_left]
  rw [lookLoop, hd]
  have hl1 := operand_length (st .bt1) (st .bn1) (st .is1) (st .on1) (st .off1)
  have hl2 := operand_length (st .bt2) (st .bn2) (st .is2) (st .on2) (st .off2)
  obtain ⟨pad, hf⟩ := fetch_put (⟨.s, st .type⟩ :: (operand (st .bt1) (st .bn1) (st .is1) (st .on1) (st .off1) ++
    operand (st .bt2) (st .bn2) (st .is2) (st .on2) (st .off2) ++ [⟨.d, st .size⟩]))
    (by simp only [List.length_cons, List.length_append, List.length_nil]; omega) rest
  obtain ⟨r, hr⟩ := type_put ⟨.s, st .type⟩ rfl
    (operand (st .bt1) (st .bn1) (st .is1) (st .on1) (st .off1) ++
    operand (st .bt2) (st .bn2) (st .is2) (st .on2) (st .off2) ++ [⟨.d, st .size⟩])
    (by simp only [List.length_cons, List.length_append, List.length_nil]; omega) pad
  change fetch (writeCopy st ++ rest) = some (_, writeCopy st ++ pad) at hf
  change getAsm (writeCopy st ++ pad) [.s] = _ at hr
  obtain ⟨st', hc, _, ho, _⟩ := copy_roundtrip st (fun _ => 0) (by rw [h]; decide) pad
  have hoff : st' .off1 = st .off1 := by
    have := congrArg Operand.offset ho
    have hn : ∀ o : Operand, o.norm.offset = o.offset := by
      intro o; unfold Operand.norm; split
      · rfl
      · split <;> rfl
    rw [hn] at this
    exact this
  simp only [hf, Option.bind_eq_bind, Option.bind_some, hr, h]
  rw [if_neg (by decide), if_pos trivial, hc]
  simp only [Option.bind_some, hoff]

/-- C46: a buffer that is sent during a wait keeps its contents until the send has completed, whatever MPI does.
Missing for the full claim: the look-ahead has to recognise the reductions that write into it
(`look_violated`, `Waitany.sent_violated`). -/
theorem sent_intact_partial {V : Type} [AddCommMonoid V] {reqs : List (Waitany.Req V)} {n : Nat} {numRedMax : Int}
    {is rest : List Waitany.Instr} {gs : List (List Waitany.Red)} {evs : List Waitany.Ev}
    (hcol : Waitany.collect numRedMax.natAbs is n [] = some (gs, rest)) (hlen : reqs.length = n)
    (hb : Waitany.Buffers reqs) (hown : Waitany.ReadsOwn reqs gs)
    (hok : if numRedMax < 0 then Waitany.SameDst gs else Waitany.NotSent reqs gs)
    (hT : Waitany.Trace n evs) (s : Waitany.St V) :
    ∃ s', Waitany.execWaitany reqs n numRedMax is evs s = some (s', rest) ∧ Waitany.SentInitial reqs s s' := by
  by_cases hn : numRedMax < 0
  · rw [if_pos hn] at hok
    obtain ⟨s', h1, _, h2⟩ := Waitany.waitany_accumulate_partial hn hcol hlen hb hown hok hT s
    exact ⟨s', h1, h2⟩
  · rw [if_neg hn] at hok
    obtain ⟨s', h1, _, _, h2, _⟩ := Waitany.waitany_direct_partial (by omega) hcol hlen hb hown hok hT s
    exact ⟨s', h1, h2⟩

end ExtMpi.WaitanyLook
