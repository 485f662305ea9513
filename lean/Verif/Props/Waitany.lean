import Verif.Lemmas.Waitany
import Mathlib.Algebra.Group.Int.Defs
import Mathlib.Tactic.IntervalCases
/-!
# C27: reductions in the order of arrival
-/
namespace ExtMpi.Waitany

theorem collect_length {cap : Nat} {is : List Instr} {n : Nat} {cur : List Red} {x}
    (h : collect cap is n cur = some x) : x.1.length = n := by
  induction is generalizing n cur x with
  | nil =>
    cases n with
    | zero => simp only [collect, Option.some.injEq] at h; rw [← h]; rfl
    | succ n => simp [collect] at h
  | cons i is ih =>
    cases n with
    | zero => simp only [collect, Option.some.injEq] at h; rw [← h]; rfl
    | succ n =>
      cases i with
      | attached =>
        simp only [collect, Option.map_eq_some_iff] at h
        obtain ⟨y, hy, rfl⟩ := h
        simp [ih hy]
      | reduce r =>
        simp only [collect] at h
        split at h
        · exact ih h
        · cases h
      | waitall _ => simp [collect] at h
      | waitany _ _ => simp [collect] at h
      | other _ => simp [collect] at h

section
variable {V : Type} [AddCommMonoid V]

/-- C27 for direct reductions: whatever MPI does, memory ends up as in the fixed order, every
contribution is added exactly once, and the sends transmit what their buffers held. Missing for the
full claim: the reductions attached to a request must read only its message, and must not write into
buffers of requests (`order_violated`, `sent_violated`). -/
theorem waitany_direct_partial {reqs : List (Req V)} {n : Nat} {numRedMax : Int} {is rest : List Instr}
    {gs : List (List Red)} {evs : List Ev} (hpos : 0 ≤ numRedMax)
    (hcol : collect numRedMax.natAbs is n [] = some (gs, rest)) (hlen : reqs.length = n)
    (hb : Buffers reqs) (hown : ReadsOwn reqs gs) (hns : NotSent reqs gs) (hT : Trace n evs) (s : St V) :
    ∃ s', execWaitany reqs n numRedMax is evs s = some (s', rest) ∧
      s'.mem = fixedOrder reqs gs s.mem ∧
      (∀ a, s'.mem a = (delivered reqs a).getD
        (s.mem a + (gs.flatten.map fun r => contribution reqs r a).sum)) ∧
      SentInitial reqs s s' ∧
      ∀ i base data, reqs[i]? = some (Req.recv base data) → s'.out i = s.out i := by
  have hg := collect_length hcol
  simp only at hg
  obtain ⟨s', h1, inv⟩ := inv_pos hb hown hns hT hlen hg s evs [] (by simp)
  have hfin : ∀ a, s'.mem a = (delivered reqs a).getD
      (s.mem a + (gs.flatten.map fun r => contribution reqs r a).sum) := by
    intro a
    cases hd : delivered reqs a with
    | none =>
      rw [inv.rest a (delivered_none.mp hd), reds_sum_all hT gs hg]; rfl
    | some x =>
      obtain ⟨q, hq, hx⟩ := List.exists_of_findSome?_eq_some hd
      obtain ⟨j, hj⟩ := List.mem_iff_getElem?.mp hq
      have hjn : j < n := by
        rw [← hlen]; by_contra h; rw [List.getElem?_eq_none (by omega)] at hj; cases hj
      exact inv.data j a q x (hT.land_mem hjn) hj hx
  refine ⟨s', ?_, ?_, hfin, ?_, inv.other⟩
  · simp [execWaitany, hcol, hpos, h1]
  · funext a; rw [fixedOrder_apply hown, hfin]
  · intro i base len hi
    have hin : i < n := by
      rw [← hlen]; by_contra h; rw [List.getElem?_eq_none (by omega)] at hi; cases hi
    exact inv.sent i base len (hT.land_mem hin) hi

/-- C27 for accumulated reductions (`nreduce = -1`): outside of the receive buffers memory ends up as
in the fixed order, and the sends transmit what their buffers held even if the reductions write
into them. Missing for the full claim: all reductions must have the same destination and size and
there is at most one per request (`accumulate_violated`); the receive buffers are used as scratch
memory. -/
theorem waitany_accumulate_partial {reqs : List (Req V)} {n : Nat} {numRedMax : Int}
    {is rest : List Instr} {gs : List (List Red)} {evs : List Ev} (hneg : numRedMax < 0)
    (hcol : collect numRedMax.natAbs is n [] = some (gs, rest)) (hlen : reqs.length = n)
    (hb : Buffers reqs) (hown : ReadsOwn reqs gs) (hsame : SameDst gs) (hT : Trace n evs) (s : St V) :
    ∃ s', execWaitany reqs n numRedMax is evs s = some (s', rest) ∧
      (∀ a, ¬ InRecv reqs a → s'.mem a = fixedOrder reqs gs s.mem a) ∧ SentInitial reqs s s' := by
  have hg := collect_length hcol
  simp only at hg
  have hsame' : ∃ dst size, (∀ rs ∈ gs, rs = [] ∨ ∃ src, rs = [⟨dst, src, size⟩]) ∧
      ∀ k, k < size → ¬ InRecv reqs (dst + k) := by
    obtain ⟨dst, size, h⟩ := hsame
    by_cases hex : ∃ rs ∈ gs, rs ≠ []
    · obtain ⟨rs, hrs, hne⟩ := hex
      refine ⟨dst, size, h, ?_⟩
      rcases h rs hrs with h0 | ⟨src, h1⟩
      · exact absurd h0 hne
      · intro k hk
        exact (hown.inRecv hrs (r := ⟨dst, src, size⟩) (by rw [h1]; simp) k hk).2
    · refine ⟨0, 0, fun rs hrs => Or.inl ?_, fun k hk => absurd hk (by omega)⟩
      by_contra hne
      exact hex ⟨rs, hrs, hne⟩
  obtain ⟨dst, size, hsm, hdst⟩ := hsame'
  obtain ⟨⟨s', acc⟩, h1, inv⟩ := inv_neg hb hown hsm hdst hT hlen hg s evs [] (by simp)
  have hw0 : acc.numWaitall = 0 := by
    rw [inv.nw, List.length_eq_zero_iff, waiting, List.filter_eq_nil_iff]
    intro i hi
    rw [List.mem_range, hg] at hi
    have := mem_completes.mpr (hT.all i hi)
    simp [this]
  have hm : acc.notMoved = false := by
    cases hm : acc.notMoved with
    | false => rfl
    | true => exact absurd hw0 (inv.target hm).1
  refine ⟨s', ?_, ?_, ?_⟩
  · simp [execWaitany, hcol, hneg, h1]
  · intro a ha
    rw [fixedOrder_apply hown, delivered_none.mpr ha, Option.getD_none]
    by_cases hd : dst ≤ a ∧ a < dst + size
    · have := (inv.direct hm).2 (a - dst) (by omega)
      rw [show dst + (a - dst) = a by omega, reds_sum_all hT gs hg] at this
      exact this
    · have hr := inv.rest a ha hd
      simp only at hr
      simp only [contribution_eq]
      rw [hr, sum_zero, add_zero]
      intro r hr
      obtain ⟨rs, hrs, hr'⟩ := List.mem_flatten.mp hr
      rcases hsm rs hrs with h | ⟨src, h⟩
      · rw [h] at hr'; cases hr'
      · rw [h, List.mem_singleton] at hr'
        rw [hr']; exact hd
  · intro i base len hi
    have hin : i < n := by
      rw [← hlen]; by_contra h; rw [List.getElem?_eq_none (by omega)] at hi; cases hi
    exact inv.sent i base len (hT.land_mem hin) hi

end

/-! ### Where the claim fails -/

/-- A trace of two requests that are transferred just before they are returned. -/
theorem trace_two {i j : Nat} (h : (i = 0 ∧ j = 1) ∨ (i = 1 ∧ j = 0)) :
    Trace 2 [.land i, .complete i, .land j, .complete j] := by
  have hij : i ≠ j := by omega
  refine ⟨by simp [hij], ?_, ?_, ?_⟩
  · intro k hk; simp at hk; omega
  · intro pre post k hk
    match pre with
    | [] => simp at hk
    | [a] => simp at hk; obtain ⟨rfl, rfl, _⟩ := hk; simp
    | [a, b] => simp at hk
    | [a, b, c] => simp at hk; obtain ⟨rfl, rfl, rfl, rfl, _⟩ := hk; simp
    | a :: b :: c :: d :: pre => simp at hk
  · intro k hk; simp; omega

/-- The requests of an allreduce of two elements on two nodes with ports `1` (`allreduce_core` of
`src/core/allreduce_recursive.c`): elements 0 and 1 are sent, the partner's elements are received in
place at 2 and 3 (`src/core/optimise_buffers2.c`). -/
def twoNodes : List (Req Int) := [.recv 2 [10, 20], .send 0 2]

/-- Its program: own elements are added to the received ones. -/
def twoNodesCode : List Instr :=
  [.reduce ⟨2, 0, 1⟩, .attached, .reduce ⟨3, 1, 1⟩, .attached]

/-- Memory before the wait: own elements 1 and 2. -/
def twoNodesMem : St Int := ⟨fun a => if a = 0 then 1 else if a = 1 then 2 else 0, fun _ => none⟩

/-- C27 is violated: the reduction of the second element is attached to the send. If the send is
returned first, the message overwrites the result and the own contribution is lost (20 instead
of 22). -/
theorem order_violated : ∃ (e1 e2 : List Ev) (s1 s2 : St Int), Trace 2 e1 ∧ Trace 2 e2 ∧ Buffers twoNodes ∧
    execWaitany twoNodes 2 1 twoNodesCode e1 twoNodesMem = some (s1, []) ∧
    execWaitany twoNodes 2 1 twoNodesCode e2 twoNodesMem = some (s2, []) ∧
    s1.mem 2 = 11 ∧ s1.mem 3 = 22 ∧ s2.mem 2 = 11 ∧ s2.mem 3 = 20 := by
  refine ⟨[.land 0, .complete 0, .land 1, .complete 1], [.land 1, .complete 1, .land 0, .complete 0],
    _, _, trace_two (by omega), trace_two (by omega), ⟨?_, ?_⟩, rfl, rfl, by decide, by decide,
    by decide, by decide⟩
  · intro i j a p q hi hj hp hq
    match i, j with
    | 0, 0 => rfl
    | 1, 1 => rfl
    | 0, 1 => simp [twoNodes] at hj; subst hj; exact absurd rfl hq
    | 1, 0 => simp [twoNodes] at hi; subst hi; exact absurd rfl hp
    | i + 2, _ => simp [twoNodes] at hi
    | _, j + 2 => simp [twoNodes] at hj
  · rintro a ⟨q, hq, hn⟩ ⟨base, len, hs, h1, h2⟩
    simp only [twoNodes, List.mem_cons, List.not_mem_nil, or_false, reduceCtorEq, Req.send.injEq,
      false_or] at hq hs
    rcases hq with rfl | rfl
    · simp only [Req.got] at hn
      split at hn
      · omega
      · exact hn rfl
    · exact hn rfl

/-- The buffers of a step that adds the received element to the one being sent, as in every middle
step but the first (`src/core/allreduce_recursive.c:349-405`). -/
def inFlight : List (Req Int) := [.recv 1 [10], .send 0 1]

/-- C27/C46: with `nreduce = 1` the reduction may modify a buffer before it has been sent: 11 leaves
instead of 1. -/
theorem sent_violated : ∃ (evs : List Ev) (s' : St Int), Trace 2 evs ∧
    execWaitany inFlight 2 1 [.reduce ⟨0, 1, 1⟩, .attached, .attached] evs
      ⟨fun a => if a = 0 then 1 else 0, fun _ => none⟩ = some (s', []) ∧ s'.out 1 = some [11] :=
  ⟨[.land 0, .complete 0, .land 1, .complete 1], _, trace_two (by omega), rfl, by decide⟩

/-- With `nreduce = -1` the same step sends 1 and computes 11. -/
example : ∃ (s' : St Int),
    execWaitany inFlight 2 (-1) [.reduce ⟨0, 1, 1⟩, .attached, .attached]
      [.land 0, .complete 0, .land 1, .complete 1]
      ⟨fun a => if a = 0 then 1 else 0, fun _ => none⟩ = some (s', []) ∧ s'.out 1 = some [1] ∧
      s'.mem 0 = 11 :=
  ⟨_, rfl, by decide, by decide⟩

/-- C27 is violated for accumulated reductions with different destinations: the second message is
added to the destination of the first. -/
theorem accumulate_violated : ∃ (evs : List Ev) (s' : St Int),
    Trace 3 evs ∧
    execWaitany [Req.recv 2 [10], .recv 3 [20], .send 0 2] 3 (-1)
      [.reduce ⟨0, 2, 1⟩, .attached, .reduce ⟨1, 3, 1⟩, .attached, .attached] evs
      ⟨fun _ => 0, fun _ => none⟩ = some (s', []) ∧ s'.mem 0 = 30 ∧ s'.mem 1 = 0 := by
  refine ⟨[.land 0, .land 1, .land 2, .complete 0, .complete 1, .complete 2], _, ⟨by decide, ?_, ?_, ?_⟩,
    rfl, by decide, by decide⟩
  · intro k hk; simp at hk; omega
  · intro pre post k hk
    match pre with
    | [] | [_] | [_, _] => simp at hk
    | [a, b, c] | [a, b, c, _] | [a, b, c, _, _] =>
      simp at hk; obtain ⟨rfl, rfl, rfl, h⟩ := hk; simp; omega
    | a :: b :: c :: d :: e :: f :: pre => simp at hk
  · intro k hk; simp; omega

/-! ### The pass -/

section
variable {V : Type} [AddCommMonoid V]

theorem erase_replicate (n : Nat) (ls : List Line) :
    erase (List.replicate n Line.attached ++ ls) = erase ls := by
  induction n with
  | zero => rfl
  | succ n ih => rw [List.replicate_succ, List.cons_append]; exact ih

theorem erase_append (a b : List Line) : erase (a ++ b) = erase a ++ erase b := by
  simp [erase, List.filterMap_append]

theorem erase_passLine (look : Int) (s : PassSt) (l : Line)
    (h : l ≠ .attached ∧ ∀ n k, l ≠ .waitany n k) : erase (passLine look s l).2 = [l] := by
  cases l with
  | attached => exact absurd rfl h.1
  | waitany n k => exact absurd rfl (h.2 n k)
  | waitall n =>
    simp only [passLine]
    split
    · rfl
    · split
      · rw [erase_replicate]; rfl
      · rfl
  | reduce r =>
    simp only [passLine]
    split <;> rfl
  | memcpy k => simp only [passLine]; split <;> (try rw [erase_replicate]) <;> rfl
  | isend k => simp only [passLine]; split <;> (try rw [erase_replicate]) <;> rfl
  | irecv k => simp only [passLine]; split <;> (try rw [erase_replicate]) <;> rfl
  | ret => simp only [passLine]; split <;> (try rw [erase_replicate]) <;> rfl
  | quiet k => simp only [passLine]; split <;> (try rw [erase_replicate]) <;> rfl
  | loud k => simp only [passLine]; split <;> (try rw [erase_replicate]) <;> rfl

/-- The pass only marks: without its marks the program is the one before. -/
theorem pass_erase (look : List Line → Int) (ls : List Line)
    (h : ∀ l ∈ ls, l ≠ .attached ∧ ∀ n k, l ≠ .waitany n k) : erase (pass look ls) = ls := by
  have : ∀ s, erase (passFrom look s ls) = ls := by
    induction ls with
    | nil => intro s; rfl
    | cons l ls ih =>
      intro s
      rw [passFrom, erase_append, erase_passLine _ _ _ (h l (by simp)),
        ih fun l' h' => h l' (by simp [h'])]
      rfl
  exact this _

example : pass (fun _ => 1) [.irecv 0, .isend 1, .waitall 2, .quiet 0, .reduce ⟨2, 0, 1⟩, .ret] =
    [.irecv 0, .isend 1, .waitany 2 1, .quiet 0, .reduce ⟨2, 0, 1⟩, .attached, .attached, .ret] := rfl

/-- Line kept outside of the group and lines after the group of `k` requests. -/
def after : Nat → List Line → List Line × List Line
  | 0, ls => ([], ls)
  | _ + 1, [] => ([], [])
  | k + 1, .reduce _ :: ls => after k ls
  | k + 1, l :: ls => if stops l then ([l], ls) else after (k + 1) ls

theorem following_zero (ls : List Line) : following 0 ls = [] := by cases ls <;> rfl

theorem after_zero (ls : List Line) : after 0 ls = ([], ls) := by cases ls <;> rfl

theorem after_length (k : Nat) (ls : List Line) : (after k ls).2.length ≤ ls.length := by
  induction ls generalizing k with
  | nil => cases k <;> simp [after]
  | cons l ls ih =>
    cases k with
    | zero => simp [after]
    | succ k =>
      have h1 := ih k
      have h2 := ih (k + 1)
      cases l <;> simp only [after, List.length_cons] <;> (try split) <;> simp <;> omega

theorem code_cons (l : Line) (ls : List Line) : code (l :: ls) = l.instr.toList ++ code ls := by
  unfold code
  rw [List.filterMap_cons]
  cases l.instr <;> rfl

theorem code_append (a b : List Line) : code (a ++ b) = code a ++ code b := by
  simp [code, List.filterMap_append]

/-- The original code: the reductions of the group, the line that ends it, the rest. -/
theorem code_split (k : Nat) (ls : List Line) (hp : Plain ls) :
    code ls = (following k ls).map Instr.reduce ++ code ((after k ls).1 ++ (after k ls).2) := by
  induction ls generalizing k with
  | nil => cases k <;> rfl
  | cons l ls ih =>
    have hp' : Plain ls := fun l' h' => hp l' (by simp [h'])
    cases k with
    | zero => simp [following, after]
    | succ k =>
      cases l with
      | reduce r => simp only [following, after, code_cons]; rw [ih k hp']; rfl
      | attached => exact absurd rfl (hp _ (by simp)).2.1
      | waitany n j => exact absurd rfl ((hp _ (by simp)).2.2 n j)
      | loud j => exact absurd rfl ((hp _ (by simp)).1 j)
      | quiet j => simp only [following, after, stops, code_cons]; exact ih (k + 1) hp'
      | waitall n => rfl
      | memcpy n => rfl
      | isend n => rfl
      | irecv n => rfl
      | ret => rfl

theorem collect_pad (cap : Nat) (k : Nat) (is : List Instr) :
    collect cap (List.replicate k Instr.attached ++ is) k [] = some (List.replicate k [], is) := by
  induction k with
  | zero => cases is <;> rfl
  | succ k ih =>
    rw [List.replicate_succ, List.cons_append]
    simp only [collect, ih, Option.map_some]
    rfl

theorem code_replicate (k : Nat) : code (List.replicate k Line.attached) = List.replicate k Instr.attached := by
  induction k with
  | zero => rfl
  | succ k ih => rw [List.replicate_succ, code_cons, ih]; rfl

theorem collect_stop (look : List Line → Int) (n k : Nat) (hkn : k ≤ n) (l : Line) (ls : List Line)
    (h1 : following k (l :: ls) = []) (h2 : after k (l :: ls) = ([l], ls))
    (h3 : (passLine (look ls) ⟨n, n - k, true⟩ l) =
        (⟨n, n, false⟩, List.replicate (n - (n - k)) .attached ++ [l])) :
    collect 1 (code (passFrom look ⟨n, n - k, true⟩ (l :: ls))) k [] =
      some (attachment k (l :: ls),
        code ((after k (l :: ls)).1 ++ passFrom look ⟨n, n, false⟩ (after k (l :: ls)).2)) := by
  rw [passFrom, h3, attachment, h1, h2]
  simp only [List.append_assoc, code_append, code_replicate]
  rw [show n - (n - k) = k by omega, collect_pad]
  simp

/-- What `exec_waitany` collects from the code of the pass. -/
theorem collect_pass (look : List Line → Int) (ls : List Line) (hp : Plain ls) (hret : Line.ret ∈ ls)
    (n k : Nat) (hk : 0 < k) (hkn : k ≤ n) :
    collect 1 (code (passFrom look ⟨n, n - k, true⟩ ls)) k [] =
      some (attachment k ls, code ((after k ls).1 ++ passFrom look ⟨n, n, false⟩ (after k ls).2)) := by
  induction ls generalizing k with
  | nil => cases hret
  | cons l ls ih =>
    have hp' : Plain ls := fun l' h' => hp l' (by simp [h'])
    obtain ⟨k, rfl⟩ : ∃ j, k = j + 1 := ⟨k - 1, by omega⟩
    have hne : n - (k + 1) ≠ n := by omega
    cases l with
    | attached => exact absurd rfl (hp _ (by simp)).2.1
    | waitany n j => exact absurd rfl ((hp _ (by simp)).2.2 n j)
    | loud j => exact absurd rfl ((hp _ (by simp)).1 j)
    | quiet j =>
      have := ih hp' (by simpa using hret) (k + 1) (by omega) hkn
      simpa [passFrom, passLine, stops, code_cons, Line.instr, attachment, following, after] using this
    | reduce r =>
      have hpl : passLine (look ls) ⟨n, n - (k + 1), true⟩ (.reduce r) =
          (⟨n, n - k, if n - (k + 1) + 1 = n then false else true⟩, [.reduce r, .attached]) := by
        simp only [passLine, if_true, show n - (k + 1) + 1 = n - k by omega]
      rw [passFrom, hpl]
      simp only [code_append, code_cons, Line.instr, Option.toList_some, List.cons_append, List.nil_append]
      have hc0 : code [] = [] := rfl
      simp only [collect, List.length_nil, Nat.zero_lt_one, if_true, hc0, List.append_nil, List.nil_append]
      rcases Nat.eq_zero_or_pos k with rfl | hk0
      · have h1 : n - (0 + 1) + 1 = n := by omega
        simp only [h1, if_true, collect, Option.map_some, attachment, following, after, after_zero,
          following_zero, Nat.sub_zero, List.nil_append, List.map_cons, List.map_nil, List.length_cons,
          List.length_nil, Nat.sub_self, List.replicate_zero, Nat.zero_add, List.append_nil]
        rfl
      · have h1 : n - (k + 1) + 1 ≠ n := by omega
        simp only [if_neg h1]
        rw [ih hp' (by simpa using hret) k hk0 (by omega)]
        simp [attachment, following, after, code_append]
    | waitall m =>
      exact collect_stop look n (k + 1) hkn _ _ rfl rfl (by simp only [passLine, if_neg hne, if_true])
    | memcpy m => exact collect_stop look n (k + 1) hkn _ _ rfl rfl (by simp [passLine, stops])
    | isend m => exact collect_stop look n (k + 1) hkn _ _ rfl rfl (by simp [passLine, stops])
    | irecv m => exact collect_stop look n (k + 1) hkn _ _ rfl rfl (by simp [passLine, stops])
    | ret => exact collect_stop look n (k + 1) hkn _ _ rfl rfl (by simp [passLine, stops])

/-- The program ends with `return`, or nothing is left of it. -/
def Ends (ls : List Line) : Prop := ls = [] ∨ ls.getLast? = some .ret

theorem Ends.tail {l : Line} {ls : List Line} (h : Ends (l :: ls)) : Ends ls := by
  rcases h with h | h
  · cases h
  · cases ls with
    | nil => exact Or.inl rfl
    | cons a ls => rw [List.getLast?_cons_cons] at h; exact Or.inr h

theorem Ends.mem {l : Line} {ls : List Line} (h : Ends (l :: ls)) (hl : l ≠ .ret) : Line.ret ∈ ls := by
  rcases h with h | h
  · cases h
  · have := List.mem_of_getLast? h
    rcases List.mem_cons.mp this with h' | h'
    · exact absurd h'.symm hl
    · exact h'

theorem after_suffix (k : Nat) (ls : List Line) : ∃ pre, ls = pre ++ (after k ls).2 := by
  induction ls generalizing k with
  | nil => cases k <;> exact ⟨[], rfl⟩
  | cons l ls ih =>
    cases k with
    | zero => exact ⟨[], rfl⟩
    | succ k =>
      obtain ⟨p1, h1⟩ := ih k
      obtain ⟨p2, h2⟩ := ih (k + 1)
      cases l with
      | reduce r => exact ⟨.reduce r :: p1, by simp only [after, List.cons_append]; rw [← h1]⟩
      | quiet r => exact ⟨.quiet r :: p2, by
          simp only [after, stops, List.cons_append, Bool.false_eq_true, if_false]; rw [← h2]⟩
      | loud r => exact ⟨.loud r :: p2, by
          simp only [after, stops, List.cons_append, Bool.false_eq_true, if_false]; rw [← h2]⟩
      | attached => exact ⟨.attached :: p2, by
          simp only [after, stops, List.cons_append, Bool.false_eq_true, if_false]; rw [← h2]⟩
      | waitany a b => exact ⟨.waitany a b :: p2, by
          simp only [after, stops, List.cons_append, Bool.false_eq_true, if_false]; rw [← h2]⟩
      | waitall a => exact ⟨[_], rfl⟩
      | memcpy a => exact ⟨[_], rfl⟩
      | isend a => exact ⟨[_], rfl⟩
      | irecv a => exact ⟨[_], rfl⟩
      | ret => exact ⟨[_], rfl⟩

theorem Ends.suffix {pre ls : List Line} (h : Ends (pre ++ ls)) : Ends ls := by
  induction pre with
  | nil => exact h
  | cons l pre ih => exact ih h.tail

omit [AddCommMonoid V] in
theorem Assigned.after {es : List (Env V)} {ls : List Line} (k : Nat) (hp : Plain ls) (h : Assigned es ls) :
    Assigned es ((after k ls).1 ++ (after k ls).2) := by
  induction ls generalizing k with
  | nil => cases k <;> exact h
  | cons l ls ih =>
    have hp' : Plain ls := fun l' h' => hp l' (by simp [h'])
    cases k with
    | zero => exact h
    | succ k =>
      cases l with
      | reduce r => exact ih k hp' h
      | quiet r => exact ih (k + 1) hp' h
      | attached => exact absurd rfl (hp _ (by simp)).2.1
      | waitany n j => exact absurd rfl ((hp _ (by simp)).2.2 n j)
      | loud j => exact absurd rfl ((hp _ (by simp)).1 j)
      | waitall n => exact h
      | memcpy n => exact h
      | isend n => exact h
      | irecv n => exact h
      | ret => exact h

theorem after_plain (k : Nat) (ls : List Line) :
    (after k ls).1 = [] ∨ ∃ l, (after k ls).1 = [l] ∧ stops l = true := by
  induction ls generalizing k with
  | nil => cases k <;> exact Or.inl rfl
  | cons l ls ih =>
    cases k with
    | zero => exact Or.inl rfl
    | succ k =>
      cases l with
      | reduce r => exact ih k
      | quiet r => exact ih (k + 1)
      | attached => exact ih (k + 1)
      | waitany _ _ => exact ih (k + 1)
      | loud _ => exact ih (k + 1)
      | waitall n => exact Or.inr ⟨_, rfl, rfl⟩
      | memcpy n => exact Or.inr ⟨_, rfl, rfl⟩
      | isend n => exact Or.inr ⟨_, rfl, rfl⟩
      | irecv n => exact Or.inr ⟨_, rfl, rfl⟩
      | ret => exact Or.inr ⟨_, rfl, rfl⟩

theorem runs_reduces {eff : Line → (Nat → V) → Nat → V} {es : List (Env V)} {R : List Red}
    {is : List Instr} {m m' : Nat → V} {outs} (h : Runs eff es (R.map Instr.reduce ++ is) m m' outs) :
    Runs eff es is (redList R m) m' outs := by
  induction R generalizing m with
  | nil => exact h
  | cons r R ih =>
    rw [List.map_cons, List.cons_append] at h
    cases h with
    | reduce h => exact ih h

theorem attachment_flatten (n : Nat) (ls : List Line) : (attachment n ls).flatten = following n ls := by
  rw [attachment, List.flatten_append]
  have h1 : ∀ k, (List.replicate k ([] : List Red)).flatten = [] := by
    intro k; induction k with
    | zero => rfl
    | succ k ih => rw [List.replicate_succ, List.flatten_cons, ih]; rfl
  rw [h1, List.append_nil]
  induction following n ls with
  | nil => rfl
  | cons r R ih => rw [List.map_cons, List.flatten_cons, ih]; rfl

theorem refines_aux {eff : Line → (Nat → V) → Nat → V} {look : List Line → Int} (hlook : ∀ ls, look ls = 1)
    (N : Nat) : ∀ (ls : List Line), ls.length ≤ N → Plain ls → Ends ls →
    ∀ (es : List (Env V)) (m m' : Nat → V) (outs : List (List (Option (List V)))), Assigned es ls →
      Runs eff es (code ls) m m' outs →
      (∀ n, Runs eff es (code (passFrom look ⟨n, n, false⟩ ls)) m m' outs) ∧
      (∀ j, Runs eff es (code (passFrom look ⟨0, j, true⟩ ls)) m m' outs) := by
  induction N with
  | zero =>
    intro ls hN _ _ es m m' outs _ h
    have : ls = [] := List.length_eq_zero_iff.mp (by omega)
    subst this
    exact ⟨fun _ => h, fun _ => h⟩
  | succ N ih =>
    intro ls hN hp hend es m m' outs has h
    cases ls with
    | nil => exact ⟨fun _ => h, fun _ => h⟩
    | cons l ls =>
      have hp' : Plain ls := fun l' h' => hp l' (by simp [h'])
      have hN' : ls.length ≤ N := by simpa using hN
      have hstop : ∀ (i : Instr), l.instr = some i → stops l = true → (∀ n, l ≠ .waitall n) →
          (∀ r, l ≠ .reduce r) → Assigned es ls → (∀ n, Runs eff es (code (passFrom look ⟨n, n, false⟩ (l :: ls))) m m' outs) ∧
          (∀ j, Runs eff es (code (passFrom look ⟨0, j, true⟩ (l :: ls))) m m' outs) := by
        intro i hi hs hnw hnr has'
        have h1 : ∀ n, passLine (look ls) ⟨n, n, false⟩ l = (⟨n, n, false⟩, [l]) := by
          intro n; cases l <;> first | rfl | exact absurd rfl (hnw _) | exact absurd rfl (hnr _)
        have h2 : ∀ j, passLine (look ls) ⟨0, j, true⟩ l = (⟨0, 0, false⟩, [l]) := by
          intro n; cases l <;> first | simp [stops] at hs; done | exact absurd rfl (hnw _) | exact absurd rfl (hnr _) | simp [passLine, stops]
        have hc : ∀ x, code ([l] ++ x) = i :: code x := by
          intro x; rw [List.cons_append, code_cons, hi]; rfl
        have hcode : code (l :: ls) = i :: code ls := by rw [code_cons, hi]; rfl
        rw [hcode] at h
        obtain ⟨lo, rfl⟩ : ∃ lo, i = .other lo := by
          cases l <;> simp [Line.instr, stops] at hi hs <;> first | exact ⟨_, hi.symm⟩ | exact absurd rfl (hnw _)
        cases h with
        | other h =>
          have := ih ls hN' hp' hend.tail es _ m' outs has' h
          constructor
          · intro n
            rw [passFrom, h1, hc]
            exact .other (this.1 n)
          · intro j
            rw [passFrom, h2, hc]
            exact .other (this.1 0)
      cases l with
      | attached => exact absurd rfl (hp _ (by simp)).2.1
      | waitany n j => exact absurd rfl ((hp _ (by simp)).2.2 n j)
      | loud j => exact absurd rfl ((hp _ (by simp)).1 j)
      | memcpy k => exact hstop _ rfl rfl (by simp) (by simp) has
      | isend k => exact hstop _ rfl rfl (by simp) (by simp) has
      | irecv k => exact hstop _ rfl rfl (by simp) (by simp) has
      | ret => exact hstop _ rfl rfl (by simp) (by simp) has
      | quiet k => exact ih ls hN' hp' hend.tail es m m' outs has h
      | reduce r =>
        rw [code_cons] at h
        cases h with
        | reduce h =>
          have := ih ls hN' hp' hend.tail es _ m' outs has h
          constructor
          · intro n
            rw [passFrom]
            simp only [passLine, Bool.false_eq_true, if_false, List.cons_append, List.nil_append, code_cons]
            exact .reduce (this.1 n)
          · intro j
            rw [passFrom]
            simp only [passLine, if_true, List.cons_append, List.nil_append, code_cons, Nat.add_one_ne_zero,
              if_false]
            exact .reduce (.attached (this.2 (j + 1)))
      | waitall n =>
        rcases Nat.eq_zero_or_pos n with rfl | hn
        · have has' : Assigned es ls := by simpa [Assigned] using has
          have := ih ls hN' hp' hend.tail es m m' outs has' h
          have hany : Runs eff es (code (.waitany 0 1 :: passFrom look ⟨0, 0, true⟩ ls)) m m' outs := by
            rw [code_cons]; exact .waitany0 (this.2 0)
          constructor
          · intro n'
            rw [passFrom]
            simp only [passLine, if_true, hlook, List.cons_append, List.nil_append]
            exact hany
          · intro j
            rw [passFrom]
            rcases Nat.eq_zero_or_pos j with rfl | hj
            · simp only [passLine, if_true, hlook, List.cons_append, List.nil_append]
              exact hany
            · have hj0 : j ≠ 0 := by omega
              simp only [passLine, if_neg hj0, if_true, Nat.zero_sub, List.replicate_zero, List.cons_append,
                List.nil_append, code_cons]
              exact this.1 0
        · have hn0 : n ≠ 0 := by omega
          have hcode : ∀ x, code (.waitall n :: x) = .waitall n :: code x := by
            intro x; rw [code_cons]; simp only [Line.instr, if_neg hn0]; rfl
          rw [hcode] at h
          cases h with
          | waitall hlen h =>
            rename_i es' outs' e
            simp only [Assigned, if_neg hn0] at has
            obtain ⟨hT, hb, hown, hns, has'⟩ := has
            have hplain : ∀ n', Runs eff (e :: es') (code (.waitall n :: passFrom look ⟨n', n', false⟩ ls)) m m'
                (sentAt e.reqs m :: outs') := by
              intro n'
              rw [hcode]
              exact .waitall hlen ((ih ls hN' hp' hend.tail es' _ m' outs' has' h).1 n')
            have hany : Runs eff (e :: es') (code (.waitany n 1 :: passFrom look ⟨n, 0, true⟩ ls)) m m'
                (sentAt e.reqs m :: outs') := by
              have hcol := collect_pass look ls hp' (hend.mem (by simp)) n n hn (le_refl n)
              rw [Nat.sub_self] at hcol
              obtain ⟨s', g1, g2, _, g4, g5⟩ := waitany_direct_partial (numRedMax := 1) (by omega) hcol hlen hb
                hown hns hT ⟨m, fun _ => none⟩
              have hout : sentAt e.reqs m = (List.range n).map s'.out := by
                apply List.ext_getElem
                · simp [sentAt, hlen]
                · intro i hi1 hi2
                  have hir : i < e.reqs.length := by simpa [sentAt] using hi1
                  have hq : e.reqs[i]? = some e.reqs[i] := List.getElem?_eq_getElem hir
                  simp only [sentAt, List.getElem_map, List.getElem_range]
                  rcases hqq : e.reqs[i] with ⟨base, data⟩ | ⟨base, len⟩
                  · rw [hqq] at hq
                    rw [g5 i base data hq]
                  · rw [hqq] at hq
                    rw [g4 i base len hq]
              rw [code_cons, hout]
              obtain ⟨n', rfl⟩ : ∃ n', n = n' + 1 := ⟨n - 1, by omega⟩
              refine .waitany hlen g1 ?_
              rw [g2]
              have hmem : fixedOrder e.reqs (attachment (n' + 1) ls) m = redList (following (n' + 1) ls)
                  (fun a => (e.reqs.findSome? (·.got a)).getD (m a)) := by
                unfold fixedOrder
                rw [attachment_flatten]
                rfl
              show Runs eff es' _ (fixedOrder e.reqs (attachment (n' + 1) ls) m) m' outs'
              rw [hmem]
              rw [code_split (n' + 1) ls hp'] at h
              have h' := runs_reduces h
              generalize hx : redList (following (n' + 1) ls)
                  (fun a => (e.reqs.findSome? (·.got a)).getD (m a)) = mm at h' ⊢
              have has'' := has'.after (n' + 1) hp'
              obtain ⟨pre, hpre⟩ := after_suffix (n' + 1) ls
              have hpr : Plain (after (n' + 1) ls).2 := by
                intro l' h'; exact hp' l' (by rw [hpre]; simp [h'])
              have her : Ends (after (n' + 1) ls).2 := by
                have := hend.tail; rw [hpre] at this; exact this.suffix
              have hlr : (after (n' + 1) ls).2.length ≤ N := le_trans (after_length _ _) hN'
              rcases after_plain (n' + 1) ls with h0 | ⟨l, h0, hl⟩
              · rw [h0, List.nil_append] at h' has'' ⊢
                exact (ih _ hlr hpr her es' mm m' outs' has'' h').1 _
              · rw [h0] at h' has'' ⊢
                rw [List.cons_append, List.nil_append] at h' has'' ⊢
                have hother : ∀ lo, l.instr = some (.other lo) → Assigned es' (after (n' + 1) ls).2 →
                    Runs eff es' (code (l :: passFrom look ⟨n' + 1, n' + 1, false⟩ (after (n' + 1) ls).2)) mm m' outs' := by
                  intro lo hlo has3
                  rw [code_cons, hlo] at h' ⊢
                  cases h' with
                  | other h' => exact .other ((ih _ hlr hpr her es' _ m' outs' has3 h').1 _)
                cases l with
                | attached => simp [stops] at hl
                | waitany _ _ => simp [stops] at hl
                | loud _ => simp [stops] at hl
                | quiet _ => simp [stops] at hl
                | reduce _ => simp [stops] at hl
                | memcpy k => exact hother _ rfl has''
                | isend k => exact hother _ rfl has''
                | irecv k => exact hother _ rfl has''
                | ret => exact hother _ rfl has''
                | waitall k =>
                  rcases Nat.eq_zero_or_pos k with rfl | hk
                  · have has3 : Assigned es' (after (n' + 1) ls).2 := by simpa [Assigned] using has''
                    exact (ih _ hlr hpr her es' mm m' outs' has3 h').1 _
                  · have hk0 : k ≠ 0 := by omega
                    rw [code_cons] at h' ⊢
                    simp only [Line.instr, if_neg hk0, Option.toList_some, List.cons_append,
                      List.nil_append] at h' ⊢
                    cases h' with
                    | waitall hlen' h' =>
                      simp only [Assigned, if_neg hk0] at has''
                      exact .waitall hlen' ((ih _ hlr hpr her _ _ m' _ has''.2.2.2.2 h').1 _)
            constructor
            · intro n'
              rw [passFrom]
              simp only [passLine, if_true, hlook, List.cons_append, List.nil_append]
              exact hany
            · intro j
              rw [passFrom]
              rcases Nat.eq_zero_or_pos j with rfl | hj
              · simp only [passLine, if_true, hlook, List.cons_append, List.nil_append]
                exact hany
              · have hj0 : j ≠ 0 := by omega
                simp only [passLine, if_neg hj0, if_true, Nat.zero_sub, List.replicate_zero, List.cons_append,
                  List.nil_append]
                exact hplain 0

/-- C27 for whole programs: the program made by the pass computes the same memory and sends the same
data as the program before, whatever MPI does. Missing for the full claim: the `i`-th reduction after
a wait has to read only the message of request `i` (`order_violated`) and no `node_barrier` may
follow a wait (`pass_barrier_violated`). -/
theorem pass_refines_partial {eff : Line → (Nat → V) → Nat → V} {look : List Line → Int}
    (hlook : ∀ ls, look ls = 1) {ls : List Line} (hp : Plain ls) (hret : ls.getLast? = some .ret)
    {es : List (Env V)} {m m' : Nat → V} {outs : List (List (Option (List V)))} (has : Assigned es ls)
    (h : Runs eff es (code ls) m m' outs) : Runs eff es (code (pass look ls)) m m' outs :=
  (refines_aux hlook ls.length ls (le_refl _) hp (Or.inr hret) es m m' outs has h).1 0

/-- Programs are deterministic once the behaviour of MPI is given. -/
theorem runs_det {eff : Line → (Nat → V) → Nat → V} {es : List (Env V)} {is : List Instr}
    {m m1 m2 : Nat → V} {o1 o2} (h1 : Runs eff es is m m1 o1) (h2 : Runs eff es is m m2 o2) :
    m1 = m2 ∧ o1 = o2 := by
  induction h1 generalizing m2 o2 with
  | nil => cases h2; exact ⟨rfl, rfl⟩
  | reduce _ ih => cases h2 with | reduce h => exact ih h
  | attached _ ih => cases h2 with | attached h => exact ih h
  | other _ ih => cases h2 with | other h => exact ih h
  | waitall _ _ ih =>
    cases h2 with
    | waitall _ h => have := ih h; exact ⟨this.1, by rw [this.2]⟩
  | waitany0 _ ih => cases h2 with | waitany0 h => exact ih h
  | waitany _ he _ ih =>
    cases h2 with
    | waitany _ he' h =>
      rw [he] at he'
      cases he'
      have := ih h
      exact ⟨this.1, by rw [this.2]⟩

end

/-- A barrier between the sockets of a node after a wait makes `exec_waitany` stop the program with
"illegal opcode": nothing is computed. Such programs are produced by
`src/mpi/messages_shared_memory.c:160-178` with several sockets per node. -/
theorem pass_barrier_violated : ∀ (es : List (Env Int)) (m m' : Nat → Int) (outs),
    ¬ Runs (fun _ m => m) es
      (code (pass (fun _ => 1) [.irecv 0, .waitall 1, .loud 0, .reduce ⟨0, 1, 1⟩, .ret])) m m' outs := by
  intro es m m' outs h
  have e : code (pass (fun _ => 1) [.irecv 0, .waitall 1, .loud 0, .reduce ⟨0, 1, 1⟩, .ret]) =
      [.other (.irecv 0), .waitany 1 1, .other (.loud 0), .reduce ⟨0, 1, 1⟩, .attached, .other .ret] := rfl
  rw [e] at h
  cases h with
  | other h =>
    cases h with
    | waitany hl he _ => simp [execWaitany, collect] at he

/-- The original program runs. -/
example : Runs (fun _ m => m) [⟨[.recv 1 [5]], []⟩]
    (code [.irecv 0, .waitall 1, .loud 0, .reduce ⟨0, 1, 1⟩, .ret]) (fun _ => (0 : Int))
    (redLoop 0 1 1 fun a => (([Req.recv 1 [5]] : List (Req Int)).findSome? (·.got a)).getD 0) [[none]] :=
  .other (.waitall rfl (.other (.reduce (.other .nil))))

/-! ### A step that meets the hypotheses -/

/-- The requests may be returned in any order. -/
theorem trace_of_perm {n : Nat} {σ : List Nat} (h : σ.Perm (List.range n)) :
    Trace n (σ.flatMap fun i => [Ev.land i, Ev.complete i]) := by
  have hnd : σ.Nodup := h.nodup_iff.mpr List.nodup_range
  have hml : ∀ (τ : List Nat) i, Ev.land i ∈ τ.flatMap (fun i => [Ev.land i, Ev.complete i]) ↔ i ∈ τ := by
    intro τ i; simp
  have hmc : ∀ (τ : List Nat) i, Ev.complete i ∈ τ.flatMap (fun i => [Ev.land i, Ev.complete i]) ↔ i ∈ τ := by
    intro τ i; simp
  have hmem : ∀ i, i ∈ σ ↔ i < n := by intro i; rw [h.mem_iff, List.mem_range]
  refine ⟨?_, ?_, ?_, ?_⟩
  · clear hmem h
    induction σ with
    | nil => simp
    | cons a σ ih =>
      rw [List.nodup_cons] at hnd
      rw [List.flatMap_cons, List.cons_append, List.cons_append, List.nil_append, List.nodup_cons,
        List.nodup_cons, List.mem_cons, hml, hmc]
      exact ⟨by simp [hnd.1], hnd.1, ih hnd.2⟩
  · rintro i (hi | hi)
    · rwa [hml, hmem] at hi
    · rwa [hmc, hmem] at hi
  · clear hmem h hnd
    induction σ with
    | nil => intro pre post i hi; simp at hi
    | cons a σ ih =>
      intro pre post i hi
      rw [List.flatMap_cons, List.cons_append, List.cons_append, List.nil_append] at hi
      match pre with
      | [] => simp at hi
      | [b] => simp at hi; obtain ⟨rfl, rfl, _⟩ := hi; simp
      | b :: c :: pre =>
        simp only [List.cons_append, List.cons.injEq] at hi
        have := ih pre post i hi.2.2
        simp [this]
  · intro i hi; rwa [hmc, hmem]

/-- Two receives and a send. -/
def threeReqs : List (Req Int) := [.recv 2 [10], .recv 3 [20], .send 5 1]

/-- Both messages are added to element 0. -/
def threeLines : List Line :=
  [.irecv 0, .irecv 1, .isend 2, .waitall 3, .quiet 0, .reduce ⟨0, 2, 1⟩, .reduce ⟨0, 3, 1⟩, .ret]

theorem three_buffers : Buffers threeReqs := by
  constructor
  · intro i j a p q hi hj hp hq
    match i, j with
    | 0, 0 | 1, 1 | 2, 2 => rfl
    | 2, _ => simp [threeReqs] at hi; subst hi; exact absurd rfl hp
    | _, 2 => simp [threeReqs] at hj; subst hj; exact absurd rfl hq
    | 0, 1 | 1, 0 =>
      simp [threeReqs] at hi hj; subst hi hj
      simp only [Req.got, ne_eq, ite_eq_right_iff, Classical.not_imp, List.getElem?_eq_none_iff,
        List.length_cons, List.length_nil] at hp hq
      omega
    | i + 3, _ => simp [threeReqs] at hi
    | _, j + 3 => simp [threeReqs] at hj
  · rintro a ⟨q, hq, hn⟩ ⟨base, len, hs, h1, h2⟩
    simp only [threeReqs, List.mem_cons, List.not_mem_nil, or_false, reduceCtorEq, Req.send.injEq,
      false_or] at hq hs
    rcases hq with rfl | rfl | rfl
    · simp only [Req.got, ne_eq, ite_eq_right_iff, Classical.not_imp, List.getElem?_eq_none_iff,
        List.length_cons, List.length_nil] at hn
      omega
    · simp only [Req.got, ne_eq, ite_eq_right_iff, Classical.not_imp, List.getElem?_eq_none_iff,
        List.length_cons, List.length_nil] at hn
      omega
    · exact hn rfl

theorem three_notRecv {a : Nat} (h : a < 2) : ¬ InRecv threeReqs a := by
  rintro ⟨q, hq, hn⟩
  simp only [threeReqs, List.mem_cons, List.not_mem_nil, or_false] at hq
  rcases hq with rfl | rfl | rfl
  · simp only [Req.got, ne_eq, ite_eq_right_iff, Classical.not_imp] at hn; omega
  · simp only [Req.got, ne_eq, ite_eq_right_iff, Classical.not_imp] at hn; omega
  · exact hn rfl

/-- What the pass attaches to the three requests. -/
theorem three_attachment : attachment 3 (threeLines.drop 4) = [[⟨0, 2, 1⟩], [⟨0, 3, 1⟩], []] := rfl

theorem three_readsOwn : ReadsOwn threeReqs [[⟨0, 2, 1⟩], [⟨0, 3, 1⟩], []] := by
  intro i rs r hi hr
  match i with
  | 0 =>
    simp at hi; subst hi; simp at hr; subst hr
    exact ⟨_, rfl, fun k hk => ⟨by interval_cases k; simp [Req.got], three_notRecv (by simp at hk ⊢; omega)⟩⟩
  | 1 =>
    simp at hi; subst hi; simp at hr; subst hr
    exact ⟨_, rfl, fun k hk => ⟨by interval_cases k; simp [Req.got], three_notRecv (by simp at hk ⊢; omega)⟩⟩
  | 2 => simp at hi; subst hi; cases hr
  | i + 3 => simp at hi

theorem three_notSent : NotSent threeReqs [[⟨0, 2, 1⟩], [⟨0, 3, 1⟩], []] := by
  rintro rs hrs r hr k hk ⟨base, len, hs, h1, h2⟩
  simp only [threeReqs, List.mem_cons, List.not_mem_nil, or_false, reduceCtorEq, Req.send.injEq,
    false_or] at hs
  simp only [List.mem_cons, List.not_mem_nil, or_false] at hrs
  rcases hrs with rfl | rfl | rfl
  · simp at hr; subst hr; simp at hk h1; omega
  · simp at hr; subst hr; simp at hk h1; omega
  · cases hr

/-- Direct and accumulated reductions, for every order of arrival: element 0 becomes 1 + 10 + 20. -/
example {σ : List Nat} (h : σ.Perm (List.range 3)) :
    ∃ s', execWaitany threeReqs 3 1 (code (pass (fun _ => 1) threeLines) |>.drop 4)
      (σ.flatMap fun i => [Ev.land i, Ev.complete i]) ⟨fun _ => 1, fun _ => none⟩ = some (s', [.other .ret]) ∧
      s'.mem 0 = 31 ∧ s'.out 2 = some [1] := by
  obtain ⟨s', h1, h2, _, h4, _⟩ := waitany_direct_partial (numRedMax := 1)
    (is := code (pass (fun _ => 1) threeLines) |>.drop 4) (rest := [.other .ret]) (by omega) rfl rfl three_buffers
    three_readsOwn three_notSent (trace_of_perm h) (⟨fun _ => 1, fun _ => none⟩ : St Int)
  exact ⟨s', h1, by rw [h2]; decide, h4 2 5 1 rfl⟩

example {σ : List Nat} (h : σ.Perm (List.range 3)) :
    ∃ s', execWaitany threeReqs 3 (-1) (code (pass (fun _ => -1) threeLines) |>.drop 4)
      (σ.flatMap fun i => [Ev.land i, Ev.complete i]) ⟨fun _ => 1, fun _ => none⟩ = some (s', [.other .ret]) ∧
      s'.mem 0 = 31 ∧ s'.out 2 = some [1] := by
  obtain ⟨s', h1, h2, h4⟩ := waitany_accumulate_partial (numRedMax := -1)
    (is := code (pass (fun _ => -1) threeLines) |>.drop 4) (rest := [.other .ret]) (by omega) rfl rfl three_buffers
    three_readsOwn ⟨0, 1, by simp⟩ (trace_of_perm h) (⟨fun _ => 1, fun _ => none⟩ : St Int)
  exact ⟨s', h1, by rw [h2 0 (three_notRecv (by omega))]; decide, h4 2 5 1 rfl⟩

/-- The whole program, for every order of arrival. -/
example {σ : List Nat} (h : σ.Perm (List.range 3)) :
    ∃ m', Runs (fun _ m => m) [⟨threeReqs, σ.flatMap fun i => [Ev.land i, Ev.complete i]⟩]
      (code (pass (fun _ => 1) threeLines)) (fun _ => 1) m' [[none, none, some [1]]] ∧ m' 0 = 31 := by
  refine ⟨_, pass_refines_partial (fun _ => rfl) ?_ rfl ?_
    (.other (.other (.other (.waitall rfl (.reduce (.reduce (.other .nil))))))), rfl⟩
  · intro l hl
    simp only [threeLines, List.mem_cons, List.not_mem_nil, or_false] at hl
    rcases hl with rfl | rfl | rfl | rfl | rfl | rfl | rfl | rfl <;> simp
  · exact ⟨trace_of_perm h, three_buffers, three_readsOwn, three_notSent, trivial⟩

end ExtMpi.Waitany
