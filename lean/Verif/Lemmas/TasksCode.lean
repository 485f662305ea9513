import Verif.Lemmas.TasksStep
import Verif.Lemmas.RawCodeBlocks
import Mathlib.Tactic.Ring
/-! The programs of the processes of a node are shares of the program of the node. -/
namespace ExtMpi.TasksNode
open RawCode Schedule

/-- Process that executes an instruction: messages are distributed, copies belong to the first process. -/
def tag (ro so : Nat → Nat) : Instr → Option Nat
  | .copy _ _ _ _ => some 0
  | .irecv _ _ q => some (ro q)
  | .isend _ _ q => some (so q)
  | _ => none

def tagged (ro so : Nat → Nat) (is : List Instr) : Master := is.map fun i => (tag ro so i, i)

theorem tagged_append (ro so : Nat → Nat) (is js : List Instr) :
    tagged ro so (is ++ js) = tagged ro so is ++ tagged ro so js := List.map_append

theorem tagged_snd (ro so : Nat → Nat) (is : List Instr) : (tagged ro so is).map Prod.snd = is := by
  unfold tagged
  rw [List.map_map]
  exact List.map_id is

theorem share_append (ns r : Nat) (A B : Master) : share ns r (A ++ B) = share ns r A ++ share ns r B := List.filterMap_append

/-- Share of process `r`. -/
def mineOf (ro so : Nat → Nat) (ns r : Nat) (is : List Instr) : List Instr := share ns r (tagged ro so is)

theorem mineOf_append (ro so : Nat → Nat) (ns r : Nat) (is js : List Instr) :
    mineOf ro so ns r (is ++ js) = mineOf ro so ns r is ++ mineOf ro so ns r js := by
  unfold mineOf; rw [tagged_append, share_append]

theorem mineOf_nil (ro so : Nat → Nat) (ns r : Nat) : mineOf ro so ns r [] = [] := rfl

theorem mineOf_irecv (ro so : Nat → Nat) (ns r : Nat) (a : Addr) (n q : Nat) :
    mineOf ro so ns r [.irecv a n q] = if ro q = r then [.irecv a n (q * ns + r)] else [] := by
  unfold mineOf tagged share tag toProc
  by_cases h : ro q = r <;> simp [h]

theorem mineOf_isend (ro so : Nat → Nat) (ns r : Nat) (a : Addr) (n q : Nat) :
    mineOf ro so ns r [.isend a n q] = if so q = r then [.isend a n (q * ns + r)] else [] := by
  unfold mineOf tagged share tag toProc
  by_cases h : so q = r <;> simp [h]

theorem code_append (A B : List Line) : code (A ++ B) = code A ++ code B := by
  unfold code; rw [List.filter_append, List.map_append]

theorem code_copyLine (ro so : Nat → Nat) (ns r : Nat) (red : Bool) (dst src : Addr) (size : Nat) :
    code (copyLine r red dst src size) = mineOf ro so ns r (copyIf red dst src size) := by
  unfold copyLine copyIf
  by_cases h : size = 0
  · rw [if_pos h, if_pos h]; rfl
  · rw [if_neg h, if_neg h]
    unfold code mineOf tagged share tag toProc
    by_cases h0 : r = 0
    · simp [h0]
    · have : ¬0 = r := fun e => h0 e.symm
      simp [h0, this]

theorem code_flatMap {Y : Type} (l : List Y) (f : Y → List Line) : code (l.flatMap f) = l.flatMap fun y => code (f y) := by
  induction l with
  | nil => rfl
  | cons y l ih => rw [List.flatMap_cons, List.flatMap_cons, code_append, ih]

theorem mineOf_flatMap {Y : Type} (ro so : Nat → Nat) (ns r : Nat) (l : List Y) (f : Y → List Instr) :
    mineOf ro so ns r (l.flatMap f) = l.flatMap fun y => mineOf ro so ns r (f y) := by
  induction l with
  | nil => rfl
  | cons y l ih => rw [List.flatMap_cons, List.flatMap_cons, mineOf_append, ih]

/-- Block `b'` of process `r` is block `b` of node `a` with the messages from `Q` for process `ro Q` and those to `Q` for
process `so Q`. -/
structure Split (ns a r : Nat) (ro so : Nat → Nat) (b b' : Block) : Prop where
  same : ∃ f : LineD → LineD, b' = b.map f ∧ ∀ l, (f l).frac = l.frac ∧ (f l).reducefrom = l.reducefrom ∧
    (f l).copyreducefrom = l.copyreducefrom
  none : ∀ x, x % ns ≠ r → (∀ act, hits b' x act = []) ∧ anyHits b' x = [] ∧ sendHits b' x = []
  hits : ∀ Q act, Q ≠ a → hits b' (Q * ns + r) act = if act = decide (ro Q = r) then recvIdx b Q else []
  any : ∀ Q, Q ≠ a → anyHits b' (Q * ns + r) = recvIdx b Q
  send : ∀ Q, Q ≠ a → sendHits b' (Q * ns + r) = (sendIdx b Q).map fun n => (n, decide (so Q = r))
  red : ∀ Q, Q ≠ a → reducesT b' (a * ns + r) (Q * ns + r) = reduces b a Q

section
variable {ns a r : Nat} {ro so : Nat → Nat} {b b' : Block}

theorem Split.size (h : Split ns a r ro so b b') (sz : Nat → Nat) : lineSize sz b' = lineSize sz b := by
  obtain ⟨f, rfl, hf⟩ := h.same
  funext n
  unfold lineSize
  rw [List.getElem?_map]
  cases b[n]? with
  | none => rfl
  | some l => dsimp only [Option.map_some]; rw [(hf l).1]

theorem Split.off (h : Split ns a r ro so b b') (sz : Nat → Nat) : RawCode.off sz b' = RawCode.off sz b := by
  funext n; unfold RawCode.off; rw [h.size]

theorem Split.total (h : Split ns a r ro so b b') (sz : Nat → Nat) : RawCode.total sz b' = RawCode.total sz b := by
  funext n; unfold RawCode.total; rw [h.size]

/-- The nodes of the partners with local number `r`. -/
def proj (ns r : Nat) (L : List Nat) : List Nat := (L.filter fun x => x % ns == r).map fun x => x / ns

theorem proj_cons_ne {x : Nat} (L : List Nat) (h : x % ns ≠ r) : proj ns r (x :: L) = proj ns r L := by
  unfold proj
  rw [List.filter_cons_of_neg (by simpa using h)]

theorem proj_cons_eq {x : Nat} (L : List Nat) (h : x % ns = r) : proj ns r (x :: L) = x / ns :: proj ns r L := by
  unfold proj
  rw [List.filter_cons_of_pos (by simpa using h), List.map_cons]

theorem total_nil (sz : Nat → Nat) (b : Block) : RawCode.total sz b [] = 0 := rfl

theorem posts_share (h : Split ns a r ro so b b') (hr : r < ns) (sz : Nat → Nat) (L : List Nat) : ∀ k,
    code (postsT sz b' (a * ns + r) k L) = mineOf ro so ns r (posts sz b a k (proj ns r L)) ∧
    postsEndT sz b' (a * ns + r) k L = postsEnd sz b a k (proj ns r L) := by
  induction L with
  | nil => intro k; exact ⟨rfl, rfl⟩
  | cons x L ih =>
    intro k
    by_cases hx : x % ns = r
    · rw [proj_cons_eq L hx]
      obtain ⟨Q, hQ⟩ : ∃ Q, Q = x / ns := ⟨_, rfl⟩
      have hxQ : x = Q * ns + r := (eq_iff hr x Q).2 ⟨hQ.symm, hx⟩
      rw [← hQ, postsT, postsEndT, posts, postsEnd]
      by_cases e : Q = a
      · have e' : x = a * ns + r := by rw [hxQ, e]
        simp only [if_pos e', e, ne_eq, not_true_eq_false, false_and, if_false, if_true]
        exact ih k
      · have e' : x ≠ a * ns + r := fun c => e (by rw [hQ, c, proc_div hr])
        simp only [if_neg e']
        rw [hxQ, h.hits Q true e, h.hits Q false e, h.total]
        by_cases z : RawCode.total sz b (recvIdx b Q) = 0
        · have z1 : ∀ c : Prop, [Decidable c] → RawCode.total sz b (if c then recvIdx b Q else []) = 0 := by
            intro c _; split
            · exact z
            · rfl
          have zc : ¬(Q ≠ a ∧ RawCode.total sz b (recvIdx b Q) ≠ 0) := fun c => c.2 z
          rw [z1, z1, if_neg zc, if_neg zc]
          simp only [if_true, List.nil_append]
          exact ih k
        · have zc : Q ≠ a ∧ RawCode.total sz b (recvIdx b Q) ≠ 0 := ⟨e, z⟩
          rw [if_pos zc, if_pos zc]
          rw [show (.irecv ⟨.shm k, 0⟩ (RawCode.total sz b (recvIdx b Q)) Q :: posts sz b a (k + 1) (proj ns r L)) =
            [.irecv ⟨.shm k, 0⟩ (RawCode.total sz b (recvIdx b Q)) Q] ++ posts sz b a (k + 1) (proj ns r L) from rfl,
            mineOf_append, mineOf_irecv, ← (ih (k + 1)).1, ← (ih (k + 1)).2]
          by_cases o : ro Q = r
          · simp [o, total_nil, z, code_append, code]
          · simp [o, total_nil, z, code_append, code]
    · rw [proj_cons_ne L hx, postsT, postsEndT]
      obtain ⟨n1, _, _⟩ := h.none x hx
      rw [n1, n1, total_nil]
      simp only [ite_self, if_true, List.nil_append]
      exact ih k

theorem pack_share (h : Split ns a r ro so b b') (sz : Nat → Nat) (k : Nat) (act : Bool) (ls : List Nat) : ∀ p p',
    code (packT sz b' r k p p' (ls.map fun n => (n, act))) = mineOf ro so ns r (pack sz b k (if act then p else p') ls) := by
  induction ls with
  | nil => intro p p'; rfl
  | cons n ls ih =>
    intro p p'
    rw [List.map_cons, pack, mineOf_append]
    cases act
    · rw [packT, code_append, code_copyLine ro so ns r, ih, h.size, h.off]; rfl
    · rw [packT, code_append, code_copyLine ro so ns r, ih, h.size, h.off]; rfl

theorem pack_zero (sz : Nat → Nat) (b : Block) (k : Nat) (ls : List Nat) : ∀ p, RawCode.total sz b ls = 0 →
    pack sz b k p ls = [] := by
  induction ls with
  | nil => intro p _; rfl
  | cons n ls ih =>
    intro p h
    have h' : lineSize sz b n + RawCode.total sz b ls = 0 := h
    rw [pack, ih _ (by omega), show lineSize sz b n = 0 by omega]
    rfl

theorem sends_share (h : Split ns a r ro so b b') (hr : r < ns) (sz : Nat → Nat) (L : List Nat) : ∀ k,
    code (sendsT sz b' r (a * ns + r) k L) = mineOf ro so ns r (sends sz b a k (proj ns r L)) := by
  induction L with
  | nil => intro k; rfl
  | cons x L ih =>
    intro k
    by_cases hx : x % ns = r
    · rw [proj_cons_eq L hx]
      obtain ⟨Q, hQ⟩ : ∃ Q, Q = x / ns := ⟨_, rfl⟩
      have hxQ : x = Q * ns + r := (eq_iff hr x Q).2 ⟨hQ.symm, hx⟩
      rw [← hQ, sendsT, sends]
      by_cases e : Q = a
      · have e' : x = a * ns + r := by rw [hxQ, e]
        simp only [if_pos e', e, ne_eq, not_true_eq_false, false_and, if_false, if_true, List.nil_append]
        exact ih k
      · have e' : x ≠ a * ns + r := fun c => e (by rw [hQ, c, proc_div hr])
        simp only [if_neg e']
        have st : ∀ act, sendTotal sz b' x act = if act = decide (so Q = r) then RawCode.total sz b (sendIdx b Q) else 0 := by
          intro act
          unfold sendTotal
          rw [hxQ, h.send Q e, h.total, List.filter_map, List.map_map]
          by_cases c : act = decide (so Q = r)
          · rw [if_pos c]
            congr 1
            rw [List.filter_eq_self.2 (fun n _ => by simp [c])]
            exact List.map_id _
          · rw [if_neg c, List.filter_eq_nil_iff.2 (fun n _ => by simpa using fun g => c g.symm)]
            rfl
        rw [st, st, hxQ, h.send Q e]
        by_cases z : RawCode.total sz b (sendIdx b Q) = 0
        · have zc : ¬(Q ≠ a ∧ RawCode.total sz b (sendIdx b Q) ≠ 0) := fun c => c.2 z
          rw [if_neg zc, z]
          simp only [ite_self, if_true, List.append_nil, code_append]
          rw [pack_share h, pack_zero sz b k _ _ z, ih]; rfl
        · have zc : Q ≠ a ∧ RawCode.total sz b (sendIdx b Q) ≠ 0 := ⟨e, z⟩
          rw [if_pos zc, mineOf_append, mineOf_append,
            show ([.barrier, .isend ⟨.shm k, 0⟩ (RawCode.total sz b (sendIdx b Q)) Q] : List Instr) =
              [.barrier] ++ [.isend ⟨.shm k, 0⟩ (RawCode.total sz b (sendIdx b Q)) Q] from rfl,
            mineOf_append, mineOf_isend, ← ih (k + 1), code_append, code_append, code_append, pack_share h, ite_self]
          by_cases o : so Q = r
          · simp [o, z, code, mineOf, tagged, share, tag, toProc]
          · simp [o, z, code, mineOf, tagged, share, tag, toProc]
    · rw [proj_cons_ne L hx, sendsT]
      obtain ⟨_, _, n3⟩ := h.none x hx
      unfold sendTotal
      rw [n3]
      simp only [List.filter_nil, List.map_nil, total_nil, ite_self, if_true, packT, List.nil_append]
      exact ih k

theorem unpack_share (h : Split ns a r ro so b b') (hr : r < ns) (sz : Nat → Nat) (L : List Nat) : ∀ k,
    code (unpackT sz b' r (a * ns + r) k L) = mineOf ro so ns r (unpack sz b a k (proj ns r L)) := by
  induction L with
  | nil => intro k; rfl
  | cons x L ih =>
    intro k
    by_cases hx : x % ns = r
    · rw [proj_cons_eq L hx]
      obtain ⟨Q, hQ⟩ : ∃ Q, Q = x / ns := ⟨_, rfl⟩
      have hxQ : x = Q * ns + r := (eq_iff hr x Q).2 ⟨hQ.symm, hx⟩
      rw [← hQ, unpackT, unpack]
      by_cases e : Q = a
      · have e' : x = a * ns + r := by rw [hxQ, e]
        rw [if_neg (fun c => c.1 e'), if_neg (fun c => c.1 e)]
        exact ih k
      · have e' : x ≠ a * ns + r := fun c => e (by rw [hQ, c, proc_div hr])
        rw [hxQ, h.any Q e, h.total, ← hxQ]
        by_cases z : RawCode.total sz b (recvIdx b Q) = 0
        · rw [if_neg (fun c => c.2 z), if_neg (fun c => c.2 z)]
          exact ih k
        · rw [if_pos ⟨e', z⟩, if_pos ⟨e, z⟩, code_append, mineOf_append, ih]
          congr 1
          cases hc : recvIdx b Q with
          | nil => rfl
          | cons n0 l =>
            dsimp only
            rw [hc] at z
            rw [code_copyLine ro so ns r, copyIf, if_neg z, h.off, hxQ, h.red Q e]
    · rw [proj_cons_ne L hx, unpackT]
      obtain ⟨_, n2, _⟩ := h.none x hx
      rw [n2, total_nil, if_neg (fun c => c.2 rfl)]
      exact ih k

theorem reductions_share (h : Split ns a r ro so b b') (sz : Nat → Nat) :
    code (reductionsT sz b' r) = mineOf ro so ns r (reductions sz b) := by
  unfold reductionsT reductions
  rw [h.off]
  obtain ⟨f, rfl, hf⟩ := h.same
  rw [List.zipIdx_map, List.flatMap_map, code_flatMap, mineOf_flatMap]
  congr 1
  funext x
  dsimp only [Prod.map]
  rw [code_flatMap, mineOf_flatMap, (hf x.1).2.1]
  congr 1
  funext y
  rw [code_copyLine ro so ns r, (hf x.1).1]; rfl

theorem copyReductions_share (h : Split ns a r ro so b b') (sz : Nat → Nat) :
    code (copyReductionsT sz b' r) = mineOf ro so ns r (copyReductions sz b) := by
  unfold copyReductionsT copyReductions
  rw [h.off]
  obtain ⟨f, rfl, hf⟩ := h.same
  rw [List.zipIdx_map, List.flatMap_map, code_flatMap, mineOf_flatMap]
  congr 1
  funext x
  dsimp only [Prod.map]
  rw [code_flatMap, mineOf_flatMap, (hf x.1).2.2]
  congr 1
  funext y
  rw [code_copyLine ro so ns r, (hf x.1).1]; rfl

end

/-- Multiples below a product. -/
theorem filter_range_mul (N ns : Nat) (hns : 0 < ns) :
    (List.range (N * ns)).filter (fun o => o % ns == 0) = (List.range N).map fun j => j * ns := by
  induction N with
  | zero => simp
  | succ N ih =>
    rw [Nat.succ_mul, List.range_add, List.filter_append, ih, List.range_succ, List.map_append]
    congr 1
    rw [List.filter_map]
    have : (List.range ns).filter ((fun o => o % ns == 0) ∘ fun x => N * ns + x) = [0] := by
      obtain ⟨k, rfl⟩ : ∃ k, ns = k + 1 := ⟨ns - 1, by omega⟩
      rw [List.range_succ_eq_map, List.filter_cons_of_pos (by simp)]
      congr 1
      rw [List.filter_eq_nil_iff]
      intro x hx
      obtain ⟨y, hy, rfl⟩ := List.mem_map.1 hx
      rw [List.mem_range] at hy
      simp only [Function.comp, Nat.mul_add_mod_self_right, beq_iff_eq]
      rw [Nat.mod_eq_of_lt (by omega)]
      omega
    rw [this]
    rfl

theorem sub_mod_zero {A ns r o : Nat} (ho : o ≤ A * ns + r) (hr : r < ns) : (A * ns + r - o) % ns = r ↔ o % ns = 0 := by
  have h := Nat.div_add_mod o ns
  have hm := Nat.mod_lt o (show 0 < ns by omega)
  generalize o / ns = d at h
  generalize o % ns = m at h hm
  rw [Nat.mul_comm] at h
  by_cases c : m ≤ r
  · have hd : d ≤ A := by
      by_contra g
      have : (A + 1) * ns ≤ d * ns := Nat.mul_le_mul_right ns (by omega)
      rw [Nat.add_mul, Nat.one_mul] at this
      omega
    have e : A * ns + r - o = (A - d) * ns + (r - m) := by
      rw [Nat.sub_mul]
      have := Nat.mul_le_mul_right ns hd
      omega
    rw [e, Nat.mul_add_mod_self_right, Nat.mod_eq_of_lt (by omega)]
    omega
  · have hd : d + 1 ≤ A := by
      by_contra g
      have : A * ns ≤ d * ns := Nat.mul_le_mul_right ns (by omega)
      omega
    have e : A * ns + r - o = (A - (d + 1)) * ns + (ns + r - m) := by
      rw [Nat.sub_mul, Nat.add_mul]
      have := Nat.mul_le_mul_right ns hd
      rw [Nat.add_mul] at this
      omega
    rw [e, Nat.mul_add_mod_self_right, Nat.mod_eq_of_lt (by omega)]
    omega

theorem mod_mul_ns {A N ns r : Nat} (hr : r < ns) : (A * ns + r) % (N * ns) = (A % N) * ns + r := by
  rcases Nat.eq_zero_or_pos N with h | h
  · subst h; rw [Nat.zero_mul, Nat.mod_zero, Nat.mod_zero]
  · have e : A * ns + r = (A % N) * ns + r + (N * ns) * (A / N) := by
      have := Nat.div_add_mod A N
      calc A * ns + r = (N * (A / N) + A % N) * ns + r := by rw [this]
        _ = _ := by ring
    rw [e, Nat.add_mul_mod_self_left, Nat.mod_eq_of_lt]
    have h1 : A % N + 1 ≤ N := Nat.mod_lt A h
    have h2 := Nat.mul_le_mul_right ns h1
    rw [Nat.add_mul] at h2
    omega

theorem proj_recvOrder {N ns a r : Nat} (hr : r < ns) :
    proj ns r (recvOrder (N * ns) (a * ns + r)) = recvOrder N a := by
  unfold proj recvOrder
  rw [List.filter_map]
  have e : (List.range (N * ns)).filter ((fun x => x % ns == r) ∘ fun o => (N * ns + (a * ns + r) - o) % (N * ns)) =
      (List.range (N * ns)).filter (fun o => o % ns == 0) := by
    apply List.filter_congr
    intro o ho
    rw [List.mem_range] at ho
    rw [Bool.eq_iff_iff]
    simp only [Function.comp, beq_iff_eq]
    rw [Nat.mod_mul_left_mod, ← sub_mod_zero (A := N + a) (r := r) (by rw [Nat.add_mul]; omega) hr, Nat.add_mul, Nat.add_assoc]
  rw [e, filter_range_mul N ns (by omega), List.map_map, List.map_map]
  apply List.map_congr_left
  intro j hj
  rw [List.mem_range] at hj
  simp only [Function.comp]
  have e2 : N * ns + (a * ns + r) - j * ns = (N + a - j) * ns + r := by
    rw [Nat.sub_mul, Nat.add_mul]
    have := Nat.mul_le_mul_right ns (show j ≤ N by omega)
    omega
  rw [e2, mod_mul_ns hr, proc_div hr]

theorem proj_sendOrder {N ns a r : Nat} (hr : r < ns) :
    proj ns r (sendOrder (N * ns) (a * ns + r)) = sendOrder N a := by
  unfold proj sendOrder
  rw [List.filter_map]
  have e : (List.range (N * ns)).filter ((fun x => x % ns == r) ∘ fun o => (a * ns + r + o) % (N * ns)) =
      (List.range (N * ns)).filter (fun o => o % ns == 0) := by
    apply List.filter_congr
    intro o ho
    rw [List.mem_range] at ho
    rw [Bool.eq_iff_iff]
    simp only [Function.comp, beq_iff_eq]
    rw [Nat.mod_mul_left_mod, Nat.add_assoc, Nat.mul_add_mod_self_right]
    have hm := Nat.mod_lt o (show 0 < ns by omega)
    rw [Nat.add_mod, Nat.mod_eq_of_lt hr]
    generalize o % ns = m at hm ⊢
    by_cases c : r + m < ns
    · rw [Nat.mod_eq_of_lt c]; omega
    · rw [Nat.mod_eq_sub_mod (by omega), Nat.mod_eq_of_lt (by omega)]; omega
  rw [e, filter_range_mul N ns (by omega), List.map_map, List.map_map]
  apply List.map_congr_left
  intro j hj
  simp only [Function.comp]
  rw [show a * ns + r + j * ns = (a + j) * ns + r by ring, mod_mul_ns hr, proc_div hr]

/-- One block. -/
theorem block_share {N ns a r : Nat} {ro so : Nat → Nat} {b b' : Block} (h : Split ns a r ro so b b') (hr : r < ns)
    (sz : Nat → Nat) : code (blockLines N ns sz a r b') = mineOf ro so ns r (blockCode N sz b a) := by
  unfold blockLines blockCode
  dsimp only
  simp only [code_append, mineOf_append]
  rw [(posts_share h hr sz _ 1).1, (posts_share h hr sz _ 1).2, sends_share h hr, unpack_share h hr, reductions_share h,
    copyReductions_share h, proj_recvOrder hr, proj_sendOrder hr]
  rfl

end ExtMpi.TasksNode
