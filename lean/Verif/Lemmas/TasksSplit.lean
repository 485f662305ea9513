import Verif.Lemmas.TasksCode
import Verif.Props.RankPerm
/-! The blocks of the processes of a node. -/
namespace ExtMpi.TasksNode
open RawCode Schedule RankPerm

/-- Partners are nodes, no dropped messages. -/
def Good (N : Nat) (b : Block) : Prop := ∀ l, l ∈ b → ∀ e, e ∈ l.sendto ++ l.recvfrom → -10 < e.1 ∧ e.1 < (N : Int)

section
variable {N : Nat} {perm : List Nat}

theorem permAt_get (hp : IsPerm N perm) {q : Nat} (hq : q < N) : perm[q]? = some (permAt perm q) := by
  have hlen : perm.length = N := by simpa using hp.length_eq
  unfold permAt
  rw [List.getD_eq_getElem?_getD, List.getElem?_eq_getElem (by omega)]
  rfl

theorem permAt_lt (hp : IsPerm N perm) {q : Nat} (hq : q < N) : permAt perm q < N :=
  List.mem_range.1 (hp.mem_iff.1 (List.mem_of_getElem? (permAt_get hp hq)))

theorem backAt_permAt (hp : IsPerm N perm) {q : Nat} (hq : q < N) : backAt perm (permAt perm q) = q := by
  unfold backAt
  rw [back_perm N perm hp q _ (permAt_get hp hq)]
  rfl

theorem permAt_inj (hp : IsPerm N perm) {q q' : Nat} (hq : q < N) (hq' : q' < N) (h : permAt perm q = permAt perm q') :
    q = q' := by
  rw [← backAt_permAt hp hq, h, backAt_permAt hp hq']

/-- Cyclic distance. -/
theorem dist_cases {N x y : Nat} (hx : x < N) (hy : y < N) :
    (x + N - y) % N = if y ≤ x then x - y else x + N - y := by
  split
  · rw [show x + N - y = (x - y) + N by omega, Nat.add_mod_right, Nat.mod_eq_of_lt (by omega)]
  · rw [Nat.mod_eq_of_lt (by omega)]

theorem recvOff_back (hp : IsPerm N perm) {a q : Nat} (ha : a < N) (hq : q < N) :
    backAt perm ((recvOff N perm a q + permAt perm a) % N) = q := by
  have e : (recvOff N perm a q + permAt perm a) % N = permAt perm q := by
    have h1 := permAt_lt hp ha
    have h2 := permAt_lt hp hq
    unfold recvOff
    rw [dist_cases h2 h1]
    split
    · rw [show permAt perm q - permAt perm a + permAt perm a = permAt perm q by omega, Nat.mod_eq_of_lt h2]
    · rw [show permAt perm q + N - permAt perm a + permAt perm a = permAt perm q + N by omega, Nat.add_mod_right,
        Nat.mod_eq_of_lt h2]
  rw [e, backAt_permAt hp hq]

theorem sendOff_back (hp : IsPerm N perm) {a q : Nat} (ha : a < N) (hq : q < N) :
    backAt perm ((permAt perm a + N - sendOff N perm a q) % N) = q := by
  have e : (permAt perm a + N - sendOff N perm a q) % N = permAt perm q := by
    have h1 := permAt_lt hp ha
    have h2 := permAt_lt hp hq
    unfold sendOff
    rw [Nat.add_comm N, dist_cases h1 h2]
    split
    · rw [show permAt perm a + N - (permAt perm a - permAt perm q) = permAt perm q + N by omega, Nat.add_mod_right,
        Nat.mod_eq_of_lt h2]
    · rw [show permAt perm a + N - (permAt perm a + N - permAt perm q) = permAt perm q by omega, Nat.mod_eq_of_lt h2]
  rw [e, backAt_permAt hp hq]

theorem recvOff_self (hp : IsPerm N perm) {a : Nat} (ha : a < N) : recvOff N perm a a = 0 := by
  have h1 := permAt_lt hp ha
  unfold recvOff
  rw [dist_cases h1 h1, if_pos (Nat.le_refl _)]; omega

theorem recvOff_ne (hp : IsPerm N perm) {a q : Nat} (ha : a < N) (hq : q < N) (hne : q ≠ a) : recvOff N perm a q ≠ 0 := by
  have h1 := permAt_lt hp ha
  have h2 := permAt_lt hp hq
  have h3 : permAt perm q ≠ permAt perm a := fun e => hne (permAt_inj hp hq ha e)
  unfold recvOff
  rw [dist_cases h2 h1]
  split <;> omega

theorem sendOff_ne (hp : IsPerm N perm) {a q : Nat} (ha : a < N) (hq : q < N) (hne : q ≠ a) : sendOff N perm a q ≠ 0 := by
  have h1 := permAt_lt hp ha
  have h2 := permAt_lt hp hq
  have h3 : permAt perm q ≠ permAt perm a := fun e => hne (permAt_inj hp hq ha e)
  unfold sendOff
  rw [Nat.add_comm N, dist_cases h1 h2]
  split <;> omega

end

/-- The process that receives from node `q`. -/
def recvOwner (N ns : Nat) (perm : List Nat) (a : Nat) (b : Block) (q : Nat) : Nat :=
  slot (recvSet N perm a b) (recvOff N perm a q) % ns

/-- The process that sends to node `q`. -/
def sendOwner (N ns : Nat) (perm : List Nat) (a : Nat) (b : Block) (q : Nat) : Nat :=
  slot (sendSet N perm a b) (sendOff N perm a q) % ns

/-- Entry with the number of a process. -/
def newEntry (ns r : Nat) (act : Nat → Bool) (e : Int × Int) : Int × Int :=
  if e.1 < 0 then e else (partner ns r e.1.toNat (act e.1.toNat), e.2)

theorem filterMap_some {Y Z : Type} (f : Y → Option Z) (g : Y → Z) (l : List Y) (h : ∀ x, x ∈ l → f x = some (g x)) :
    (l.map f).filterMap id = l.map g := by
  induction l with
  | nil => rfl
  | cons x l ih =>
    rw [List.map_cons, List.filterMap_cons, h x List.mem_cons_self]
    dsimp only [id]
    rw [ih fun y hy => h y (List.mem_cons_of_mem _ hy), List.map_cons]

theorem pruneRecv_map (self line : Nat) (l : List (Int × Int)) (f : Int × Int → Option (Int × Int)) (g : Int × Int → Int × Int)
    (h : ∀ x, x ∈ l → f x = some (g x)) : pruneRecv self line (l.map f) = l.map g := by
  unfold pruneRecv
  rw [filterMap_some f g l h]
  cases l with
  | nil => rfl
  | cons x l => rfl

theorem pruneSend_map (self : Nat) (l : List (Int × Int)) (f : Int × Int → Option (Int × Int)) (g : Int × Int → Int × Int)
    (h : ∀ x, x ∈ l → f x = some (g x)) (h2 : ∀ x, (g x).2 = x.2) :
    pruneSend self (l.map Prod.snd) (l.map f) = l.map g := by
  unfold pruneSend
  rw [filterMap_some f g l h]
  cases l with
  | nil => rfl
  | cons x l =>
    rw [List.map_cons]
    dsimp only
    rw [← List.map_cons, List.map_map, List.zip_map']
    apply List.map_congr_left
    intro y _
    rw [← h2 y]; rfl

theorem newEntry_snd (ns r : Nat) (act : Nat → Bool) (e : Int × Int) : (newEntry ns r act e).2 = e.2 := by
  unfold newEntry; split <;> rfl

/-- The line of a process. -/
def newLine (N ns : Nat) (perm : List Nat) (a r : Nat) (b : Block) (l : LineD) : LineD :=
  { l with
    sendto := l.sendto.map (newEntry ns r fun q => mine (sendSet N perm a b) ns r (sendOff N perm a q)),
    recvfrom := l.recvfrom.map (newEntry ns r fun q => mine (recvSet N perm a b) ns r (recvOff N perm a q)) }

theorem tasksBlock_eq {N ns : Nat} {perm : List Nat} (hp : IsPerm N perm) {a : Nat} (ha : a < N) (r : Nat) (b : Block)
    (hb : Good N b) : tasksBlock N ns perm a r b = b.map (newLine N ns perm a r b) := by
  unfold tasksBlock
  have e : b.map (newLine N ns perm a r b) = b.zipIdx.map fun x => newLine N ns perm a r b x.1 := by
    have := congrArg (List.map (newLine N ns perm a r b)) (List.zipIdx_map_fst 0 b)
    rw [List.map_map] at this
    exact this.symm
  rw [e]
  apply List.map_congr_left
  intro x hx
  have hl : x.1 ∈ b := List.mem_of_getElem? (List.mem_zipIdx_iff_getElem?.1 hx)
  unfold newLine
  rw [pruneSend_map _ _ _ (newEntry ns r fun q => mine (sendSet N perm a b) ns r (sendOff N perm a q)) ?_ (newEntry_snd _ _ _),
    pruneRecv_map _ _ _ _ (newEntry ns r fun q => mine (recvSet N perm a b) ns r (recvOff N perm a q)) ?_]
  · intro y hy
    obtain ⟨h1, h2⟩ := hb x.1 hl y (List.mem_append_right _ hy)
    unfold recvEntry newEntry
    rw [if_neg (by omega)]
    split
    · rfl
    · dsimp only
      rw [recvOff_back hp ha (by omega)]
  · intro y hy
    obtain ⟨h1, h2⟩ := hb x.1 hl y (List.mem_append_left _ hy)
    unfold sendEntry newEntry
    rw [if_neg (by omega)]
    split
    · rfl
    · dsimp only
      rw [sendOff_back hp ha (by omega)]

theorem partner_eq (ns r q x : Nat) (act : Bool) : (partner ns r q act == (x : Int)) = (act && q * ns + r == x) := by
  unfold partner
  rw [Bool.eq_iff_iff]
  cases act
  · simp only [Bool.false_eq_true, if_false, Bool.false_and, beq_iff_eq, iff_false]
    omega
  · simp only [if_true, Bool.true_and, beq_iff_eq]
    omega

theorem partner_neg (ns r q x : Nat) (act : Bool) : (-partner ns r q act - 10 == (x : Int)) = (!act && q * ns + r == x) := by
  unfold partner
  rw [Bool.eq_iff_iff]
  cases act
  · simp only [Bool.false_eq_true, if_false, Bool.not_false, Bool.true_and, beq_iff_eq]
    omega
  · simp only [if_true, Bool.not_true, Bool.false_and, beq_iff_eq, Bool.false_eq_true, iff_false]
    omega

/-- The entry names process `x`. -/
theorem newEntry_hit (ns r : Nat) (act : Nat → Bool) (e : Int × Int) (h : -10 < e.1) (x : Nat) :
    ((newEntry ns r act e).1 == (x : Int) || -(newEntry ns r act e).1 - 10 == (x : Int)) =
      (decide (0 ≤ e.1) && e.1.toNat * ns + r == x) := by
  unfold newEntry
  by_cases c : e.1 < 0
  · rw [if_pos c, decide_eq_false (by omega : ¬0 ≤ e.1), Bool.eq_iff_iff]
    simp only [Bool.or_eq_true, beq_iff_eq, Bool.false_and, Bool.false_eq_true, iff_false]
    omega
  · rw [if_neg c, decide_eq_true (by omega : 0 ≤ e.1)]
    dsimp only
    rw [partner_eq, partner_neg]
    cases act e.1.toNat <;> simp

theorem find?_congr' {Y : Type} (l : List Y) (p q : Y → Bool) (h : ∀ x, x ∈ l → p x = q x) : l.find? p = l.find? q := by
  induction l with
  | nil => rfl
  | cons x l ih =>
    rw [List.find?_cons, List.find?_cons, h x List.mem_cons_self, ih fun y hy => h y (List.mem_cons_of_mem _ hy)]

theorem toNat_eq_iff {ns r Q : Nat} (hr : r < ns) (e : Int) : (decide (0 ≤ e) && e.toNat * ns + r == Q * ns + r) = (e == (Q : Int)) := by
  rw [Bool.eq_iff_iff]
  simp only [Bool.and_eq_true, decide_eq_true_eq, beq_iff_eq]
  constructor
  · rintro ⟨h1, h2⟩
    have : e.toNat = Q := by
      have := congrArg (· / ns) h2
      simpa [proc_div hr] using this
    omega
  · intro h
    subst h
    exact ⟨by omega, rfl⟩

/-- Which lines name process `Q * ns + r`. -/
theorem hit_new {ns r : Nat} (hr : r < ns) (act : Nat → Bool) (l : LineD) (h : ∀ e, e ∈ l.recvfrom → -10 < e.1) (Q : Nat)
    (l' : LineD) (hl : l'.recvfrom = l.recvfrom.map (newEntry ns r act)) :
    hit l' (Q * ns + r) = if (l.recvfrom.any fun e => e.1 == (Q : Int)) then some (act Q) else none := by
  unfold hit
  rw [hl, List.find?_map, find?_congr' _ _ (fun e => e.1 == (Q : Int)) (fun e he => by
    dsimp only [Function.comp]
    rw [newEntry_hit _ _ _ _ (h e he), toNat_eq_iff hr])]
  cases hf : l.recvfrom.find? fun e => e.1 == (Q : Int) with
  | none =>
    rw [if_neg]
    · rfl
    · intro c
      obtain ⟨e, he, h1⟩ := List.any_eq_true.1 c
      exact absurd h1 (by simpa using List.find?_eq_none.1 hf e he)
  | some e =>
    have h1 := List.find?_some hf
    have h2 := List.mem_of_find?_eq_some hf
    rw [if_pos (List.any_eq_true.2 ⟨e, h2, h1⟩)]
    dsimp only [Option.map_some]
    congr 1
    have h3 : e.1 = (Q : Int) := by simpa using h1
    unfold newEntry
    rw [h3, if_neg (by omega)]
    dsimp only
    rw [partner_eq]
    simp

theorem hit_none {ns r : Nat} (hr : r < ns) (act : Nat → Bool) (l : LineD) (h : ∀ e, e ∈ l.recvfrom → -10 < e.1) (x : Nat)
    (hx : x % ns ≠ r) (l' : LineD) (hl : l'.recvfrom = l.recvfrom.map (newEntry ns r act)) : hit l' x = none := by
  unfold hit
  rw [hl, List.find?_map, find?_congr' _ _ (fun _ => false) (fun e he => by
    dsimp only [Function.comp]
    rw [newEntry_hit _ _ _ _ (h e he), Bool.and_eq_false_iff]
    right
    rw [beq_eq_false_iff_ne]
    intro c
    exact hx (by rw [← c, proc_mod hr]))]
  simp

theorem filter_zipIdx_map {f : LineD → LineD} (b : Block) (p p' : LineD → Bool)
    (h : ∀ l, l ∈ b → p (f l) = p' l) :
    (((b.map f).zipIdx.filter fun x => p x.1).map fun x => x.2) = (b.zipIdx.filter fun x => p' x.1).map fun x => x.2 := by
  rw [List.zipIdx_map, List.filter_map, List.map_map]
  have : (b.zipIdx.filter ((fun x : LineD × Nat => p x.1) ∘ Prod.map f id)) = b.zipIdx.filter fun x => p' x.1 := by
    apply List.filter_congr
    intro x hx
    exact h _ (List.mem_of_getElem? (List.mem_zipIdx_iff_getElem?.1 hx))
  rw [this]
  rfl

/-- The blocks of the processes are the block of the node with distributed messages. -/
theorem tasksBlock_split {N ns : Nat} {perm : List Nat} (hp : IsPerm N perm) {a r : Nat} (ha : a < N) (hr : r < ns) (b : Block)
    (hb : Good N b) :
    Split ns a r (recvOwner N ns perm a b) (sendOwner N ns perm a b) b (tasksBlock N ns perm a r b) := by
  have hrecv : ∀ l, l ∈ b → ∀ e, e ∈ l.recvfrom → -10 < e.1 := fun l hl e he => (hb l hl e (List.mem_append_right _ he)).1
  have hsend : ∀ l, l ∈ b → ∀ e, e ∈ l.sendto → -10 < e.1 := fun l hl e he => (hb l hl e (List.mem_append_left _ he)).1
  have hin : ∀ Q : Nat, ¬Q < N → ∀ l, l ∈ b → (l.recvfrom.any fun e => e.1 == (Q : Int)) = false := by
    intro Q hQ l hl
    rw [List.any_eq_false]
    intro e he h
    have := (hb l hl e (List.mem_append_right _ he)).2
    rw [beq_iff_eq] at h
    omega
  have hs0 : ∀ (l : LineD), l ∈ b → ∀ x : Nat, (newLine N ns perm a r b l).sendto.flatMap (fun e =>
      (if e.1 == (x : Int) then [true] else []) ++ (if -e.1 - 10 == (x : Int) then [false] else [])) =
      l.sendto.flatMap fun e => if decide (0 ≤ e.1) && e.1.toNat * ns + r == x then
        [mine (sendSet N perm a b) ns r (sendOff N perm a e.1.toNat)] else [] := by
    intro l hl x
    unfold newLine
    dsimp only
    rw [List.flatMap_map]
    apply List.flatMap_congr
    intro e he
    have he := hsend l hl e he
    unfold newEntry
    by_cases c : e.1 < 0
    · rw [if_pos c, decide_eq_false (by omega : ¬0 ≤ e.1)]
      have c1 : (e.1 == (x : Int)) = false := by rw [beq_eq_false_iff_ne]; omega
      have c2 : (-e.1 - 10 == (x : Int)) = false := by rw [beq_eq_false_iff_ne]; omega
      rw [c1, c2]; rfl
    · rw [if_neg c, decide_eq_true (by omega : 0 ≤ e.1)]
      dsimp only
      rw [partner_eq, partner_neg]
      cases mine (sendSet N perm a b) ns r (sendOff N perm a e.1.toNat) <;> simp
  have hs1 : ∀ x : Nat, sendHits (b.map (newLine N ns perm a r b)) x = b.zipIdx.flatMap fun y => (y.1.sendto.flatMap fun e =>
      if decide (0 ≤ e.1) && e.1.toNat * ns + r == x then
        [mine (sendSet N perm a b) ns r (sendOff N perm a e.1.toNat)] else []).map fun c => (y.2, c) := by
    intro x
    unfold sendHits
    rw [List.zipIdx_map, List.flatMap_map]
    apply List.flatMap_congr
    intro y hy
    have hl := List.mem_of_getElem? (List.mem_zipIdx_iff_getElem?.1 hy)
    rw [← hs0 y.1 hl x, List.map_flatMap]
    dsimp only [Prod.map, id]
    congr 1
    funext e
    rw [List.map_append]
    congr 1
    · split <;> rfl
    · split <;> rfl
  rw [tasksBlock_eq hp ha r b hb]
  refine ⟨⟨_, rfl, fun l => ⟨rfl, rfl, rfl⟩⟩, fun x hx => ⟨fun act => ?_, ?_, ?_⟩, fun Q act hQ => ?_, fun Q hQ => ?_,
    fun Q hQ => ?_, fun Q hQ => ?_⟩
  · unfold TasksNode.hits
    rw [filter_zipIdx_map b (fun l => hit l x == some act) (fun _ => false) (fun l hl => by
      rw [hit_none hr _ l (hrecv l hl) x hx _ rfl]; rfl)]
    simp
  · unfold anyHits
    rw [filter_zipIdx_map b (fun l => (hit l x).isSome) (fun _ => false) (fun l hl => by
      rw [hit_none hr _ l (hrecv l hl) x hx _ rfl]; rfl)]
    simp
  · rw [hs1, List.flatMap_eq_nil_iff]
    intro y _
    rw [List.map_eq_nil_iff, List.flatMap_eq_nil_iff]
    intro e _
    rw [if_neg]
    intro c
    rw [Bool.and_eq_true] at c
    have := beq_iff_eq.1 c.2
    exact hx (by rw [← this, proc_mod hr])
  · unfold TasksNode.hits recvIdx
    have hact : Q < N → mine (recvSet N perm a b) ns r (recvOff N perm a Q) = decide (recvOwner N ns perm a b Q = r) := by
      intro hQN
      unfold mine recvOwner
      rw [Bool.eq_iff_iff]
      simp [recvOff_ne hp ha hQN hQ]
    rw [filter_zipIdx_map b (fun l => hit l (Q * ns + r) == some act)
      (fun l => (l.recvfrom.any fun e => e.1 == (Q : Int)) && act == decide (recvOwner N ns perm a b Q = r)) (fun l hl => by
        rw [hit_new hr _ l (hrecv l hl) Q _ rfl]
        by_cases hQN : Q < N
        · rw [hact hQN]
          cases hc : (l.recvfrom.any fun e => e.1 == (Q : Int))
          · rfl
          · rw [if_pos rfl, Bool.true_and, Bool.eq_iff_iff]
            simp only [beq_iff_eq, Option.some.injEq]
            exact eq_comm
        · rw [hin Q hQN l hl]; rfl)]
    by_cases c : act = decide (recvOwner N ns perm a b Q = r)
    · rw [if_pos c]
      simp [c]
    · rw [if_neg c]
      have : (act == decide (recvOwner N ns perm a b Q = r)) = false := by rw [beq_eq_false_iff_ne]; exact c
      simp [this]
  · unfold anyHits recvIdx
    rw [filter_zipIdx_map b (fun l => (hit l (Q * ns + r)).isSome) (fun l => l.recvfrom.any fun e => e.1 == (Q : Int)) (fun l hl => by
        rw [hit_new hr _ l (hrecv l hl) Q _ rfl]
        cases (l.recvfrom.any fun e => e.1 == (Q : Int)) <;> rfl)]
  · rw [hs1]
    unfold sendIdx
    rw [List.map_flatMap]
    apply List.flatMap_congr
    intro y hy
    have hl := List.mem_of_getElem? (List.mem_zipIdx_iff_getElem?.1 hy)
    have hE := fun e he => hb y.1 hl e (List.mem_append_left _ he)
    clear hs1 hs0
    revert hE
    generalize y.1.sendto = es
    intro hE
    induction es with
    | nil => rfl
    | cons e es ih =>
      have he := (hE e List.mem_cons_self).2
      rw [List.flatMap_cons, toNat_eq_iff hr]
      by_cases c : (e.1 == (Q : Int)) = true
      · rw [if_pos c, List.filter_cons_of_pos (p := fun e : Int × Int => e.1 == (Q : Int)) c, List.map_append, List.map_cons, List.map_cons,
          ih fun e he => hE e (List.mem_cons_of_mem _ he)]
        rw [beq_iff_eq] at c
        have hQN : Q < N := by omega
        have hact : mine (sendSet N perm a b) ns r (sendOff N perm a e.1.toNat) = decide (sendOwner N ns perm a b Q = r) := by
          rw [show e.1.toNat = Q by omega]
          unfold mine sendOwner
          rw [Bool.eq_iff_iff]
          simp [sendOff_ne hp ha hQN hQ]
        rw [hact]; rfl
      · rw [if_neg c, List.filter_cons_of_neg (p := fun e : Int × Int => e.1 == (Q : Int)) c, ← ih fun e he => hE e (List.mem_cons_of_mem _ he)]; rfl
  · unfold reducesT reduces
    have hany : anyHits (b.map (newLine N ns perm a r b)) (Q * ns + r) = recvIdx b Q := by
      unfold anyHits recvIdx
      rw [filter_zipIdx_map b (fun l => (hit l (Q * ns + r)).isSome) (fun l => l.recvfrom.any fun e => e.1 == (Q : Int)) (fun l hl => by
          rw [hit_new hr _ l (hrecv l hl) Q _ rfl]
          cases (l.recvfrom.any fun e => e.1 == (Q : Int)) <;> rfl)]
    rw [hany]
    cases (recvIdx b Q).getLast? with
    | none => rfl
    | some k =>
      dsimp only
      rw [List.getElem?_map]
      cases hk : b[k]? with
      | none => rfl
      | some l =>
        dsimp only [Option.map_some, Option.bind_some]
        unfold newLine
        dsimp only
        rw [List.head?_map]
        cases hh : l.recvfrom.head? with
        | none => rfl
        | some e =>
          dsimp only [Option.map_some]
          rw [newEntry_hit _ _ _ _ (hrecv l (List.mem_of_getElem? hk) e (List.mem_of_head? hh)), toNat_eq_iff hr]
          cases hc : (e.1 == (a : Int))
          · symm; simpa using hc
          · symm; simpa using hc

end ExtMpi.TasksNode
