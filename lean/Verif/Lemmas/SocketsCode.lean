import Verif.Lemmas.SocketsShare
/-! The programs of the sockets. -/
namespace ExtMpi.Sockets
open RawCode

theorem acts_app {n t : Nat} {a b : List SInstr} {x y : List OnNode.Act} (ha : allActs n t a = some x) (hb : allActs n t b = some y) :
    allActs n t (a ++ b) = some (x ++ y) := by
  induction a generalizing x with
  | nil =>
    simp only [allActs, Option.some.injEq] at ha
    subst ha
    simpa using hb
  | cons l a ih =>
    simp only [allActs, Option.bind_eq_bind, Option.bind_eq_some_iff] at ha
    obtain ⟨u, hu, v, hv, e⟩ := ha
    simp only [Option.pure_def, Option.some.injEq] at e
    subst e
    simp [allActs, hu, ih hv]

def isMsg : Instr → Bool
  | .irecv _ _ _ => true
  | .isend _ _ _ => true
  | _ => false

theorem acts_lines {n t : Nat} (ls : List Instr) (h : ∀ i ∈ ls, isMsg i = false) :
    allActs n t (ls.map .ins) = some ((ls.flatMap (lineElems n t)).map OnNode.Elem.act) := by
  induction ls with
  | nil => rfl
  | cons i ls ih =>
    have hi := h i (by simp)
    have h1 : allActs n t [.ins i] = some ((lineElems n t i).map OnNode.Elem.act) := by
      cases i with
      | copy r d s k => simp [allActs, acts, lineElems, es, OnNode.Elem.act, Function.comp_def]
      | irecv a k q => simp [isMsg] at hi
      | isend a k q => simp [isMsg] at hi
      | waitall => rfl
      | barrier => rfl
    have := acts_app h1 (ih fun i hi => h i (by simp [hi]))
    simpa using this

theorem inner_of_msg {n t : Nat} (ht : t < n) {i : Instr} (hl : LineOk n t i) : inner n t i = isMsg i := by
  cases i with
  | irecv a k q => simp [inner, isMsg, Nat.div_eq_of_lt ht, Nat.div_eq_of_lt hl.2.1]
  | isend a k q => simp [inner, isMsg, Nat.div_eq_of_lt ht, Nat.div_eq_of_lt hl.2.1]
  | _ => rfl

theorem filter_elems {n t : Nat} (ht : t < n) (ls : List Instr) (hl : ∀ i ∈ ls, LineOk n t i) :
    (ls.filter fun i => !inner n t i).flatMap (lineElems n t) = ls.flatMap (lineElems n t) := by
  induction ls with
  | nil => rfl
  | cons i ls ih =>
    have ih := ih fun i hi => hl i (by simp [hi])
    rw [List.filter_cons, inner_of_msg ht (hl i (by simp))]
    cases i with
    | copy r d s k => simp only [isMsg, Bool.not_false, if_true, List.flatMap_cons, ih]
    | waitall => simp only [isMsg, Bool.not_false, if_true, List.flatMap_cons, ih]
    | barrier => simp only [isMsg, Bool.not_false, if_true, List.flatMap_cons, ih]
    | irecv a k q => simpa [isMsg, lineElems] using ih
    | isend a k q => simpa [isMsg, lineElems] using ih

theorem copies_eq {n t : Nat} {b : Nat → List Instr} (ht : t < n) (ls : List Instr) (seen : List Nat)
    (h : ∀ a k q, Instr.irecv a k q ∈ ls → q < n ∧ sendsTo t (b q) ≠ [])
    (hc : ∀ q, (recvsFrom q ls).length + seen.count q ≤ 1) :
    copies n t b seen ls = some ((dels b t ls).map fun d => .ins (d.line n)) := by
  induction ls generalizing seen with
  | nil => rfl
  | cons i ls ih =>
    have h' : ∀ a k q, Instr.irecv a k q ∈ ls → q < n ∧ sendsTo t (b q) ≠ [] := fun a k q hi => h a k q (by simp [hi])
    cases i with
    | irecv a k q =>
      obtain ⟨hq, hne⟩ := h a k q (by simp)
      have h0 : seen.count q = 0 := by
        have := hc q
        simp only [recvsFrom, if_true, List.length_cons] at this
        omega
      obtain ⟨s, ss, hs⟩ := List.exists_cons_of_ne_nil hne
      have ih := ih (q :: seen) h' (fun q' => by
        have := hc q'
        simp only [recvsFrom] at this
        rw [List.count_cons]
        by_cases e : q = q'
        · subst e
          simp only [if_true, List.length_cons] at this
          simp only [beq_self_eq_true, if_true]
          omega
        · rw [if_neg e] at this
          simpa [e] using this)
      have hd : dels b t (.irecv a k q :: ls) = dels b t ls ++ [⟨t, a, s.1, s.2, q⟩] := by
        unfold dels
        rw [List.filterMap_cons_some (b := ⟨t, a, s.1, s.2, q⟩) (by simp [delOf, hs]), List.reverse_cons]
      rw [hd]
      simp [copies, h0, hs, ih, Nat.div_eq_of_lt ht, Nat.div_eq_of_lt hq, Del.line]
    | copy r d s k => exact ih seen h' hc
    | isend a k q => exact ih seen h' hc
    | waitall => exact ih seen h' hc
    | barrier => exact ih seen h' hc

def headSk (n : Nat) (x : Rnd) : OnNode.Skel :=
  .ops x.2.1 :: if x.1 then barrierSk n ++ (.ops x.2.2 :: barrierSk n) else []

theorem roundsSk_eq (n : Nat) (T : Nat → List OnNode.Elem) (rs : List Rnd) :
    roundsSk n T rs = rs.flatMap (headSk n) ++ [.ops T] := by
  induction rs with
  | nil => rfl
  | cons x rs ih =>
    obtain ⟨b, L, E⟩ := x
    rw [roundsSk, List.flatMap_cons, ih, headSk]
    cases b <;> simp

theorem acts_node (n t : Nat) : allActs n t [.node] = some (OnNode.code (barrierSk n) t) := by
  simp [allActs, acts, barrierSk, OnNode.code_dis, downW]

theorem code_ops (f : Nat → List OnNode.Elem) (B : OnNode.Skel) (t : Nat) :
    OnNode.code (.ops f :: B) t = (f t).map OnNode.Elem.act ++ OnNode.code B t := by
  simp [OnNode.code, OnNode.Item.acts]

theorem RoundOk.irecv {n : Nat} {b : Nat → List Instr} (h : RoundOk n b) {t : Nat} (ht : t < n) {a : Addr} {k q : Nat}
    (hi : Instr.irecv a k q ∈ b t) : q < n ∧ sendsTo t (b q) ≠ [] := by
  have hq := (h.lines t ht _ hi).2.1
  refine ⟨hq, fun hc => ?_⟩
  have := (h.matched t q ht hq).1
  rw [hc] at this
  have hm : (a, k) ∈ recvsFrom q (b t) := mem_recvsFrom.2 hi
  rw [show recvsFrom q (b t) = [] by simpa using this.symm] at hm
  cases hm

theorem sharePart_acts {n : Nat} {prog : Nat → List Instr} {r : Nat} (h : RoundOk n fun t => part prog t r) {t : Nat} (ht : t < n) :
    ∃ x, sharePart n n prog t r (part prog t r) = some x ∧
      allActs n t x = some (OnNode.code (headSk n (rnd n fun t => part prog t r)) t) := by
  have hcop := copies_eq (b := fun q => part prog q r) ht (part prog t r) []
    (fun a k q hi => h.irecv ht hi) (fun q => by simpa using h.one ht q)
  refine ⟨_, by simp only [sharePart, hcop, Option.bind_eq_bind, Option.bind_some, Option.pure_def]; rfl, ?_⟩
  have hany : anyReceives n n prog r = anyR n fun t => part prog t r := rfl
  rw [hany]
  have hL := acts_lines (n := n) (t := t) ((part prog t r).filter fun i => !inner n t i) (by
    intro i hi
    obtain ⟨hi, hn⟩ := List.mem_filter.1 hi
    rw [inner_of_msg ht (h.lines t ht i hi)] at hn
    simpa using hn)
  rw [filter_elems ht _ (h.lines t ht)] at hL
  have hw : allActs n t [.ins .waitall] = some [] := rfl
  have hbar : allActs n t [.ins .barrier] = some [] := rfl
  have hE : allActs n t ((dels (fun q => part prog q r) t (part prog t r)).map fun d => SInstr.ins (d.line n)) =
      some (((dels (fun q => part prog q r) t (part prog t r)).flatMap (Del.elems n)).map OnNode.Elem.act) := by
    have h1 := acts_lines (n := n) (t := t) ((dels (fun q => part prog q r) t (part prog t r)).map fun d => d.line n) (by
      intro i hi
      obtain ⟨d, _, rfl⟩ := List.mem_map.1 hi
      rfl)
    rw [List.map_map, List.flatMap_map] at h1
    have h2 : ((dels (fun q => part prog q r) t (part prog t r)).flatMap fun d => lineElems n t (d.line n)) =
        (dels (fun q => part prog q r) t (part prog t r)).flatMap (Del.elems n) := by
      apply List.flatMap_congr
      intro d hd
      have := (h.mem_dels ht hd).1
      unfold Del.elems
      rw [this]
    rw [h2] at h1
    exact h1
  have hN := acts_node n t
  unfold headSk rnd
  rw [code_ops]
  dsimp only
  rw [List.append_assoc, List.append_assoc]
  refine acts_app hL ?_
  rw [← List.nil_append (OnNode.code _ _)]
  refine acts_app hw ?_
  by_cases hf : receives n t (part prog t r) = true
  · have ha : anyR n (fun t => part prog t r) = true := List.any_eq_true.2 ⟨t, List.mem_range.2 ht, hf⟩
    rw [if_pos hf, if_pos ha, if_pos ha, if_pos hf, OnNode.code_append, code_ops]
    have := acts_app (acts_app hbar (acts_app hN hE)) (acts_app hN hbar)
    simpa using this
  · rw [if_neg hf]
    by_cases ha : anyR n (fun t => part prog t r) = true
    · have hnil : dels (fun q => part prog q r) t (part prog t r) = [] := by
        rw [List.eq_nil_iff_forall_not_mem]
        intro d hd
        exact hf (receives_of_del h ht hd)
      rw [if_pos ha, if_pos ha, if_neg hf, OnNode.code_append, code_ops, hnil]
      have := acts_app (acts_app hN hbar) (acts_app hN hbar)
      simpa using this
    · rw [if_neg ha, if_neg ha]
      rfl

theorem shareParts_acts {n K : Nat} {prog : Nat → List Instr} (h : Regular n K prog) {t : Nat} (ht : t < n) (bs : List (List Instr)) (r : Nat)
    (hr : r + bs.length ≤ K) (hbs : ∀ i, i < bs.length → bs[i]? = some (part prog t (r + i))) :
    ∃ x, shareParts n n prog t r bs = some x ∧
      allActs n t x = some (OnNode.code (((List.range' r bs.length).map fun r => rnd n fun t => part prog t r).flatMap (headSk n)) t) := by
  induction bs generalizing r with
  | nil => exact ⟨[], rfl, rfl⟩
  | cons b bs ih =>
    rw [List.length_cons] at hr
    have hb : b = part prog t r := by simpa using hbs 0 (by simp)
    subst hb
    obtain ⟨x, hx, hxa⟩ := sharePart_acts (h.round (r := r) (by omega)) ht
    obtain ⟨y, hy, hya⟩ := ih (r + 1) (by omega) (fun i hi => by
      have := hbs (i + 1) (by simpa using hi)
      rw [List.getElem?_cons_succ] at this
      rw [this, Nat.add_right_comm, Nat.add_assoc])
    refine ⟨x ++ y, by simp [shareParts, hx, hy], ?_⟩
    rw [List.length_cons, List.range'_succ, List.map_cons, List.flatMap_cons, OnNode.code_append]
    exact acts_app hxa hya

/-- The rounds of the programs. -/
def rounds (n K : Nat) (prog : Nat → List Instr) : List Rnd := ((List.range K).map fun r t => part prog t r).map (rnd n)

theorem share_acts {n K : Nat} {prog : Nat → List Instr} (h : Regular n K prog) {t : Nat} (ht : t < n) :
    (share n n prog t).bind (allActs n t) =
      some (OnNode.code (roundsSk n (fun t => (splitWaits (prog t)).2.flatMap (lineElems n t)) (rounds n K prog)) t) := by
  obtain ⟨x, hx, hxa⟩ := shareParts_acts h ht (splitWaits (prog t)).1 0 (by rw [h.waits t ht]; omega) (fun i hi => by
    rw [Nat.zero_add, part, List.getElem?_eq_getElem hi]; rfl)
  have htl := acts_lines (n := n) (t := t) (splitWaits (prog t)).2 (by
    intro i hi
    rcases h.last t ht i hi with rfl | ⟨_, _, _, _, rfl⟩ <;> rfl)
  have hs : share n n prog t = some (x ++ (splitWaits (prog t)).2.map .ins) := by simp [share, hx]
  rw [hs, Option.bind_some, acts_app hxa htl, roundsSk_eq, OnNode.code_append, code_ops, h.waits t ht, rounds, List.map_map,
    List.range_eq_range']
  simp [OnNode.code, Function.comp_def]

theorem private_line {n t : Nat} (ht : t < n) {i : Instr} (hl : LineOk n t i) {e : OnNode.Elem} (he : e ∈ lineElems n t i) : Private t e := by
  cases i with
  | copy r d s k =>
    obtain ⟨j, _, rfl⟩ := List.mem_map.1 he
    exact ⟨⟨_, _, cell_own ht hl.1 j⟩, _, _, cell_own ht hl.2 j⟩
  | _ => cases he

theorem conflict_round {n : Nat} {b : Nat → List Instr} (h : RoundOk n b) (hs : ∀ t, t < n → SepLines (b t)) {p q : Nat} (hp : p < n)
    (hq : q < n) (hpq : p ≠ q) {e f : OnNode.Elem} (he : e ∈ (rnd n b).2.2 p) (hf : f ∈ (rnd n b).2.2 q) : ¬OnNode.Conflict e f := by
  have key : ∀ {p q : Nat} (_ : p < n) (_ : q < n) (_ : p ≠ q) {d d' : Del} (_ : d ∈ dels b p (b p)) (_ : d' ∈ dels b q (b q)) {i j : Nat}
      (_ : i < d.k) (_ : j < d'.k), own d.t d.a.reg (d.a.off + i) ≠ own d'.q d'.b.reg (d'.b.off + j) := by
    intro p q hp hq _ d d' hd hd' i j hi hj hc
    obtain ⟨t1, o1, r1, s1⟩ := h.mem_dels hp hd
    obtain ⟨t2, o2, r2, s2⟩ := h.mem_dels hq hd'
    obtain ⟨c1, c2, c3⟩ := own_inj (okReg_shm o1.a) (okReg_shm o2.b) hc
    have e1 : d'.q = p := by omega
    rw [e1] at s2
    exact hs p hp d.q q (d.a, d.k) (d'.b, d'.k) (by rw [r1]; simp) (by rw [s2]; simp) ⟨c2, by dsimp only; omega, by dsimp only; omega⟩
  obtain ⟨d, hd, he⟩ := List.mem_flatMap.1 he
  obtain ⟨d', hd', hf⟩ := List.mem_flatMap.1 hf
  obtain ⟨t1, o1, r1, s1⟩ := h.mem_dels hp hd
  obtain ⟨t2, o2, r2, s2⟩ := h.mem_dels hq hd'
  rw [d.elems_eq o1] at he
  rw [d'.elems_eq o2] at hf
  obtain ⟨i, hi, rfl⟩ := List.mem_map.1 he
  obtain ⟨j, hj, rfl⟩ := List.mem_map.1 hf
  rw [List.mem_range] at hi hj
  rintro (hc | hc | hc)
  · have := (own_inj (okReg_shm o1.a) (okReg_shm o2.a) hc).1
    omega
  · exact key hp hq hpq hd hd' hi hj hc
  · exact key hq hp hpq.symm hd' hd hj hi hc.symm

variable {X : Type} [AddCommMonoid X]

/-- Rounds of processes that do not disturb each other. -/
structure Calm (n : Nat) (T : Nat → List OnNode.Elem) (rs : List Rnd) : Prop where
  tail : ∀ p, p < n → ∀ e ∈ T p, Private p e
  lines : ∀ x ∈ rs, ∀ p, p < n → ∀ e ∈ x.2.1 p, Private p e
  copies : ∀ x ∈ rs, ∀ p q, p < n → q < n → p ≠ q → ∀ e ∈ x.2.2 p, ∀ f ∈ x.2.2 q, ¬OnNode.Conflict e f

theorem shared_rounds {n K : Nat} {prog : Nat → List Instr} (h : Regular n K prog) {m : Nat → Mem X}
    {post : (Nat → Mem X) → Prop} (hc : Correct n prog m post) {M : OnNode.Cell → X} (hm : Holds n m M) :
    Calm n (fun t => (splitWaits (prog t)).2.flatMap (lineElems n t)) (rounds n K prog) ∧
      ∃ mem, post mem ∧ Holds n mem
        (OnNode.lockstep n (roundsSk n (fun t => (splitWaits (prog t)).2.flatMap (lineElems n t)) (rounds n K prog)) M) := by
  obtain ⟨bound, hc⟩ := hc
  have hg : Good n (initial prog m) := by
    intro k s hs
    refine ⟨(hc k s hs).2.1, ?_⟩
    have : ∀ {k : Nat} {s0 s : State X}, Steps n k s0 s → (∀ t, Sep (s0.proc t)) → ∀ t, Sep (s.proc t) := by
      intro k s0 s hs
      induction hs with
      | refl => exact id
      | step h1 _ ih => exact fun h0 => ih (h1.sep h0)
    exact this hs (initial_sep prog m)
  have hprog : ∀ t, t < n → prog t = ((List.range K).map fun r t => part prog t r).flatMap (fun b => b t ++ [.waitall]) ++
      (splitWaits (prog t)).2 := by
    intro t ht
    have h1 := (splitWaits_eq (prog t)).1
    have h2 : (splitWaits (prog t)).1 = (List.range K).map fun r => part prog t r := by
      apply List.ext_getElem
      · simp [h.waits t ht]
      · intro i hi _
        simp [part, List.getElem?_eq_getElem hi]
    rw [h2, List.flatMap_map] at h1
    rw [List.flatMap_map]
    exact h1.symm
  have hat : At n (initial prog m) (fun t => ((List.range K).map fun r t => part prog t r).flatMap (fun b => b t ++ [.waitall]) ++
      (splitWaits (prog t)).2) m none2 none2 :=
    ⟨fun t ht => by dsimp only; rw [← hprog t ht]; rfl, rfl⟩
  have htl : ∀ t, t < n → ∀ i ∈ (splitWaits (prog t)).2, LineOk n t i := by
    intro t ht i hi
    apply h.lines t ht
    rw [← (splitWaits_eq (prog t)).1]
    exact List.mem_append_right _ hi
  have hok : ∀ b ∈ (List.range K).map (fun r t => part prog t r), RoundOk n b := by
    intro b hb
    obtain ⟨r, hr, rfl⟩ := List.mem_map.1 hb
    exact h.round (List.mem_range.1 hr)
  obtain ⟨⟨k, s, mem, hs, hat', hh⟩, hsep⟩ := sim (fun t => (splitWaits (prog t)).2) (fun t _ => (splitWaits_eq (prog t)).2.2) htl _ hok hat hg hm
  have hfin : Final n s := by
    intro t ht
    have hno : ∀ q, recvsFrom q (splitWaits (prog t)).2 = [] ∧ sendsTo q (splitWaits (prog t)).2 = [] := by
      intro q
      constructor
      · rw [List.eq_nil_iff_forall_not_mem]
        intro x hx
        rcases h.last t ht _ (mem_recvsFrom.1 hx) with e | ⟨_, _, _, _, e⟩ <;> cases e
      · rw [List.eq_nil_iff_forall_not_mem]
        intro x hx
        rcases h.last t ht _ (mem_sendsTo.1 hx) with e | ⟨_, _, _, _, e⟩ <;> cases e
    rw [hat'.1 t ht, hat'.2]
    exact ⟨rfl, fun q => ⟨(hno q).1, (hno q).2, rfl, rfl⟩⟩
  have hpost : post fun t => (s.proc t).mem := by
    rcases (hc k s hs).2.2 with ⟨_, hp⟩ | ⟨l, s', _, hst⟩
    · exact hp
    · exact absurd hst (hfin.stuck l s')
  refine ⟨⟨fun p hp e he => ?_, fun x hx p hp e he => ?_, fun x hx p q hp hq hpq e he f hf => ?_⟩, ?_⟩
  · obtain ⟨i, hi, he⟩ := List.mem_flatMap.1 he
    exact private_line hp (htl p hp i hi) he
  · obtain ⟨b, hb, rfl⟩ := List.mem_map.1 hx
    obtain ⟨i, hi, he⟩ := List.mem_flatMap.1 he
    exact private_line hp ((hok b hb).lines p hp i hi) he
  · obtain ⟨b, hb, rfl⟩ := List.mem_map.1 hx
    exact conflict_round (hok b hb) (hsep b hb) hp hq hpq he hf
  · refine ⟨_, hpost, fun t ht x => ?_⟩
    have := hh t ht x
    rw [hat'.1 t ht]
    exact this

theorem shared_aux {n K : Nat} (hn : 0 < n) {prog : Nat → List Instr} (h : Regular n K prog) {m : Nat → Mem X}
    {post : (Nat → Mem X) → Prop} (hc : Correct n prog m post) {M : OnNode.Cell → X} (hm : Holds n m M) :
    NodeCorrect n (fun t => share n n prog t) M fun M' => ∃ mem, post mem ∧ Holds n mem M' :=
  have ⟨h1, h2⟩ := shared_rounds h hc hm
  correct_of_rounds hn (fun _ ht => share_acts h ht) h1.tail h1.lines h1.copies h2

end ExtMpi.Sockets
