import Verif.Lemmas.GroupsChain
/-! Removal of the copies between the steps. -/
namespace ExtMpi.Groups
open Schedule

/-! ## Kinds of lines -/

/-- A line that is neither copied in nor out. -/
def Quiet (l : LineD) : Prop := (∀ e, e ∈ l.sendto → 0 ≤ e.1) ∧ ∀ e, e ∈ l.recvfrom → 0 ≤ e.1

/-- A line that is copied in. -/
def InLine (l : LineD) : Prop := l.sendto = [] ∧ ∃ x, l.recvfrom = [(-1, x)]

/-- A line that is copied out. -/
def OutLine (l : LineD) : Prop := l.recvfrom = [] ∧ ∃ x, l.sendto = [(-1, x)]

theorem Quiet.isOut {l : LineD} (h : Quiet l) : isOut l = false := by
  unfold Groups.isOut
  cases hs : l.sendto with
  | nil => rfl
  | cons e es =>
    have := h.1 e (by rw [hs]; exact List.mem_cons_self)
    simp only [List.head?_cons, Option.map_some, beq_eq_false_iff_ne]
    intro hc
    have := Option.some.inj hc
    omega

theorem Quiet.isIn {l : LineD} (h : Quiet l) : isIn l = false := by
  unfold Groups.isIn
  cases hs : l.recvfrom with
  | nil => rfl
  | cons e es =>
    have := h.2 e (by rw [hs]; exact List.mem_cons_self)
    simp only [List.head?_cons, Option.map_some, beq_eq_false_iff_ne]
    intro hc
    have := Option.some.inj hc
    omega

theorem InLine.isOut {l : LineD} (h : InLine l) : isOut l = false := by
  unfold Groups.isOut; rw [h.1]; rfl

theorem InLine.isIn {l : LineD} (h : InLine l) : isIn l = true := by
  unfold Groups.isIn
  obtain ⟨x, hx⟩ := h.2
  rw [hx]; rfl

theorem OutLine.isOut {l : LineD} (h : OutLine l) : isOut l = true := by
  unfold Groups.isOut
  obtain ⟨x, hx⟩ := h.2
  rw [hx]; rfl

theorem OutLine.isIn {l : LineD} (h : OutLine l) : isIn l = false := by
  unfold Groups.isIn; rw [h.1]; rfl

/-- One of the three kinds. -/
def Plain (l : LineD) : Prop := Quiet l ∨ InLine l ∨ OutLine l

/-! ## Lines with the same effect -/

/-- Two lines that only differ in entries for copies. -/
structure LineSame (l l' : LineD) : Prop where
  frac : l'.frac = l.frac
  red : l'.reducefrom = l.reducefrom
  copy : l'.copyreducefrom = l.copyreducefrom
  send : ∀ q : Nat, (l'.sendto.filter fun e => e.1 == (q : Int)).length = (l.sendto.filter fun e => e.1 == (q : Int)).length
  recv : ∀ q : Nat, (l'.recvfrom.any fun e => e.1 == (q : Int)) = l.recvfrom.any fun e => e.1 == (q : Int)
  head : ∀ q : Nat, (l.recvfrom.any fun e => e.1 == (q : Int)) = true → l'.recvfrom.head? = l.recvfrom.head?

theorem LineSame.refl (l : LineD) : LineSame l l := ⟨rfl, rfl, rfl, fun _ => rfl, fun _ => rfl, fun _ _ => rfl⟩

theorem sendIdx_same {b b' : Block} (h : List.Forall₂ LineSame b b') (q : Nat) : sendIdx b' q = sendIdx b q := by
  unfold sendIdx
  suffices H : ∀ n, ((b'.zipIdx n).flatMap fun x => (x.1.sendto.filter fun e => e.1 == (q : Int)).map fun _ => x.2) =
      (b.zipIdx n).flatMap fun x => (x.1.sendto.filter fun e => e.1 == (q : Int)).map fun _ => x.2 from H 0
  induction h with
  | nil => intro n; rfl
  | cons hl _ ih =>
    intro n
    simp only [List.zipIdx_cons, List.flatMap_cons]
    rw [ih, map_const_replicate, map_const_replicate, hl.send]

theorem recvIdx_same {b b' : Block} (h : List.Forall₂ LineSame b b') (q : Nat) : recvIdx b' q = recvIdx b q := by
  unfold recvIdx
  suffices H : ∀ n, (((b'.zipIdx n).filter fun x => x.1.recvfrom.any fun e => e.1 == (q : Int)).map fun x => x.2) =
      ((b.zipIdx n).filter fun x => x.1.recvfrom.any fun e => e.1 == (q : Int)).map fun x => x.2 from H 0
  induction h with
  | nil => intro n; rfl
  | cons hl _ ih =>
    intro n
    simp only [List.zipIdx_cons, List.filter_cons, hl.recv]
    split
    · simp only [List.map_cons, ih]
    · exact ih _

theorem get_same {b b' : Block} (h : List.Forall₂ LineSame b b') (n : Nat) :
    (b[n]? = none ∧ b'[n]? = none) ∨ ∃ l l', b[n]? = some l ∧ b'[n]? = some l' ∧ LineSame l l' := by
  induction h generalizing n with
  | nil => exact .inl ⟨rfl, rfl⟩
  | cons hl _ ih =>
    cases n with
    | zero => exact .inr ⟨_, _, rfl, rfl, hl⟩
    | succ n => exact ih n

theorem fracOf_same {b b' : Block} (h : List.Forall₂ LineSame b b') (n : Nat) : fracOf b' n = fracOf b n := by
  unfold fracOf
  rcases get_same h n with ⟨h1, h2⟩ | ⟨l, l', h1, h2, h3⟩
  · rw [h1, h2]
  · rw [h1, h2, Option.map_some, Option.map_some, h3.frac]

theorem reduces_same {b b' : Block} (h : List.Forall₂ LineSame b b') (node q : Nat) :
    reduces b' node q = reduces b node q := by
  unfold reduces
  rw [recvIdx_same h]
  cases hk : (recvIdx b q).getLast? with
  | none => rfl
  | some k =>
    dsimp only
    have hm := List.mem_of_getLast? hk
    unfold recvIdx at hm
    obtain ⟨x, hx, rfl⟩ := List.mem_map.1 hm
    obtain ⟨hx1, hx2⟩ := List.mem_filter.1 hx
    have hg := List.mk_mem_zipIdx_iff_getElem?.1 hx1
    rcases get_same h x.2 with ⟨h1, h2⟩ | ⟨l, l', h1, h2, h3⟩
    · rw [h1, h2]
    · rw [h1] at hg
      cases Option.some.inj hg
      rw [h1, h2, Option.bind_some, Option.bind_some, h3.head q hx2]

theorem reduceAll_same {V : Type} [Add V] {b b' : Block} (h : List.Forall₂ LineSame b b') (v : Nat → V) :
    reduceAll b' v = reduceAll b v := by
  unfold reduceAll
  suffices H : ∀ n (w : Nat → V), ((b'.zipIdx n).foldl (fun v x => x.1.reducefrom.foldl (fun v r => upd v x.2 (v x.2 + v r)) v) w) =
      (b.zipIdx n).foldl (fun v x => x.1.reducefrom.foldl (fun v r => upd v x.2 (v x.2 + v r)) v) w from H 0 v
  induction h with
  | nil => intro n w; rfl
  | cons hl _ ih =>
    intro n w
    simp only [List.zipIdx_cons, List.foldl_cons, hl.red]
    exact ih _ _

theorem copyReduceAll_same {V : Type} [Add V] {b b' : Block} (h : List.Forall₂ LineSame b b') (v : Nat → V) :
    copyReduceAll b' v = copyReduceAll b v := by
  unfold copyReduceAll
  suffices H : ∀ n (w : Nat → V), ((b'.zipIdx n).foldl (fun v x =>
      match x.1.copyreducefrom with
      | [] => v
      | r0 :: rs => rs.foldl (fun v r => upd v x.2 (v x.2 + v r)) (upd v x.2 (v r0))) w) =
      (b.zipIdx n).foldl (fun v x =>
      match x.1.copyreducefrom with
      | [] => v
      | r0 :: rs => rs.foldl (fun v r => upd v x.2 (v x.2 + v r)) (upd v x.2 (v r0))) w from H 0 v
  induction h with
  | nil => intro n w; rfl
  | cons hl _ ih =>
    intro n w
    simp only [List.zipIdx_cons, List.foldl_cons, hl.copy]
    exact ih _ _

theorem reduceOk_same {b b' : Block} (h : List.Forall₂ LineSame b b') : reduceOk b' = reduceOk b := by
  unfold reduceOk
  have hf : fracOf b' = fracOf b := funext fun n => fracOf_same h n
  rw [hf]
  generalize fracOf b = F
  suffices H : ∀ n, ((b'.zipIdx n).all fun x => (x.1.reducefrom ++ x.1.copyreducefrom).all fun r => r != x.2 && F r == some x.1.frac) =
      ((b.zipIdx n).all fun x => (x.1.reducefrom ++ x.1.copyreducefrom).all fun r => r != x.2 && F r == some x.1.frac) from H 0
  clear hf
  induction h with
  | nil => intro n; rfl
  | cons hl _ ih =>
    intro n
    simp only [List.zipIdx_cons, List.all_cons, hl.red, hl.copy, hl.frac]
    rw [ih]

theorem nodeStep_same {V : Type} [Add V] (N : Nat) (bs bs' : Nat → Block) (h : ∀ t, t < N → List.Forall₂ LineSame (bs t) (bs' t))
    (s : Nat → Nat → V) (t : Nat) (ht : t < N) : nodeStep N bs' s t = nodeStep N bs s t := by
  have hm : ∀ q, q < N → message (bs' q) (s q) t = message (bs q) (s q) t := by
    intro q hq
    unfold message
    rw [sendIdx_same (h q hq)]
    apply List.map_congr_left
    intro n _
    rw [fracOf_same (h q hq)]
  have hd : ∀ q msg (v : Nat → V), deliver (bs' t) t q msg v = deliver (bs t) t q msg v := by
    intro q msg v
    have hf : fracOf (bs' t) = fracOf (bs t) := funext fun n => fracOf_same (h t ht) n
    unfold deliver
    rw [recvIdx_same (h t ht), hf, reduces_same (h t ht)]
  have hr : recvAll N (bs' t) t (fun q => message (bs' q) (s q) t) (s t) =
      recvAll N (bs t) t (fun q => message (bs q) (s q) t) (s t) := by
    unfold recvAll
    have : ∀ (qs : List Nat) (v : Nat → V), (∀ q, q ∈ qs → q < N) →
        qs.foldlM (fun v q => if q = t then some v else deliver (bs' t) t q (message (bs' q) (s q) t) v) v =
        qs.foldlM (fun v q => if q = t then some v else deliver (bs t) t q (message (bs q) (s q) t) v) v := by
      intro qs
      induction qs with
      | nil => intro v _; rfl
      | cons q qs ih =>
        intro v hq
        rw [List.foldlM_cons, List.foldlM_cons, hm q (hq q List.mem_cons_self), hd]
        congr 1
        funext w
        exact ih w fun q' h' => hq q' (List.mem_cons_of_mem _ h')
    apply this
    intro q hq
    obtain ⟨o, _, rfl⟩ := List.mem_map.1 hq
    exact Nat.mod_lt _ (by omega)
  unfold nodeStep
  rw [reduceOk_same (h t ht), hr]
  congr 1
  congr 1
  funext v
  rw [reduceAll_same (h t ht), copyReduceAll_same (h t ht)]

/-- Blocks with the same effect give the same execution. -/
theorem Run.same {V : Type} [Add V] {N : Nat} {p p' : Nat → List Block} {s s' : Nat → Nat → V} (h : Run N p s s')
    (hp : ∀ t, t < N → List.Forall₂ (List.Forall₂ LineSame) (p t) (p' t)) : Run N p' s s' := by
  induction h generalizing p' with
  | done hd =>
    apply Run.done
    intro t ht
    have := hp t ht
    rw [hd t ht] at this
    exact List.forall₂_nil_left_iff.1 this
  | step hd tl s1 h1 h2 _ ih =>
    have hx : ∀ t, t < N → ∃ b bs, p' t = b :: bs ∧ List.Forall₂ LineSame (hd t) b ∧
        List.Forall₂ (List.Forall₂ LineSame) (tl t) bs := by
      intro t ht
      have := hp t ht
      rw [h1 t ht] at this
      cases hpt : p' t with
      | nil => rw [hpt] at this; cases this
      | cons b bs =>
        rw [hpt] at this
        cases this with
        | cons ha hb => exact ⟨b, bs, rfl, ha, hb⟩
    refine Run.step (fun t => (p' t).head?.getD []) (fun t => (p' t).tail) s1 ?_ ?_ (ih ?_)
    · intro t ht
      obtain ⟨b, bs, e, _, _⟩ := hx t ht
      rw [e]; rfl
    · intro t ht
      rw [← h2 t ht]
      apply nodeStep_same N hd _ _ _ t ht
      intro q hq
      obtain ⟨b, bs, e, ha, _⟩ := hx q hq
      rw [e]; exact ha
    · intro t ht
      obtain ⟨b, bs, e, _, hb⟩ := hx t ht
      rw [e]; exact hb

theorem clear_same (b : Block) (h : ∀ l, l ∈ b → Plain l) : List.Forall₂ LineSame b (clear b) := by
  unfold clear
  rw [List.forall₂_map_right_iff, List.forall₂_same]
  intro l hl
  rcases h l hl with hq | hi | ho
  · simp only [hq.isOut, hq.isIn, Bool.false_eq_true, if_false]
    exact LineSame.refl l
  · obtain ⟨x, hx⟩ := hi.2
    simp only [hi.isOut, hi.isIn, Bool.false_eq_true, if_false, if_true]
    refine ⟨rfl, rfl, rfl, fun _ => rfl, fun q => ?_, fun q hq => ?_⟩
    · rw [hx]
      simp only [List.any_nil, List.any_cons, Bool.or_false]
      symm
      rw [beq_eq_false_iff_ne]
      omega
    · rw [hx] at hq
      simp only [List.any_cons, List.any_nil, Bool.or_false, beq_iff_eq] at hq
      omega
  · obtain ⟨x, hx⟩ := ho.2
    simp only [ho.isOut, ho.isIn, Bool.false_eq_true, if_false, if_true]
    refine ⟨rfl, rfl, rfl, fun q => ?_, fun _ => rfl, fun _ _ => rfl⟩
    rw [hx]
    have : ((-1 : Int) == (q : Int)) = false := by rw [beq_eq_false_iff_ne]; omega
    simp [this]

/-! ## The loop of `chancel_copyin_copyout` -/

theorem cancelLoop_chain (bs : List Block) (h : List.IsChain (fun a b => agree a b = true) bs) :
    cancelLoop bs = (bs.dropLast.map clear ++ bs.getLast?.toList, true) := by
  induction bs with
  | nil => simp [cancelLoop]
  | cons a bs ih =>
    cases bs with
    | nil => simp [cancelLoop]
    | cons b rest =>
      rw [List.isChain_cons_cons] at h
      rw [cancelLoop, if_pos h.1, ih h.2]
      simp [List.getLast?_cons_cons]

/-- All lines are copied in, with the given numbers. -/
structure InBlock (b : Block) (fs : List Nat) : Prop where
  line : ∀ l, l ∈ b → InLine l
  frac : b.map LineD.frac = fs

/-- All lines are copied out, with the given numbers. -/
structure OutBlock (b : Block) (fs : List Nat) : Prop where
  line : ∀ l, l ∈ b → OutLine l
  frac : b.map LineD.frac = fs

theorem agree_inout {a b : Block} {fs : List Nat} (ha : OutBlock a fs) (hb : InBlock b fs) : agree a b = true := by
  unfold agree
  rw [List.all_eq_true]
  intro x hx
  have h1 := ha.line x.1 (List.of_mem_zip hx).1
  have h2 := hb.line x.2 (List.of_mem_zip hx).2
  rw [h1.isOut, h2.isIn]
  obtain ⟨n, hn⟩ := List.mem_iff_getElem?.1 hx
  rw [List.getElem?_zip_eq_some] at hn
  have e1 := congrArg (fun l => l[n]?) ha.frac
  have e2 := congrArg (fun l => l[n]?) hb.frac
  simp only [List.getElem?_map, hn.1, hn.2, Option.map_some] at e1 e2
  rw [← e2] at e1
  simp [Option.some.inj e1]

theorem agree_quiet {a b : Block} (ha : ∀ l, l ∈ a → isOut l = false) (hb : ∀ l, l ∈ b → isIn l = false) :
    agree a b = true := by
  unfold agree
  rw [List.all_eq_true]
  intro x hx
  rw [ha x.1 (List.of_mem_zip hx).1, hb x.2 (List.of_mem_zip hx).2]
  rfl

/-- Blocks between a copy-in and a copy-out, all of whose copies but the first and last ones cancel. -/
structure Link (bs : List Block) (fin fout : List Nat) : Prop where
  chain : List.IsChain (fun a b => agree a b = true) bs
  first : ∃ b, bs.head? = some b ∧ InBlock b fin
  last : ∃ b, bs.getLast? = some b ∧ OutBlock b fout
  plain : ∀ b, b ∈ bs → ∀ l, l ∈ b → Plain l

theorem Link.append {a b : List Block} {f1 f2 f3 : List Nat} (ha : Link a f1 f2) (hb : Link b f2 f3) :
    Link (a ++ b) f1 f3 := by
  obtain ⟨x, hx, hx'⟩ := ha.first
  obtain ⟨y, hy, hy'⟩ := ha.last
  obtain ⟨z, hz, hz'⟩ := hb.first
  obtain ⟨w, hw, hw'⟩ := hb.last
  refine ⟨?_, ⟨x, ?_, hx'⟩, ⟨w, ?_, hw'⟩, ?_⟩
  · rw [List.isChain_append]
    refine ⟨ha.chain, hb.chain, ?_⟩
    intro u hu v hv
    rw [hy] at hu
    rw [hz] at hv
    cases hu
    cases hv
    exact agree_inout hy' hz'
  · rw [List.head?_append, hx]; rfl
  · rw [List.getLast?_append, hw]; rfl
  · intro c hc
    rcases List.mem_append.1 hc with hc | hc
    · exact ha.plain c hc
    · exact hb.plain c hc

theorem isChain_of_all {α : Type} {R : α → α → Prop} (l : List α) (P Q : α → Prop) (hPQ : ∀ a b, P a → Q b → R a b)
    (hP : ∀ a, a ∈ l.dropLast → P a) (hQ : ∀ a, a ∈ l.tail → Q a) : List.IsChain R l := by
  induction l with
  | nil => exact .nil
  | cons a l ih =>
    cases l with
    | nil => exact .singleton a
    | cons b l =>
      rw [List.isChain_cons_cons]
      refine ⟨hPQ a b (hP a (by simp)) (hQ b (by simp)), ih ?_ ?_⟩
      · intro x hx
        exact hP x (by rw [List.dropLast_cons_of_ne_nil (by simp)]; exact List.mem_cons_of_mem _ hx)
      · intro x hx
        exact hQ x (List.mem_of_mem_tail hx)

/-- A part: a copy-in, steps, a copy-out. -/
theorem Link.part (b c : Block) (mid : List Block) (fin fout : List Nat) (hb : InBlock b fin) (hc : OutBlock c fout)
    (hm : ∀ x, x ∈ mid → ∀ l, l ∈ x → Quiet l) : Link (b :: (mid ++ [c])) fin fout := by
  refine ⟨?_, ⟨b, rfl, hb⟩, ⟨c, ?_, hc⟩, ?_⟩
  · apply isChain_of_all _ (fun a => ∀ l, l ∈ a → isOut l = false) (fun a => ∀ l, l ∈ a → isIn l = false)
      fun _ _ => agree_quiet
    · intro a ha
      rw [← List.cons_append, List.dropLast_concat] at ha
      rcases List.mem_cons.1 ha with rfl | ha
      · exact fun l hl => (hb.line l hl).isOut
      · exact fun l hl => (hm a ha l hl).isOut
    · intro a ha
      rw [List.tail_cons] at ha
      rcases List.mem_append.1 ha with ha | ha
      · exact fun l hl => (hm a ha l hl).isIn
      · rw [List.mem_singleton.1 ha]
        exact fun l hl => (hc.line l hl).isIn
  · rw [← List.cons_append, List.getLast?_concat]
  · intro x hx l hl
    rcases List.mem_cons.1 hx with rfl | hx
    · exact .inr (.inl (hb.line l hl))
    · rcases List.mem_append.1 hx with hx | hx
      · exact .inl (hm x hx l hl)
      · rw [List.mem_singleton.1 hx] at hl
        exact .inr (.inr (hc.line l hl))

/-! ## The steps of a group -/

theorem lift_quiet (N : Nat) (sizes : List Nat) (t : Nat) (l : LineD) (k : Nat) (h : Quiet l) :
    Quiet (liftLine N sizes t l k) := by
  have hp : ∀ e : Int × Int, 0 ≤ e.1 → 0 ≤ (partner N sizes t e).1 := by
    intro e he
    unfold partner
    rw [if_pos he]
    exact Int.natCast_nonneg _
  constructor
  · intro e he
    obtain ⟨e', he', rfl⟩ := List.mem_map.1 he
    obtain ⟨e'', he'', rfl⟩ := List.mem_map.1 he'
    exact hp _ (h.1 e'' he'')
  · intro e he
    obtain ⟨e', he', rfl⟩ := List.mem_map.1 he
    obtain ⟨e'', he'', rfl⟩ := List.mem_map.1 he'
    exact hp _ (h.2 e'' he'')

theorem lift_in (N : Nat) (sizes : List Nat) (t : Nat) (l : LineD) (k : Nat) (h : InLine l) :
    InLine (liftLine N sizes t l k) := by
  obtain ⟨h1, x, hx⟩ := h
  refine ⟨?_, ?_⟩
  · unfold liftLine; rw [h1]; rfl
  · unfold liftLine
    rw [hx]
    exact ⟨_, rfl⟩

theorem lift_out (N : Nat) (sizes : List Nat) (t : Nat) (l : LineD) (k : Nat) (h : OutLine l) :
    OutLine (liftLine N sizes t l k) := by
  obtain ⟨h1, x, hx⟩ := h
  refine ⟨?_, ?_⟩
  · unfold liftLine; rw [h1]; rfl
  · unfold liftLine
    rw [hx]
    exact ⟨_, rfl⟩

theorem expand_map (N : Nat) (sizes : List Nat) (h : sizes ≠ []) (t : Nat) :
    (List.range sizes.prod).map (numAt N sizes t) = expandFrac N sizes t := by
  apply List.ext_getElem?
  intro n
  by_cases hn : n < sizes.prod
  · rw [List.getElem?_map, List.getElem?_range hn, expand_some N sizes h t n hn]; rfl
  · rw [List.getElem?_eq_none (by simp; omega), List.getElem?_eq_none (by rw [expand_length N sizes h]; omega)]

theorem lift_frac (N g : Nat) (gs : List Nat) (hgs : gs ≠ []) (t : Nat) (b : Block) :
    (liftBlock N (g :: gs) t b).map LineD.frac = b.flatMap fun l => expandFrac N gs (globalOf N (g :: gs) t l.frac) := by
  unfold liftBlock
  rw [List.map_flatMap]
  congr 1
  funext l
  rw [List.map_map, ← expand_map N gs hgs]
  rfl

theorem expand_cons (N g : Nat) (gs : List Nat) (hgs : gs ≠ []) (t : Nat) :
    expandFrac N (g :: gs) t = (List.range g).flatMap fun i =>
      expandFrac N gs (globalOf N (g :: gs) t ((i + localOf N (g :: gs) t) % g)) := by
  cases gs with
  | nil => exact absurd rfl hgs
  | cons g' gs => rfl

theorem lift_first (N g : Nat) (gs : List Nat) (hgs : gs ≠ []) (t : Nat) :
    InBlock (liftBlock N (g :: gs) t (CyclicReduce.firstBlock g (localOf N (g :: gs) t))) (expandFrac N (g :: gs) t) := by
  constructor
  · intro l hl
    obtain ⟨l', k, h1, _, rfl⟩ := mem_liftBlock hl
    apply lift_in
    obtain ⟨n, _, rfl⟩ := mem_mk h1
    exact ⟨rfl, _, rfl⟩
  · rw [lift_frac N g gs hgs, expand_cons N g gs hgs]
    unfold CyclicReduce.firstBlock Recursive.mk
    rw [List.flatMap_map]

theorem lift_last (N g : Nat) (gs : List Nat) (hgs : gs ≠ []) (hg : 0 < g) (t : Nat) :
    OutBlock (liftBlock N (g :: gs) t (CyclicReduce.lastBlock 1 fun line => (line + localOf N (g :: gs) t) % g))
      (expandFrac N gs t) := by
  constructor
  · intro l hl
    obtain ⟨l', k, h1, _, rfl⟩ := mem_liftBlock hl
    apply lift_out
    obtain ⟨n, hn, rfl⟩ := mem_mk h1
    have : n = 0 := by omega
    subst this
    exact ⟨rfl, _, rfl⟩
  · rw [lift_frac N g gs hgs]
    unfold CyclicReduce.lastBlock Recursive.mk
    have hl : localOf N (g :: gs) t < g := Nat.mod_lt _ hg
    simp only [List.range_one, List.map_cons, List.map_nil, List.flatMap_cons, List.flatMap_nil, List.append_nil,
      Nat.zero_add, Nat.mod_eq_of_lt hl, global_self]

theorem lift_gatherFirst (N g : Nat) (gs : List Nat) (hgs : gs ≠ []) (t : Nat) :
    InBlock (liftBlock N (g :: gs) t (Cyclic.gatherFirst (localOf N (g :: gs) t))) (expandFrac N gs t) := by
  constructor
  · intro l hl
    obtain ⟨l', k, h1, _, rfl⟩ := mem_liftBlock hl
    apply lift_in
    obtain ⟨n, _, rfl⟩ := mem_mk h1
    exact ⟨rfl, _, rfl⟩
  · rw [lift_frac N g gs hgs]
    unfold Cyclic.gatherFirst Recursive.mk
    simp only [List.range_one, List.map_cons, List.map_nil, List.flatMap_cons, List.flatMap_nil, List.append_nil,
      global_self]

theorem lift_gatherLast (N g : Nat) (gs : List Nat) (hgs : gs ≠ []) (t : Nat) :
    OutBlock (liftBlock N (g :: gs) t (Cyclic.gatherLast g g (localOf N (g :: gs) t))) (expandFrac N (g :: gs) t) := by
  constructor
  · intro l hl
    obtain ⟨l', k, h1, _, rfl⟩ := mem_liftBlock hl
    apply lift_out
    obtain ⟨n, _, rfl⟩ := mem_mk h1
    exact ⟨rfl, _, rfl⟩
  · rw [lift_frac N g gs hgs, expand_cons N g gs hgs]
    unfold Cyclic.gatherLast Recursive.mk
    rw [List.flatMap_map]
    simp only [Nat.add_comm]

theorem scatter_quiet (g l : Nat) (fr : Nat → Nat) (hg : 0 < g) (ps : List Nat) (S : Nat) (hS : S ≤ g)
    (b : Block) (hb : b ∈ CyclicReduce.scatterSteps g l fr S S ps) (x : LineD) (hx : x ∈ b) : Quiet x := by
  induction ps generalizing S with
  | nil => cases hb
  | cons p ps ih =>
    rw [CyclicReduce.scatterSteps] at hb
    rcases List.mem_cons.1 hb with rfl | hb
    · obtain ⟨n, hn, rfl⟩ := mem_mk hx
      dsimp only
      split
      · constructor
        · intro e he
          dsimp only at he
          split at he
          · rw [List.mem_singleton.1 he]
            exact Int.natCast_nonneg _
          · cases he
        · intro e he
          cases he
      · constructor
        · intro e he
          cases he
        · intro e he
          rw [List.mem_singleton.1 he]
          dsimp only
          apply Int.tmod_nonneg
          have h1 : CyclicReduce.chunk S p * ((n - S + CyclicReduce.chunk S p) / CyclicReduce.chunk S p) ≤
              n - S + CyclicReduce.chunk S p := Nat.mul_div_le _ _
          have h2 : CyclicReduce.chunk S p ≤ S ∨ S = 0 := by
            by_cases c : S = 0
            · exact .inr c
            · left
              unfold CyclicReduce.chunk
              have := Nat.div_le_self (S - 1) (p + 1)
              omega
          rw [← Int.natCast_mul]
          generalize CyclicReduce.chunk S p * ((n - S + CyclicReduce.chunk S p) / CyclicReduce.chunk S p) = y at h1
          generalize CyclicReduce.chunk S p = j at *
          omega
    · rcases List.mem_cons.1 hb with rfl | hb
      · obtain ⟨n, _, rfl⟩ := mem_mk hx
        exact ⟨fun e he => (by cases he), fun e he => (by cases he)⟩
      · refine ih (CyclicReduce.chunk S p) ?_ hb
        unfold CyclicReduce.chunk
        have := Nat.div_le_self (S - 1) (p + 1)
        omega

theorem gather_quiet (g gb p l n : Nat) (hg : 0 < g) (hp : 0 < p) (hfit : gb < g → Cyclic.Tight g gb p) (x : LineD)
    (hx : x ∈ Cyclic.gatherBlock g gb (min gb g) p l) : Quiet x := by
  obtain ⟨n, hn, rfl⟩ := mem_mk hx
  constructor
  · intro e he
    dsimp only at he
    unfold Cyclic.gatherSend at he
    split at he
    · rename_i hc
      obtain ⟨i, hi, rfl⟩ := List.mem_map.1 he
      dsimp only
      apply Int.tmod_nonneg
      have hi := List.mem_range.1 hi
      have hgg : gb < g := by
        have := Nat.min_le_right (min gb g * (p + 1)) g
        omega
      rw [Nat.min_eq_left (by omega : gb ≤ g)] at hi hc
      have h2 := (hfit hgg).reach (Nat.min_le_right _ _) hc hi
      have : ((i : Int) + 1) * gb = ((gb * (i + 1) : Nat) : Int) := by push_cast; ring
      rw [this]
      omega
    · cases he
  · intro e he
    dsimp only at he
    unfold Cyclic.gatherRecv at he
    split at he
    · rw [List.mem_singleton.1 he]
      exact Int.natCast_nonneg _
    · cases he

theorem gatherSteps_quiet (g l : Nat) (hg : 0 < g) (ps : List Nat) (hp : ∀ p, p ∈ ps → 0 < p) (gb : Nat)
    (hgb : 0 < gb) (hfit : Cyclic.Suits g gb ps) (b : Block) (hb : b ∈ (Cyclic.gatherSteps g l gb (min gb g) ps).1)
    (x : LineD) (hx : x ∈ b) : Quiet x := by
  induction ps generalizing gb with
  | nil => cases hb
  | cons p ps ih =>
    obtain ⟨hf1, hf2⟩ := hfit
    have hmin : min (min gb g * (p + 1)) g = min (gb * (p + 1)) g := by
      by_cases c : gb < g
      · rw [Nat.min_eq_left (by omega : gb ≤ g)]
      · rw [Nat.min_eq_right (by omega : g ≤ gb)]
        have h1 : g * 1 ≤ g * (p + 1) := Nat.mul_le_mul_left g (by omega)
        have h2 : gb * 1 ≤ gb * (p + 1) := Nat.mul_le_mul_left gb (by omega)
        omega
    rw [Cyclic.gatherSteps] at hb
    simp only [hmin] at hb
    rcases List.mem_cons.1 hb with rfl | hb
    · exact gather_quiet g gb p l 0 hg (hp p List.mem_cons_self) hf1 x hx
    · exact ih (fun p h => hp p (List.mem_cons_of_mem _ h)) (gb * (p + 1)) (Nat.mul_pos hgb (by omega)) hf2 hb

theorem down_link (N g : Nat) (gs negs : List Nat) (hgs : gs ≠ []) (hg : 0 < g) (t : Nat) :
    Link ((CyclicReduce.firstBlock g (localOf N (g :: gs) t) :: downTail g negs (localOf N (g :: gs) t)).map
      (liftBlock N (g :: gs) t)) (expandFrac N (g :: gs) t) (expandFrac N gs t) := by
  unfold downTail
  rw [List.map_cons, List.map_append]
  apply Link.part _ _ _ _ _ (lift_first N g gs hgs t) (lift_last N g gs hgs hg t)
  intro b hb l hl
  obtain ⟨b', hb', rfl⟩ := List.mem_map.1 hb
  obtain ⟨l', k, h1, _, rfl⟩ := mem_liftBlock hl
  exact lift_quiet _ _ _ _ _ (scatter_quiet g _ _ hg negs g (Nat.le_refl g) b' hb' l' h1)

theorem up_link (N : Nat) (u : Nat × List Nat) (gs : List Nat) (hgs : gs ≠ []) (hu : UpOk u) (t : Nat) :
    Link ((Cyclic.gatherFirst (localOf N (u.1 :: gs) t) :: upTail u.1 u.2 (localOf N (u.1 :: gs) t)).map
      (liftBlock N (u.1 :: gs) t)) (expandFrac N gs t) (expandFrac N (u.1 :: gs) t) := by
  unfold upTail
  rw [List.map_cons, List.map_append]
  apply Link.part _ _ _ _ _ (lift_gatherFirst N u.1 gs hgs t) (lift_gatherLast N u.1 gs hgs t)
  intro b hb l hl
  obtain ⟨b', hb', rfl⟩ := List.mem_map.1 hb
  obtain ⟨l', k, h1, _, rfl⟩ := mem_liftBlock hl
  have hs := hu.size
  have hmin : min 1 u.1 = 1 := by omega
  exact lift_quiet _ _ _ _ _ (gatherSteps_quiet u.1 _ (by omega) u.2 hu.pos 1 (by omega) hu.fit b'
    (by rw [hmin]; exact hb') l' h1)

theorem downs_link (N g0 : Nat) (d : Nat × List Nat) (ds : List (Nat × List Nat)) (hds : ∀ x, x ∈ d :: ds → DownOk x) (t : Nat) :
    Link (downBlocks N g0 (d :: ds) t) (expandFrac N (downSizes g0 (d :: ds)) t) (expandFrac N [g0] t) := by
  have hd := hds d List.mem_cons_self
  have h1 := down_link N d.1 (downSizes g0 ds) d.2 (downSizes_ne g0 ds) (by have := hd.size; omega) t
  induction ds generalizing d with
  | nil => rw [downBlocks, downBlocks, List.append_nil]; exact h1
  | cons d' ds ih =>
    rw [downBlocks]
    exact h1.append (ih d' (fun x hx => hds x (List.mem_cons_of_mem _ hx)) (hds d' (by simp))
      (down_link N d'.1 (downSizes g0 ds) d'.2 (downSizes_ne g0 ds) (by have := (hds d' (by simp)).size; omega) t))

theorem ups_link (N : Nat) (acc : List Nat) (hacc : acc ≠ []) (u : Nat × List Nat) (us : List (Nat × List Nat))
    (hus : ∀ x, x ∈ u :: us → UpOk x) (t : Nat) :
    Link (upBlocks N acc (u :: us) t) (expandFrac N acc t) (expandFrac N (upSizes acc (u :: us)) t) := by
  have h1 := up_link N u acc hacc (hus u List.mem_cons_self) t
  induction us generalizing u acc with
  | nil => rw [upBlocks, upBlocks, List.append_nil]; exact h1
  | cons u' us ih =>
    rw [upBlocks, upSizes_cons]
    exact h1.append (ih (u.1 :: acc) (by simp) u' (fun x hx => hus x (List.mem_cons_of_mem _ hx))
      (up_link N u' (u.1 :: acc) (by simp) (hus u' (by simp)) t))

/-! ## Copy-out -/

/-- If all lines that are copied out with number `f` hold the value `x` and there is one, the result is `x`. -/
theorem copyOut_const {V : Type} (b : Block) (v : Nat → V) (f : Nat) (x : V)
    (hall : ∀ (n : Nat) (l : LineD), b[n]? = some l → (l.sendto.any fun e => e.1 == -1) = true → l.frac = f → v n = x)
    (hex : ∃ (n : Nat) (l : LineD), b[n]? = some l ∧ (l.sendto.any fun e => e.1 == -1) = true ∧ l.frac = f) : copyOut b v f = some x := by
  unfold copyOut
  have key : ∀ (xs : List (LineD × Nat)) (o : Nat → Option V),
      (∀ y, y ∈ xs → (y.1.sendto.any fun e => e.1 == -1) = true → y.1.frac = f → v y.2 = x) →
      (o f = some x ∨ ∃ y, y ∈ xs ∧ (y.1.sendto.any fun e => e.1 == -1) = true ∧ y.1.frac = f) →
      (xs.foldl (fun out x => if x.1.sendto.any fun e => e.1 == -1 then upd out x.1.frac (some (v x.2)) else out) o) f =
        some x := by
    intro xs
    induction xs with
    | nil =>
      intro o _ h
      rcases h with h | ⟨y, hy, _⟩
      · exact h
      · cases hy
    | cons y ys ih =>
      intro o h1 h2
      rw [List.foldl_cons]
      apply ih _ fun z hz => h1 z (List.mem_cons_of_mem _ hz)
      by_cases c : (y.1.sendto.any fun e => e.1 == -1) = true
      · rw [if_pos c]
        by_cases c2 : y.1.frac = f
        · left
          unfold upd
          rw [if_pos c2.symm, h1 y List.mem_cons_self c c2]
        · rcases h2 with h2 | ⟨z, hz, h3, h4⟩
          · left
            unfold upd
            rw [if_neg fun e => c2 e.symm]
            exact h2
          · rcases List.mem_cons.1 hz with rfl | hz
            · exact absurd h4 c2
            · exact .inr ⟨z, hz, h3, h4⟩
      · rw [if_neg c]
        rcases h2 with h2 | ⟨z, hz, h3, h4⟩
        · exact .inl h2
        · rcases List.mem_cons.1 hz with rfl | hz
          · exact absurd h3 c
          · exact .inr ⟨z, hz, h3, h4⟩
  apply key
  · intro y hy
    exact hall y.2 y.1 (List.mk_mem_zipIdx_iff_getElem?.1 hy)
  · obtain ⟨n, l, h1, h2, h3⟩ := hex
    exact .inr ⟨(l, n), List.mk_mem_zipIdx_iff_getElem?.2 h1, h2, h3⟩

end ExtMpi.Groups
