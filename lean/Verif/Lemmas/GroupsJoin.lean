import Verif.Lemmas.GroupsMiddle
import Verif.Lemmas.Forward
/-! The blocks between the middle group and the gathers. -/
namespace ExtMpi.Groups
open Schedule PortChoice

/-! ## Insertion of lines -/

theorem insert_same (a b b' : Block) (h : List.Forall₂ LineSame b b') :
    List.Forall₂ LineSame (insertLines a b) (insertLines a b') := by
  unfold insertLines
  apply List.rel_append
  · rw [List.forall₂_same]
    exact fun l _ => LineSame.refl l
  · rw [List.forall₂_map_left_iff, List.forall₂_map_right_iff]
    apply h.imp
    intro l l' hl
    refine ⟨hl.frac, ?_, ?_, hl.send, ?_, ?_⟩
    · dsimp only; rw [hl.red]
    · dsimp only; rw [hl.copy]
    · intro q
      have := hl.recv q
      dsimp only
      rw [List.any_map, List.any_map]
      exact this
    · intro q hq
      dsimp only at hq ⊢
      rw [List.any_map] at hq
      rw [List.head?_map, List.head?_map, hl.head q hq]

theorem clear_any (b : Block) : (clear b).any isOut = false := by
  rw [List.any_eq_false]
  intro l hl
  obtain ⟨l', _, rfl⟩ := List.mem_map.1 hl
  by_cases c : isOut l' = true
  · rw [if_pos c]
    simp [isOut]
  · rw [if_neg c]
    exact c

theorem addLines_skip (xs : List Block) (hx : ∀ x, x ∈ xs → x.any isOut = false) (a b : Block) (rest : List Block)
    (ha : a.any isOut = true) :
    addLines (xs ++ a :: b :: rest) =
      some (xs ++ connectOut a b :: (insertLines a b).map (connectIn a) :: rest.map (insertLines a)) := by
  induction xs with
  | nil => rw [List.nil_append, addLines, if_pos ha]; rfl
  | cons x xs ih =>
    have h1 := hx x List.mem_cons_self
    have h2 := ih fun y hy => hx y (List.mem_cons_of_mem _ hy)
    cases xs with
    | nil =>
      rw [List.nil_append] at h2
      rw [List.cons_append, List.nil_append, addLines, if_neg (by rw [h1]; simp), h2]
      rfl
    | cons y ys =>
      rw [List.cons_append] at h2
      rw [List.cons_append, List.cons_append, addLines, if_neg (by rw [h1]; simp), h2]
      rfl

theorem cancel_break (xs : List Block) (a b : Block) (rest : List Block)
    (h : List.IsChain (fun a b => agree a b = true) (xs ++ [a])) (hab : ¬agree a b = true) :
    cancelLoop (xs ++ a :: b :: rest) = (xs.map clear ++ a :: b :: (cancelLoop rest).1, false) := by
  induction xs with
  | nil => rw [List.nil_append, cancelLoop, if_neg hab]; rfl
  | cons x xs ih =>
    have h2 := ih h.tail
    cases xs with
    | nil =>
      rw [List.nil_append] at h2
      rw [List.cons_append, List.nil_append] at h
      rw [List.isChain_cons_cons] at h
      rw [List.cons_append, List.nil_append, cancelLoop, if_pos h.1, h2]
      rfl
    | cons y ys =>
      rw [List.cons_append] at h2
      rw [List.cons_append, List.cons_append, List.isChain_cons_cons] at h
      rw [List.cons_append, List.cons_append, cancelLoop, if_pos h.1, h2]
      rfl

theorem connectOut_same (a b : Block) (ha : ∀ l, l ∈ a → EndLine l) : List.Forall₂ LineSame a (connectOut a b) := by
  have e : a = a.zipIdx.map Prod.fst := by rw [List.zipIdx_map_fst]
  unfold connectOut
  conv => lhs; rw [e]
  rw [List.forall₂_map_left_iff, List.forall₂_map_right_iff, List.forall₂_same]
  intro x hx
  split
  · rename_i hc
    have ho : isOut x.1 = true := by
      rw [Bool.and_eq_true, Bool.and_eq_true] at hc
      exact hc.1.1
    obtain ⟨y, hy⟩ := ((ha x.1 (mem_of_zipIdx hx)).out.2 ho).2
    refine ⟨rfl, rfl, rfl, fun q => ?_, fun _ => rfl, fun _ _ => rfl⟩
    rw [hy]
    have : ((-1 : Int) == (q : Int)) = false := by rw [beq_eq_false_iff_ne]; omega
    simp [this]
  · exact LineSame.refl _

/-! ## A block without messages -/

/-- A line without messages and reductions. -/
structure Still (l : LineD) : Prop where
  send : ∀ e, e ∈ l.sendto → e.1 < 0
  recv : ∀ e, e ∈ l.recvfrom → e.1 < 0
  red : l.reducefrom = []

theorem still_step {V : Type} [Add V] (N : Nat) (bs : Nat → Block) (s : Nat → Nat → V)
    (h : ∀ t, t < N → ∀ l, l ∈ bs t → Still l) (t : Nat) (ht : t < N) (hok : reduceOk (bs t) = true) :
    nodeStep N bs s t = some (copyReduceAll (bs t) (s t)) := by
  rw [nodeStep_ok _ _ _ _ hok]
  unfold recvAll
  rw [foldlM_some]
  · rw [Option.map_some]
    congr 2
    unfold reduceAll
    have hid : ∀ (xs : List (LineD × Nat)) (w : Nat → V), (∀ x, x ∈ xs → x.1.reducefrom = []) →
        xs.foldl (fun v x => x.1.reducefrom.foldl (fun v r => upd v x.2 (v x.2 + v r)) v) w = w := by
      intro xs
      induction xs with
      | nil => intro w _; rfl
      | cons x xs ih =>
        intro w hx
        rw [List.foldl_cons, hx x List.mem_cons_self]
        exact ih w fun y hy => hx y (List.mem_cons_of_mem _ hy)
    exact hid _ _ fun x hx => (h t ht x.1 (mem_of_zipIdx hx)).red
  · intro q hq
    by_cases hn : q = t
    · rw [if_pos hn]
    · rw [if_neg hn]
      have hqN : q < N := by
        obtain ⟨o, _, rfl⟩ := List.mem_map.1 hq
        exact Nat.mod_lt _ (by omega)
      have hm : message (bs q) (s q) t = [] := by
        unfold message
        rw [sendIdx_nil _ _ fun l hl => (h q hqN l hl).send]
        rfl
      have hr : recvIdx (bs t) q = [] := by
        unfold recvIdx
        rw [List.map_eq_nil_iff, List.filter_eq_nil_iff]
        intro x hx
        rw [List.any_eq_true]
        rintro ⟨e, he, h2⟩
        have := (h t ht x.1 (mem_of_zipIdx hx)).recv e he
        rw [beq_iff_eq] at h2
        omega
      simp only [hm]
      unfold deliver
      rw [hr]
      rfl

/-! ## The copies -/

/-- The block with the copies, on one node. -/
structure CopyBlock (a b : Block) (A C : Block) (fs : List Nat) : Prop where
  still : ∀ l, l ∈ C → Still l
  ok : reduceOk C = true
  eff : ∀ {V : Type} [Add V] (v : Nat → V) (T : Nat → V),
    (∀ (n : Nat) (x : LineD), a[n]? = some x → isOut x = true → v n = T x.frac) →
    ∀ k f, fs[k]? = some f → copyReduceAll C v (A.length + k) = T f

theorem copy_agree (a b : Block) (fs : List Nat) (hb : InBlock b fs) (hbi : ∀ l, l ∈ b → Inert l) (hnd : fs.Nodup)
    (hout : ∀ f, f ∈ fs → ∃ (n : Nat) (x : LineD), a[n]? = some x ∧ isOut x = true ∧ x.frac = f)
    (h : agree a b = true) : CopyBlock a b [] b fs := by
  refine ⟨fun l hl => ⟨(hbi l hl).send, (hbi l hl).recv, (hbi l hl).red⟩,
    reduceOk_nil _ fun l hl => ⟨(hbi l hl).red, (hbi l hl).copy⟩, ?_⟩
  intro V _ v T hv k f hk
  rw [copyReduceAll_none _ _ fun l hl => (hbi l hl).copy, List.length_nil, Nat.zero_add]
  have hbk : ∀ (n : Nat) (l : LineD), b[n]? = some l → fs[n]? = some l.frac := by
    intro n l hl
    rw [← hb.frac, List.getElem?_map, hl]
    rfl
  have hag : ∀ (n : Nat) (x l : LineD), a[n]? = some x → b[n]? = some l → isOut x = true ∧ x.frac = l.frac := by
    intro n x l hx hl
    unfold agree at h
    rw [List.all_eq_true] at h
    have := h (x, l) (List.mem_of_getElem? (List.getElem?_zip_eq_some.2 ⟨hx, hl⟩))
    dsimp only at this
    rw [(hb.line l (List.mem_of_getElem? hl)).isIn] at this
    cases ho : isOut x with
    | false => rw [ho] at this; simp at this
    | true => rw [ho] at this; simp at this; exact ⟨rfl, this⟩
  have hlen : b.length = fs.length := by rw [← hb.frac, List.length_map]
  have hkl := (List.getElem?_eq_some_iff.1 hk).1
  obtain ⟨n, x, h1, h2, h3⟩ := hout f (List.mem_of_getElem? hk)
  by_cases c : n < b.length
  · have hl := List.getElem?_eq_getElem c
    have h4 := hag n x _ h1 hl
    have h5 := hbk n _ hl
    rw [← h4.2, h3] at h5
    have : n = k := (List.getElem?_inj (by omega) hnd).1 (h5.trans hk.symm)
    rw [← this, hv n x h1 h2, h3]
  · have hka : k < a.length := by
      have := (List.getElem?_eq_some_iff.1 h1).1
      omega
    have hl := List.getElem?_eq_getElem (show k < b.length by omega)
    have h4 := hag k _ _ (List.getElem?_eq_getElem hka) hl
    have h5 := hbk k _ hl
    rw [hk] at h5
    rw [hv k _ (List.getElem?_eq_getElem hka) h4.1, h4.2, ← Option.some.inj h5]

theorem copy_break (a b : Block) (fs : List Nat) (hb : InBlock b fs) (hbi : ∀ l, l ∈ b → Inert l)
    (hout : ∀ f, f ∈ fs → ∃ (n : Nat) (x : LineD), a[n]? = some x ∧ isOut x = true ∧ x.frac = f) :
    CopyBlock a b a ((insertLines a b).map (connectIn a)) fs := by
  have hlow : ∀ n, n < a.length → ∃ l : LineD, a[n]? = some l ∧
      ((insertLines a b).map (connectIn a))[n]? = some { frac := l.frac } := by
    intro n hn
    refine ⟨a[n], List.getElem?_eq_getElem hn, ?_⟩
    unfold insertLines
    rw [List.getElem?_map, List.getElem?_append_left (by rw [List.length_map]; exact hn), List.getElem?_map,
      List.getElem?_eq_getElem hn]
    rfl
  have hhigh : ∀ k l, b[k]? = some l → ∃ i x, a[i]? = some x ∧ isOut x = true ∧ x.frac = l.frac ∧
      ((insertLines a b).map (connectIn a))[a.length + k]? =
        some { frac := l.frac, sendto := [], recvfrom := [], reducefrom := [], copyreducefrom := [i] } := by
    intro k l hl
    have hm := List.mem_of_getElem? hl
    have hin := hb.line l hm
    obtain ⟨y, hy⟩ := hin.2
    have hf : l.frac ∈ fs := by
      rw [← hb.frac]
      exact List.mem_map_of_mem hm
    obtain ⟨n, x, h1, h2, h3⟩ := hout _ hf
    cases hi : a.findIdx? fun x => isOut x && x.frac == l.frac with
    | none =>
      rw [List.findIdx?_eq_none_iff] at hi
      have := hi x (List.mem_of_getElem? h1)
      rw [h2, h3] at this
      simp at this
    | some i =>
      have hi' := hi
      rw [List.findIdx?_eq_some_iff_getElem] at hi'
      obtain ⟨hlt, hp, _⟩ := hi'
      rw [Bool.and_eq_true, beq_iff_eq] at hp
      refine ⟨i, a[i], List.getElem?_eq_getElem hlt, hp.1, hp.2, ?_⟩
      unfold insertLines
      rw [List.getElem?_map, List.getElem?_append_right (by rw [List.length_map]; omega), List.length_map,
        Nat.add_sub_cancel_left, List.getElem?_map, hl]
      simp only [Option.map_some]
      unfold connectIn
      rw [if_pos (by unfold isIn; dsimp only; rw [hy]; rfl)]
      dsimp only
      rw [hi]
      dsimp only
      rw [hin.1, (hbi l hm).red]
      rfl
  have hlen : ((insertLines a b).map (connectIn a)).length = a.length + b.length := by
    unfold insertLines
    simp
  have hall : ∀ n l, ((insertLines a b).map (connectIn a))[n]? = some l →
      (n < a.length ∧ l = { frac := l.frac }) ∨ ∃ i x, i < a.length ∧ a.length ≤ n ∧ a[i]? = some x ∧ x.frac = l.frac ∧
        l = { frac := l.frac, sendto := [], recvfrom := [], reducefrom := [], copyreducefrom := [i] } := by
    intro n l hl
    by_cases c : n < a.length
    · obtain ⟨y, _, h2⟩ := hlow n c
      rw [h2] at hl
      left
      rw [← Option.some.inj hl]
      exact ⟨c, rfl⟩
    · have hnl := (List.getElem?_eq_some_iff.1 hl).1
      rw [hlen] at hnl
      obtain ⟨i, x, h1, _, h3, h4⟩ := hhigh (n - a.length) _ (List.getElem?_eq_getElem (by omega : n - a.length < b.length))
      rw [show a.length + (n - a.length) = n by omega, hl] at h4
      right
      refine ⟨i, x, (List.getElem?_eq_some_iff.1 h1).1, by omega, h1, ?_, ?_⟩
      · rw [h3, Option.some.inj h4]
      · rw [Option.some.inj h4]
  refine ⟨?_, ?_, ?_⟩
  · intro l hl
    obtain ⟨n, hn⟩ := List.mem_iff_getElem?.1 hl
    rcases hall n l hn with ⟨_, e⟩ | ⟨i, x, _, _, _, _, e⟩
    · rw [e]
      exact ⟨fun _ h => (by cases h), fun _ h => (by cases h), rfl⟩
    · rw [e]
      exact ⟨fun _ h => (by cases h), fun _ h => (by cases h), rfl⟩
  · rw [reduceOk_iff]
    intro n l hl r hr
    rcases hall n l hl with ⟨_, e⟩ | ⟨i, x, hi, hn, hx, hf, e⟩
    · rw [e] at hr
      cases hr
    · have : r = i := by
        rw [e] at hr
        simpa using hr
      subst this
      refine ⟨by omega, ?_⟩
      obtain ⟨y, h1, h2⟩ := hlow r hi
      unfold fracOf
      rw [h2, Option.map_some]
      dsimp only
      rw [hx] at h1
      rw [← Option.some.inj h1, hf]
  · intro V _ v T hv k f hk
    have hat := Forward.copyReduceAll_at ((insertLines a b).map (connectIn a)) v (by
      intro n l hl r hr
      rcases hall n l hl with ⟨_, e⟩ | ⟨i, x, hi, hn, hx, hf, e⟩
      · rw [e] at hr
        cases hr
      · rw [e] at hr
        have : r = i := by simpa using hr
        omega)
    have hkb : k < b.length := by
      have := (List.getElem?_eq_some_iff.1 hk).1
      rw [← hb.frac, List.length_map] at this
      exact this
    have hbk := List.getElem?_eq_getElem hkb
    have hfr : b[k].frac = f := by
      rw [← hb.frac, List.getElem?_map, hbk] at hk
      exact Option.some.inj hk
    obtain ⟨i, x, h1, h2, h3, h4⟩ := hhigh k _ hbk
    have hi := (List.getElem?_eq_some_iff.1 h1).1
    obtain ⟨y, _, h5⟩ := hlow i hi
    have e1 := hat.2 _ _ h4
    have e2 := hat.2 _ _ h5
    dsimp only at e1 e2
    rw [List.foldl_nil, if_pos (by omega : i < a.length + k), e2, hv i x h1 h2, h3, hfr] at e1
    exact e1

/-! ## One node -/

/-- The blocks on one node: `xs` up to the middle group, its last block `a`, the first block `b` of the gathers and the
remaining ones. -/
structure Junction (xs : List Block) (a b : Block) (rest : List Block) (fs fout : List Nat) : Prop where
  chain : List.IsChain (fun a b => agree a b = true) (xs ++ [a])
  plain : ∀ x, x ∈ xs → ∀ l, l ∈ x → Plain l
  fin : ∀ l, l ∈ a → EndLine l
  link : Link (b :: rest) fs fout
  ne : rest ≠ []
  inert : ∀ l, l ∈ b → Inert l
  nodup : fs.Nodup
  some : fs ≠ []
  out : ∀ f, f ∈ fs → ∃ (n : Nat) (x : LineD), a[n]? = Option.some x ∧ isOut x = true ∧ x.frac = f

theorem same_refl (bs : List Block) : List.Forall₂ (List.Forall₂ LineSame) bs bs := by
  rw [List.forall₂_same]
  intro b _
  rw [List.forall₂_same]
  exact fun l _ => LineSame.refl l

theorem same_clear (bs : List Block) (h : ∀ x, x ∈ bs → ∀ l, l ∈ x → Plain l) :
    List.Forall₂ (List.Forall₂ LineSame) bs (bs.map clear) := by
  rw [List.forall₂_map_right_iff, List.forall₂_same]
  exact fun x hx => clear_same x (h x hx)

theorem Junction.join {xs : List Block} {a b : Block} {rest : List Block} {fs fout : List Nat}
    (h : Junction xs a b rest fs fout) (b0 : Block) :
    ∃ rest' A C last, Groups.join (b0 :: (xs ++ a :: b :: rest)) = Option.some (b0 :: rest') ∧ CopyBlock a b A C fs ∧
      OutBlock last fout ∧ rest'.getLast? = Option.some (insertLines A last) ∧
      List.Forall₂ (List.Forall₂ LineSame) ((xs ++ [a]) ++ ([C] ++ rest.map (insertLines A))) rest' := by
  obtain ⟨bb, hbb, hb⟩ := h.link.first
  cases Option.some.inj hbb
  obtain ⟨last, hl, ho⟩ := h.link.last
  have hl' : rest.getLast? = Option.some last := by
    have := h.ne
    cases rest with
    | nil => exact absurd rfl this
    | cons c rest => rw [List.getLast?_cons_cons] at hl; exact hl
  have hr : rest = rest.dropLast ++ [last] := by
    obtain ⟨ys, hys⟩ := List.getLast?_eq_some_iff.1 hl'
    rw [hys, List.dropLast_concat]
  have hpr : ∀ x, x ∈ rest → ∀ l, l ∈ x → Plain l := fun x hx => h.link.plain x (List.mem_cons_of_mem _ hx)
  have hrc : cancelLoop rest = (rest.dropLast.map clear ++ [last], true) := by
    rw [cancelLoop_chain rest h.link.chain.tail, hl']
    rfl
  have hrs : List.Forall₂ (List.Forall₂ LineSame) rest (rest.dropLast.map clear ++ [last]) := by
    conv => lhs; rw [hr]
    apply List.rel_append
    · exact same_clear _ fun x hx => hpr x (List.mem_of_mem_dropLast hx)
    · exact same_refl _
  by_cases hab : agree a b = true
  · have hch : List.IsChain (fun a b => agree a b = true) (xs ++ a :: b :: rest) := by
      have e : xs ++ a :: b :: rest = (xs ++ [a]) ++ (b :: rest) := by simp
      rw [e, List.isChain_append]
      refine ⟨h.chain, h.link.chain, ?_⟩
      intro u hu w hw
      rw [List.getLast?_concat] at hu
      cases Option.some.inj hu
      cases Option.some.inj hw
      exact hab
    have hlast : (xs ++ a :: b :: rest).getLast? = Option.some last := by
      rw [show xs ++ a :: b :: rest = (xs ++ [a, b]) ++ rest by simp, List.getLast?_append, hl']
      rfl
    have hdrop : (xs ++ a :: b :: rest).dropLast = xs ++ [a] ++ [b] ++ rest.dropLast := by
      conv => lhs; rw [hr]
      rw [show xs ++ a :: b :: (rest.dropLast ++ [last]) = (xs ++ [a] ++ [b] ++ rest.dropLast) ++ [last] by simp,
        List.dropLast_concat]
    have hins : rest.map (insertLines []) = rest := by
      conv => rhs; rw [← List.map_id rest]
      apply List.map_congr_left
      intro x _
      exact insert_nil x
    refine ⟨(xs ++ a :: b :: rest).dropLast.map clear ++ [last], [], b, last, ?_, copy_agree a b fs hb h.inert h.nodup h.out hab, ho,
      ?_, ?_⟩
    · unfold Groups.join
      simp only [cancelLoop_chain _ hch, hlast, if_true, Option.toList_some]
    · rw [insert_nil, List.getLast?_concat]
    · rw [hins, hdrop]
      conv => lhs; rw [hr]
      rw [show (xs ++ [a]) ++ ([b] ++ (rest.dropLast ++ [last])) = (xs ++ [a] ++ [b] ++ rest.dropLast) ++ [last] by simp]
      apply List.rel_append
      · apply same_clear
        intro x hx
        rcases List.mem_append.1 hx with hx | hx
        · rcases List.mem_append.1 hx with hx | hx
          · rcases List.mem_append.1 hx with hx | hx
            · exact h.plain x hx
            · rw [List.mem_singleton.1 hx]
              exact fun l hl => (h.fin l hl).plain
          · rw [List.mem_singleton.1 hx]
            exact h.link.plain b List.mem_cons_self
        · exact hpr x (List.mem_of_mem_dropLast hx)
      · exact same_refl _
  · have hany : a.any isOut = true := by
      obtain ⟨f, hf⟩ := List.exists_mem_of_ne_nil fs h.some
      obtain ⟨n, x, h1, h2, _⟩ := h.out f hf
      rw [List.any_eq_true]
      exact ⟨x, List.mem_of_getElem? h1, h2⟩
    refine ⟨xs.map clear ++ connectOut a b :: (insertLines a b).map (connectIn a) ::
      (rest.dropLast.map clear ++ [last]).map (insertLines a), a, (insertLines a b).map (connectIn a), last, ?_,
      copy_break a b fs hb h.inert h.out, ho, ?_, ?_⟩
    · unfold Groups.join
      simp only [cancel_break xs a b rest h.chain hab, Bool.false_eq_true, if_false, hrc]
      rw [addLines_skip _ _ _ _ _ hany]
      · rfl
      · intro x hx
        obtain ⟨y, _, rfl⟩ := List.mem_map.1 hx
        exact clear_any y
    · rw [List.map_append, List.map_singleton, ← List.cons_append, ← List.cons_append, ← List.append_assoc,
        List.getLast?_concat]
    · rw [show xs.map clear ++ connectOut a b :: (insertLines a b).map (connectIn a) ::
          (rest.dropLast.map clear ++ [last]).map (insertLines a) = (xs.map clear ++ [connectOut a b]) ++
          ([(insertLines a b).map (connectIn a)] ++ (rest.dropLast.map clear ++ [last]).map (insertLines a)) by simp]
      apply List.rel_append
      · apply List.rel_append
        · exact same_clear _ h.plain
        · exact .cons (connectOut_same a b h.fin) .nil
      · apply List.rel_append
        · exact same_refl _
        · rw [List.forall₂_map_left_iff, List.forall₂_map_right_iff]
          exact hrs.imp fun x y hxy => insert_same a x y hxy

/-! ## All nodes -/

/-- What the last block delivers, when its lines after those of `a` hold the sums. -/
theorem copyOut_shift {V : Type} (N : Nat) (sizes : List Nat) (h : sizes ≠ []) (hpos : ∀ g, g ∈ sizes → 0 < g)
    (hprod : sizes.prod = N) (hN : 0 < N) (t : Nat) (ht : t < N) (a b : Block) (hb : OutBlock b (expandFrac N sizes t))
    (v : Nat → V) (T : Nat → V) (hv : ∀ k, k < N → v (a.length + k) = T (numAt N sizes t k)) (f : Nat) (hf : f < N) :
    copyOut (insertLines a b) v f = some (T f) := by
  apply copyOut_const
  · intro n l hl ho hfr
    unfold insertLines at hl
    by_cases c : n < a.length
    · rw [List.getElem?_append_left (by rw [List.length_map]; exact c), List.getElem?_map] at hl
      obtain ⟨y, _, rfl⟩ := Option.map_eq_some_iff.1 hl
      simp at ho
    · rw [List.getElem?_append_right (by rw [List.length_map]; omega), List.length_map, List.getElem?_map] at hl
      obtain ⟨y, hy, rfl⟩ := Option.map_eq_some_iff.1 hl
      dsimp only at hfr
      have e := congrArg (fun l => l[n - a.length]?) hb.frac
      simp only [List.getElem?_map, hy, Option.map_some, hfr] at e
      have hn : n - a.length < N := by
        by_contra hc
        rw [List.getElem?_eq_none (by rw [expand_length N sizes h, hprod]; omega)] at e
        cases e
      have e2 := hv _ hn
      rw [show a.length + (n - a.length) = n by omega] at e2
      rw [expand_some N sizes h t _ (by rw [hprod]; exact hn)] at e
      rw [e2, ← Option.some.inj e]
  · obtain ⟨k, hk, hkf⟩ := numAt_all N sizes h hpos hprod hN t f ht hf
    obtain ⟨l, h1, h2, h3⟩ := hb.get k f (by rw [expand_some N sizes h t k (by rw [hprod]; exact hk), hkf])
    refine ⟨a.length + k, { l with
      recvfrom := l.recvfrom.map fun e => (e.1, e.2 + a.length)
      reducefrom := l.reducefrom.map (· + a.length)
      copyreducefrom := l.copyreducefrom.map (· + a.length) }, ?_, h2, h3⟩
    unfold insertLines
    rw [List.getElem?_append_right (by rw [List.length_map]; omega), List.length_map, Nat.add_sub_cancel_left,
      List.getElem?_map, h1]
    rfl

theorem expand_nodup (N g M : Nat) (hg : 0 < g) (hM : 0 < M) (hN : N = g * M) (t : Nat) (ht : t < N) :
    (expandFrac N [g] t).Nodup := by
  have hs1 : stride N [g] = M := by
    rw [stride_eq, List.prod_singleton, hN, Nat.mul_div_cancel_left _ hg]
  rw [← expand_map N [g] (by simp) t, List.prod_singleton]
  apply List.Nodup.map_on _ List.nodup_range
  intro i hi j hj e
  have hi := List.mem_range.1 hi
  have hj := List.mem_range.1 hj
  rw [numAt_single N g M hg hM hN t i ht hi, numAt_single N g M hg hM hN t j ht hj] at e
  have hst : 0 < stride N [g] := by rw [hs1]; exact hM
  have e1 : (i + localOf N [g] t) % g = (j + localOf N [g] t) % g := by
    rcases Nat.lt_trichotomy ((i + localOf N [g] t) % g) ((j + localOf N [g] t) % g) with c | c | c
    · have := global_mono N [g] t _ _ hst c
      omega
    · exact c
    · have := global_mono N [g] t _ _ hst c
      omega
  have e2 : i ≡ j [MOD g] := Nat.ModEq.add_right_cancel' _ e1
  have e3 : i % g = j % g := e2
  rwa [Nat.mod_eq_of_lt hi, Nat.mod_eq_of_lt hj] at e3

/-- Reductions, a middle group and gathers: the joined blocks compute the allreduce. -/
theorem middle_exec {V : Type} [AddCommMonoid V] (N : Nat) (hN : 0 < N) (d u : Nat × List Nat)
    (ds us : List (Nat × List Nat)) (hds : ∀ x, x ∈ d :: ds → DownOk x) (hus : ∀ x, x ∈ u :: us → UpOk x)
    (g : Nat) (hg : 0 < g) (body : Nat → List Block) (lastM : Nat → Block) (hm : MidLocal g body lastM)
    (hdp : ((d :: ds).map Prod.fst).prod * g = N) (hup : ((u :: us).map Prod.fst).prod * g = N) :
    ∃ sched : Nat → List Block,
      (∀ t, t < N → join (downBlocks N g (d :: ds) t ++
        (CyclicReduce.firstBlock g (localOf N [g] t) :: (body (localOf N [g] t) ++ [lastM (localOf N [g] t)])).map
          (fun b => b.map (midLine N g t)) ++ upBlocks N [g] (u :: us) t) = some (sched t)) ∧
      ∀ inp junk : Nat → Nat → V, ∃ out, Exec N copyOut sched inp junk out ∧ AllreducePost N inp out := by
  have hM : 0 < ((d :: ds).map Prod.fst).prod := by
    rcases Nat.eq_zero_or_pos ((d :: ds).map Prod.fst).prod with c | c
    · rw [c] at hdp; omega
    · exact c
  generalize hMM : ((d :: ds).map Prod.fst).prod = M at hdp hM
  have hNg : N = g * M := by rw [Nat.mul_comm]; exact hdp.symm
  have hsd : (downSizes g (d :: ds)).prod = N := by rw [downSizes_prod, hMM, hdp]
  have hsu : (upSizes [g] (u :: us)).prod = N := by rw [upSizes_prod, hup.symm, List.prod_singleton]
  have hgpos : ∀ x, x ∈ [g] → 0 < x := fun x hx => by rw [List.mem_singleton.1 hx]; exact hg
  have hpos := upSizes_pos [g] (u :: us) hus hgpos
  have hne : upSizes [g] (u :: us) ≠ [] := by unfold upSizes; simp
  have hs1 : stride N [g] = M := by
    rw [stride_eq, List.prod_singleton, hNg, Nat.mul_div_cancel_left _ hg]
  have hst : 0 < stride N [g] := by rw [hs1]; exact hM
  have hloc : ∀ t, localOf N [g] t < g := fun t => Nat.mod_lt _ hg
  -- the blocks
  generalize hxs : (fun t => (downBlocks N g (d :: ds) t).tail ++
    (CyclicReduce.firstBlock g (localOf N [g] t) :: body (localOf N [g] t)).map (fun b => b.map (midLine N g t))) = xs
  generalize ha : (fun t => (lastM (localOf N [g] t)).map (midLine N g t)) = a
  generalize hb : (fun t => (upBlocks N [g] (u :: us) t).head?.getD []) = b
  generalize hr : (fun t => (upBlocks N [g] (u :: us) t).tail) = rest
  have hcons : ∀ t, downBlocks N g (d :: ds) t ++
      (CyclicReduce.firstBlock g (localOf N [g] t) :: (body (localOf N [g] t) ++ [lastM (localOf N [g] t)])).map
          (fun b => b.map (midLine N g t)) ++ upBlocks N [g] (u :: us) t =
      (downBlocks N g (d :: ds) t).head?.getD [] :: (xs t ++ a t :: b t :: rest t) := by
    intro t
    have e1 : downBlocks N g (d :: ds) t =
      (downBlocks N g (d :: ds) t).head?.getD [] :: (downBlocks N g (d :: ds) t).tail := rfl
    have e2 : upBlocks N [g] (u :: us) t = b t :: rest t := by rw [← hb, ← hr]; rfl
    rw [← hxs, ← ha, e2]
    dsimp only
    conv => lhs; rw [e1]
    simp
  have hup' : ∀ t, b t :: rest t = upBlocks N [g] (u :: us) t := by
    intro t
    rw [← hb, ← hr]; rfl
  have hjunc : ∀ t, t < N → Junction (xs t) (a t) (b t) (rest t) (expandFrac N [g] t) (expandFrac N (upSizes [g] (u :: us)) t) := by
    intro t ht
    have hdl := downs_link N g d ds hds t
    have hend : ∀ l, l ∈ a t → EndLine l := by
      rw [← ha]
      intro l hl
      obtain ⟨l', h1, rfl⟩ := List.mem_map.1 hl
      exact mid_end N g t l' (hm.fin _ (hloc t) l' h1).1
    have hq : ∀ x, x ∈ (body (localOf N [g] t)).map (fun b => b.map (midLine N g t)) → ∀ l, l ∈ x → Quiet l := by
      intro x hx l hl
      obtain ⟨y, hy, rfl⟩ := List.mem_map.1 hx
      obtain ⟨l', h1, rfl⟩ := List.mem_map.1 hl
      exact mid_quiet N g t l' (hm.mem _ (hloc t) y hy l' h1).1
    have hfirst := mid_first N g M hg hM hNg t ht
    refine ⟨?_, ?_, hend, ?_, ?_, ?_, expand_nodup N g M hg hM hNg t ht, ?_, ?_⟩
    · have hmc : List.IsChain (fun a b => agree a b = true)
          ((CyclicReduce.firstBlock g (localOf N [g] t)).map (midLine N g t) ::
            ((body (localOf N [g] t)).map (fun b => b.map (midLine N g t)) ++ [a t])) := by
        apply isChain_of_all _ (fun a => ∀ l, l ∈ a → isOut l = false) (fun a => ∀ l, l ∈ a → isIn l = false)
          fun _ _ => agree_quiet
        · intro x hx
          rw [← List.cons_append, List.dropLast_concat] at hx
          rcases List.mem_cons.1 hx with rfl | hx
          · exact fun l hl => (hfirst.line l hl).isOut
          · exact fun l hl => (hq x hx l hl).isOut
        · intro x hx
          rcases List.mem_append.1 hx with hx | hx
          · exact fun l hl => (hq x hx l hl).isIn
          · rw [List.mem_singleton.1 hx]
            intro l hl
            rcases hend l hl with h | ⟨_, h⟩
            · exact h.isIn
            · unfold isIn
              rw [h]
              rfl
      have hall : List.IsChain (fun a b => agree a b = true) (downBlocks N g (d :: ds) t ++
          ((CyclicReduce.firstBlock g (localOf N [g] t)).map (midLine N g t) ::
            ((body (localOf N [g] t)).map (fun b => b.map (midLine N g t)) ++ [a t]))) := by
        rw [List.isChain_append]
        refine ⟨hdl.chain, hmc, ?_⟩
        intro x hx y hy
        obtain ⟨z, hz, hz'⟩ := hdl.last
        rw [hz] at hx
        cases Option.some.inj hx
        cases Option.some.inj hy
        exact agree_inout hz' hfirst
      have := hall.tail
      rw [← hxs]
      rw [List.tail_append_of_ne_nil (by rw [downBlocks]; simp)] at this
      simpa using this
    · rw [← hxs]
      intro x hx l hl
      rcases List.mem_append.1 hx with hx | hx
      · exact hdl.plain x (List.mem_of_mem_tail hx) l hl
      · rw [List.map_cons] at hx
        rcases List.mem_cons.1 hx with rfl | hx
        · exact .inr (.inl (hfirst.line l hl))
        · exact .inl (hq x hx l hl)
    · rw [hup' t]
      exact ups_link N [g] (by simp) u us hus t
    · rw [← hr]
      dsimp only
      rw [upBlocks]
      unfold upTail
      simp
    · rw [← hb]
      intro l hl
      obtain ⟨l', k, h1, _, rfl⟩ := mem_liftBlock (show l ∈ liftBlock N (u.1 :: [g]) t _ from hl)
      exact liftLine_inert _ _ _ _ _ (gatherFirst_inert _ l' h1)
    · intro c
      have := congrArg List.length c
      rw [expand_length N [g] (by simp), List.prod_singleton, List.length_nil] at this
      omega
    · intro f hf
      rw [← expand_map N [g] (by simp) t, List.prod_singleton] at hf
      obtain ⟨k, hk, rfl⟩ := List.mem_map.1 hf
      have hk := List.mem_range.1 hk
      rw [numAt_single N g M hg hM hNg t k ht hk]
      obtain ⟨n, x, h1, h2, h3⟩ := hm.ex (localOf N [g] t) ((k + localOf N [g] t) % g) (hloc t) (Nat.mod_lt _ hg)
      refine ⟨n, midLine N g t x, ?_, ?_, ?_⟩
      · rw [← ha]
        dsimp only
        rw [List.getElem?_map, h1]
        rfl
      · exact (mid_end N g t x (hm.fin _ (hloc t) x (List.mem_of_getElem? h1)).1).out.1 (by
          have := (hm.fin _ (hloc t) x (List.mem_of_getElem? h1)).1.out.2 h2
          obtain ⟨c1, y, hy⟩ := this
          refine ⟨?_, y, ?_⟩
          · unfold midLine; rw [c1]; rfl
          · unfold midLine; rw [hy]; rfl)
      · rw [← h3]
        rfl
  have hj : ∀ t, ∃ rest' A C last, t < N → (Groups.join ((downBlocks N g (d :: ds) t).head?.getD [] :: (xs t ++ a t :: b t :: rest t)) =
        some ((downBlocks N g (d :: ds) t).head?.getD [] :: rest') ∧ CopyBlock (a t) (b t) A C (expandFrac N [g] t) ∧
      OutBlock last (expandFrac N (upSizes [g] (u :: us)) t) ∧ rest'.getLast? = some (insertLines A last) ∧
      List.Forall₂ (List.Forall₂ LineSame) ((xs t ++ [a t]) ++ ([C] ++ (rest t).map (insertLines A))) rest') := by
    intro t
    by_cases ht : t < N
    · obtain ⟨r', A, C, l, h⟩ := (hjunc t ht).join ((downBlocks N g (d :: ds) t).head?.getD [])
      exact ⟨r', A, C, l, fun _ => h⟩
    · exact ⟨[], [], [], [], fun h => absurd h ht⟩
  choose rest' A C last hj using hj
  refine ⟨fun t => (downBlocks N g (d :: ds) t).head?.getD [] :: rest' t, fun t ht => by rw [hcons t]; exact (hj t ht).1, ?_⟩
  intro inp junk
  obtain ⟨s1, h1, h2⟩ := down_phase N g hN hg d ds hds hsd inp junk
  -- the first block of the middle group does nothing
  have hfst : Run N (fun t => [(CyclicReduce.firstBlock g (localOf N [g] t)).map (midLine N g t)]) s1 s1 := by
    apply Recursive.Run.single
    intro t ht
    apply inert_step N _ s1 _ t ht
    intro q hq l hl
    obtain ⟨l', h1, rfl⟩ := List.mem_map.1 hl
    obtain ⟨n, _, rfl⟩ := mem_mk h1
    refine ⟨fun e he => (by cases he), fun e he => ?_, rfl, rfl⟩
    obtain ⟨e', he', rfl⟩ := List.mem_map.1 he
    rw [List.mem_singleton.1 he']
    unfold partner
    rw [if_neg (by simp)]
    simp
  obtain ⟨s2, h3, h4⟩ := mid_run inp N g M hg hM hNg body lastM hm s1 (fun t k ht hk => h2 t k ht hk)
  have hcopy : Run N (fun t => [C t]) s2 (fun t => copyReduceAll (C t) (s2 t)) := by
    apply Recursive.Run.single
    intro t ht
    exact still_step N C s2 (fun q hq => (hj q hq).2.1.still) t ht (hj t ht).2.1.ok
  obtain ⟨s4, h5, h6⟩ := ups_tail (fun f => ∑ x ∈ Finset.range N, inp x f) N hN A u us hus [g] (by simp) hgpos (by rw [hsu])
    (fun t => copyReduceAll (C t) (s2 t)) (by
      intro t k ht hk
      apply (hj t ht).2.1.eff (s2 t) (fun f => ∑ x ∈ Finset.range N, inp x f)
      · intro n x hx ho
        rw [← ha] at hx
        exact h4 t ht n x hx ho
      · exact expand_some N [g] (by simp) t k hk)
  refine ⟨fun t => copyOut (insertLines (A t) (last t)) (s4 t), ⟨_, rest', fun t => insertLines (A t) (last t), s4,
    fun t ht => ⟨rfl, (hj t ht).2.2.2.1⟩, Run.same (p := fun t => (xs t ++ [a t]) ++ ([C t] ++ (rest t).map (insertLines (A t)))) ?_
      fun t ht => (hj t ht).2.2.2.2, fun _ _ => rfl⟩, ?_⟩
  · have hrun := Recursive.Run.append (Recursive.Run.append h1 (Recursive.Run.append hfst h3)) (Recursive.Run.append hcopy h5)
    apply Recursive.Run.congr hrun
    intro t ht
    rw [← hxs, ← ha, ← hr]
    simp
  · intro t f ht hf
    exact copyOut_shift N (upSizes [g] (u :: us)) hne hpos hsu hN t ht (A t) (last t) (hj t ht).2.2.1 (s4 t)
      (fun f => ∑ x ∈ Finset.range N, inp x f) (fun k hk => h6 t k ht (by rw [hsu]; exact hk)) f hf

end ExtMpi.Groups
