import Verif.Lemmas.OptimiseJoin
/-! # The generated programs as segments -/
namespace ExtMpi.Optimise
open RawCode Schedule

/-! ## Placement -/

/-- An operand, `st k` is the start of scratch buffer `k`. -/
def placeAt (st : Nat → Nat) (a : Addr) : Addr :=
  match a.reg with
  | .shm k => sh (st k + a.off)
  | _ => a

def fl (st : Nat → Nat) : Instr → Instr := mapAddr fun a _ => placeAt st a

theorem flatten_eq (C : Nat) (p : List Instr) : flatten C p = p.map (fl (start C p)) := rfl

theorem start_step (C : Nat) (p : List Instr) (k : Nat) (hC : 0 < C) : start C p k < start C p (k + 1) := by
  rw [start]; omega

theorem start_mono (C : Nat) (p : List Instr) (hC : 0 < C) {j k : Nat} (h : j < k) : start C p j < start C p k := by
  induction h with
  | refl => exact start_step C p j hC
  | step _ ih => exact Nat.lt_trans ih (start_step C p _ hC)

/-- Elements that one line uses of buffer `k`. -/
def use1 (k m : Nat) (i : Instr) : Nat :=
  match i with
    | .copy _ d s n =>
      if isShm d.reg && isShm s.reg then
        let m := if d.reg = .shm k then max m (d.off + n) else m
        if s.reg = .shm k then max m (s.off + n) else m
      else m
    | _ => m

theorem used_eq (p : List Instr) (k : Nat) : used p k = p.foldl (use1 k) 0 := rfl

theorem use1_le (k m : Nat) (i : Instr) : m ≤ use1 k m i := by
  unfold use1
  split
  · split
    · dsimp only; split <;> split <;> omega
    · exact Nat.le_refl _
  · exact Nat.le_refl _

theorem used_acc (k : Nat) (p : List Instr) : ∀ m, m ≤ p.foldl (use1 k) m := by
  induction p with
  | nil => intro m; exact Nat.le_refl _
  | cons i p ih => intro m; exact Nat.le_trans (use1_le k m i) (ih _)

theorem used_dst {p : List Instr} {r : Bool} {o j n : Nat} {s : Addr} (h : .copy r (sh o) s n ∈ p) (hs : s.reg = .shm j) :
    o + n ≤ used p 0 := by
  rw [used_eq]
  suffices ∀ m, o + n ≤ p.foldl (use1 0) m from this 0
  induction p with
  | nil => cases h
  | cons i p ih =>
    intro m
    rw [List.foldl_cons]
    rcases List.mem_cons.1 h with e | h
    · subst e
      refine Nat.le_trans ?_ (used_acc 0 p _)
      have : isShm s.reg = true := by rw [hs]; rfl
      unfold use1
      dsimp only
      rw [show (isShm (sh o).reg && isShm s.reg) = true by rw [this]; rfl, if_pos rfl, if_pos (show (sh o).reg = .shm 0 from rfl)]
      show o + n ≤ _
      have : (sh o).off = o := rfl
      split <;> omega
    · exact ih h _

/-! ## Packed messages -/

theorem fl_pack_cons (st : Nat → Nat) (h0 : st 0 = 0) (sz : Nat → Nat) (b : Block) (k add n : Nat) (ns : List Nat) :
    (pack sz b k add (n :: ns)).map (fl st) =
      (if lineSize sz b n = 0 then [] else [.copy false (sh (st k + add)) (sh (off sz b n)) (lineSize sz b n)]) ++
        (pack sz b k (add + lineSize sz b n) ns).map (fl st) := by
  rw [pack, List.map_append]
  congr 1
  unfold copyIf
  split
  · rfl
  · simp [fl, mapAddr, placeAt, h0]

theorem off_succ (sz : Nat → Nat) (b : Block) (n : Nat) : off sz b (n + 1) = off sz b n + lineSize sz b n := by
  rw [off_eq, off_eq, lo_succ]

theorem send_more (st : Nat → Nat) (h0 : st 0 = 0) (sz : Nat → Nat) (b : Block) (k q s tot : Nat) (R : List Instr) :
    ∀ (len m n : Nat), s + n = off sz b m → n + total sz b (List.range' m len) = tot →
      sendFrom (sh (st k)) (sh s) n ((pack sz b k n (List.range' m len)).map (fl st) ++
        (.barrier :: .isend (sh (st k)) tot q :: R)) = some (.isend (sh s) tot q, R) := by
  intro len
  induction len with
  | zero =>
    intro m n _ h2
    have : n = tot := by simpa [total] using h2
    subst this
    simp [pack, sendFrom, sh, isShm]
  | succ len ih =>
    intro m n h1 h2
    rw [List.range'_succ, total_cons] at h2
    rw [List.range'_succ, fl_pack_cons st h0]
    by_cases hz : lineSize sz b m = 0
    · rw [if_pos hz, hz, List.nil_append, Nat.add_zero]
      exact ih (m + 1) n (by rw [off_succ, hz]; omega) (by omega)
    · rw [if_neg hz, List.append_assoc, List.singleton_append, sendFrom]
      rw [if_pos (by simp [sh, isShm, h1])]
      exact ih (m + 1) (n + lineSize sz b m) (by rw [off_succ]; omega) (by omega)

theorem send_first (st : Nat → Nat) (h0 : st 0 = 0) (sz : Nat → Nat) (b : Block) (k q : Nat) :
    ∀ (len m : Nat), total sz b (List.range' m len) ≠ 0 →
      ∃ n cs, (pack sz b k 0 (List.range' m len)).map (fl st) = .copy false (sh (st k)) (sh (off sz b m)) n :: cs ∧
        ∀ R, sendFrom (sh (st k)) (sh (off sz b m)) n (cs ++
          (.barrier :: .isend (sh (st k)) (total sz b (List.range' m len)) q :: R)) =
          some (.isend (sh (off sz b m)) (total sz b (List.range' m len)) q, R) := by
  intro len
  induction len with
  | zero => intro m h; exact absurd rfl h
  | succ len ih =>
    intro m h
    rw [List.range'_succ, total_cons] at h ⊢
    rw [fl_pack_cons st h0]
    by_cases hz : lineSize sz b m = 0
    · rw [if_pos hz, hz, List.nil_append]
      simp only [Nat.zero_add]
      have e : off sz b (m + 1) = off sz b m := by rw [off_succ, hz]; rfl
      rw [← e]
      exact ih (m + 1) (by omega)
    · rw [if_neg hz, Nat.add_zero, Nat.zero_add]
      refine ⟨_, _, rfl, fun R => ?_⟩
      exact send_more st h0 sz b k q (off sz b m) _ R len (m + 1) _ (by rw [off_succ]) rfl

/-! ## Blocks -/

theorem mem_zip {L : List Nat} {k : Nat} {x : Nat × Nat} (h : x ∈ L.zipIdx k) : x.1 ∈ L := by
  have : x.1 ∈ (L.zipIdx k).map Prod.fst := List.mem_map.2 ⟨x, h, rfl⟩
  rw [List.zipIdx_map_fst] at this
  exact this


/-- The lines of the messages are contiguous, received messages are copied, and there are no local copies. -/
structure Straight (N : Nat) (b : Block) (t : Nat) : Prop where
  send : ∀ q, q < N → q ≠ t → ∃ m len, sendIdx b q = List.range' m len
  red : ∀ q, q < N → q ≠ t → reduces b t q = false
  cred : ∀ l, l ∈ b → l.copyreducefrom = []

theorem unpack_eq (sz : Nat → Nat) (b : Block) (t k : Nat) (qs : List Nat) :
    unpack sz b t k qs = ((qs.filter (ract sz b t)).zipIdx k).map fun x =>
      .copy (reduces b t x.1) ⟨.shm 0, off sz b ((recvIdx b x.1).headD 0)⟩ ⟨.shm x.2, 0⟩ (total sz b (recvIdx b x.1)) := by
  induction qs generalizing k with
  | nil => rfl
  | cons q qs ih =>
    rw [unpack]
    by_cases h : q ≠ t ∧ total sz b (recvIdx b q) ≠ 0
    · rw [if_pos h, List.filter_cons_of_pos (by simpa [ract] using h), List.zipIdx_cons, List.map_cons, ih]
      cases hr : recvIdx b q with
      | nil => rw [hr] at h; exact absurd rfl h.2
      | cons n0 ns => rfl
    · rw [if_neg h, List.filter_cons_of_neg (by simpa [ract] using h), ih]

/-- The partners that the node receives from. -/
def froms (N : Nat) (sz : Nat → Nat) (b : Block) (t : Nat) : List Nat := (recvOrder N t).filter (ract sz b t)

/-- The partners that the node sends to. -/
def tos (N : Nat) (sz : Nat → Nat) (b : Block) (t : Nat) : List Nat := (sendOrder N t).filter (sact sz b t)

/-- The block as a segment. -/
def segOf (N : Nat) (sz : Nat → Nat) (st : Nat → Nat) (t : Nat) (lead : List Instr) (b : Block) : Seg where
  lead := lead
  recvs := ((froms N sz b t).zipIdx 1).map fun x =>
    ⟨st x.2, off sz b ((recvIdx b x.1).headD 0), total sz b (recvIdx b x.1), x.1⟩
  sends := ((tos N sz b t).zipIdx (1 + (froms N sz b t).length)).map fun x =>
    ⟨(pack sz b x.2 0 (sendIdx b x.1)).map (fl st), st x.2, off sz b ((sendIdx b x.1).headD 0),
      total sz b (sendIdx b x.1), x.1⟩
  reds := (reductions sz b).map (fl st)

theorem copyReductions_nil (sz : Nat → Nat) (b : Block) (h : ∀ l, l ∈ b → l.copyreducefrom = []) : copyReductions sz b = [] := by
  unfold copyReductions
  rw [List.flatMap_eq_nil_iff]
  intro x hx
  rw [h x.1 (List.mem_of_getElem? (List.mem_zipIdx_iff_getElem?.1 hx))]
  rfl

theorem mem_froms {N : Nat} {sz : Nat → Nat} {b : Block} {t q : Nat} (ht : t < N) :
    q ∈ froms N sz b t ↔ q < N ∧ q ≠ t ∧ total sz b (recvIdx b q) ≠ 0 := by
  unfold froms
  simp only [List.mem_filter, mem_recvOrder N t q ht, ract, decide_eq_true_eq]

theorem mem_tos {N : Nat} {sz : Nat → Nat} {b : Block} {t q : Nat} (ht : t < N) :
    q ∈ tos N sz b t ↔ q < N ∧ q ≠ t ∧ total sz b (sendIdx b q) ≠ 0 := by
  unfold tos
  simp only [List.mem_filter, mem_sendOrder N t q ht, sact, decide_eq_true_eq]

theorem segOf_code (N : Nat) (sz : Nat → Nat) (st : Nat → Nat) (h0 : st 0 = 0) (t : Nat) (ht : t < N) (lead : List Instr)
    (b : Block) (hb : Straight N b t) :
    (segOf N sz st t lead b).code0 = lead ++ (blockCode N sz b t).map (fl st) := by
  have e1 : (segOf N sz st t lead b).recvs.map RMsg.post = (posts sz b t 1 (recvOrder N t)).map (fl st) := by
    rw [posts_eq, List.map_map]
    show (((froms N sz b t).zipIdx 1).map _).map _ = ((froms N sz b t).zipIdx 1).map _
    rw [List.map_map]
    apply List.map_congr_left
    intro x _
    simp [RMsg.post, fl, mapAddr, placeAt]
  have e2 : (segOf N sz st t lead b).sends.flatMap SMsg.packed =
      (sends sz b t (postsEnd sz b t 1 (recvOrder N t)) (sendOrder N t)).map (fl st) := by
    rw [sends_eq, postsEnd_eq, List.map_flatMap]
    show (((tos N sz b t).zipIdx (1 + (froms N sz b t).length)).map _).flatMap _ =
      ((tos N sz b t).zipIdx (1 + (froms N sz b t).length)).flatMap _
    rw [List.flatMap_map]
    congr 1
    funext x
    simp [SMsg.packed, sendCode, fl, mapAddr, placeAt]
  have e3 : (segOf N sz st t lead b).recvs.map RMsg.unpack = (unpack sz b t 1 (recvOrder N t)).map (fl st) := by
    rw [unpack_eq, List.map_map]
    show (((froms N sz b t).zipIdx 1).map _).map _ = ((froms N sz b t).zipIdx 1).map _
    rw [List.map_map]
    apply List.map_congr_left
    intro x hx
    have hx1 : x.1 ∈ froms N sz b t := mem_zip hx
    have hx2 := (mem_froms ht).1 hx1
    simp [RMsg.unpack, fl, mapAddr, placeAt, h0, hb.red x.1 hx2.1 hx2.2.1]
  unfold Seg.code0 blockCode
  rw [e1, e2, e3, copyReductions_nil sz b hb.cred]
  simp [segOf, fl, mapAddr]

theorem segOf_reds (N : Nat) (sz : Nat → Nat) (st : Nat → Nat) (t : Nat) (lead : List Instr) (b : Block) :
    Reds (segOf N sz st t lead b).reds := by
  intro l hl
  obtain ⟨i, hi, rfl⟩ := List.mem_map.1 hl
  unfold reductions at hi
  obtain ⟨x, _, hi⟩ := List.mem_flatMap.1 hi
  obtain ⟨r, _, hi⟩ := List.mem_flatMap.1 hi
  obtain ⟨rfl, _⟩ := mem_copyIf hi
  exact ⟨_, _, _, rfl⟩

theorem segOf_sends (N : Nat) (sz : Nat → Nat) (st : Nat → Nat) (h0 : st 0 = 0) (t : Nat) (ht : t < N) (lead : List Instr)
    (b : Block) (hb : Straight N b t) : ∀ m, m ∈ (segOf N sz st t lead b).sends → m.Ok := by
  intro m hm
  obtain ⟨x, hx, rfl⟩ := List.mem_map.1 hm
  have hx1 : x.1 ∈ tos N sz b t := mem_zip hx
  have hx2 := (mem_tos ht).1 hx1
  obtain ⟨m0, len, e⟩ := hb.send x.1 hx2.1 hx2.2.1
  have hne := hx2.2.2
  rw [e] at hne
  obtain ⟨n, cs, g1, g2⟩ := send_first st h0 sz b x.2 x.1 len m0 hne
  have hh : (List.range' m0 len).headD 0 = m0 := by
    cases len with
    | zero => exact absurd rfl hne
    | succ len => rfl
  refine ⟨sh (st x.2), sh (off sz b m0), n, cs, ?_, fun R => ?_⟩
  · dsimp only
    rw [e]
    exact g1
  · unfold SMsg.direct
    dsimp only
    rw [e, hh]
    exact g2 R

/-- The scratch buffers start behind each other, and behind the lines. -/
structure Starts (st : Nat → Nat) : Prop where
  zero : st 0 = 0
  mono : ∀ j k, j < k → st j < st k

theorem Starts.ge {st : Nat → Nat} (h : Starts st) {k : Nat} (hk : 1 ≤ k) : st 1 ≤ st k := by
  by_cases e : k = 1
  · rw [e]
  · exact Nat.le_of_lt (h.mono 1 k (by omega))

theorem segOf_bufs (N : Nat) (sz : Nat → Nat) (st : Nat → Nat) (hst : Starts st) (t : Nat) (ht : t < N) (lead : List Instr)
    (b : Block)
    (hd : ∀ q, q ∈ froms N sz b t → off sz b ((recvIdx b q).headD 0) + total sz b (recvIdx b q) ≤ st 1) :
    (segOf N sz st t lead b).Bufs (st 1) := by
  refine ⟨fun m hm => ?_, fun m hm => ?_, ?_⟩
  · obtain ⟨x, hx, rfl⟩ := List.mem_map.1 hm
    have hx1 : x.1 ∈ froms N sz b t := mem_zip hx
    have h1 := hd x.1 hx1
    have h2 := ((mem_froms ht).1 hx1).2.2
    dsimp only
    omega
  · obtain ⟨x, hx, rfl⟩ := List.mem_map.1 hm
    exact hst.ge (List.mem_zipIdx_iff_le_and_getElem?_sub.1 hx).1
  · show ((((froms N sz b t).zipIdx 1).map _).map RMsg.buf).Nodup
    rw [List.map_map]
    have e : (RMsg.buf ∘ fun x : Nat × Nat => (⟨st x.2, off sz b ((recvIdx b x.1).headD 0), total sz b (recvIdx b x.1), x.1⟩ : RMsg)) =
        st ∘ Prod.snd := rfl
    rw [e, ← List.map_map, List.zipIdx_map_snd]
    rw [List.nodup_map_iff]
    · exact List.nodup_range'
    · intro i j hij
      by_contra hne
      rcases Nat.lt_or_gt_of_ne hne with h | h
      · have := hst.mono i j h; omega
      · have := hst.mono j i h; omega

/-! ## Programs -/

/-- The blocks as segments. -/
def segsOf (N : Nat) (sz : Nat → Nat) (st : Nat → Nat) (t : Nat) : Bool → List Block → List Seg
  | _, [] => []
  | first, b :: bs => segOf N sz st t (if first then [] else [.barrier]) b :: segsOf N sz st t false bs

theorem segsOf_code (N : Nat) (sz : Nat → Nat) (st : Nat → Nat) (h0 : st 0 = 0) (t : Nat) (ht : t < N) (bs : List Block)
    (hb : ∀ b, b ∈ bs → Straight N b t) (first : Bool) :
    (blocksCode N sz t first bs).map (fl st) = (segsOf N sz st t first bs).flatMap Seg.code0 ++ [.barrier] := by
  induction bs generalizing first with
  | nil => rfl
  | cons b bs ih =>
    rw [blocksCode, segsOf, List.flatMap_cons, segOf_code N sz st h0 t ht _ b (hb b List.mem_cons_self),
      List.map_append, List.map_append, ih fun b' h => hb b' (List.mem_cons_of_mem _ h)]
    simp only [List.append_assoc]
    congr 1
    cases first <;> rfl

theorem mem_segsOf {N : Nat} {sz : Nat → Nat} {st : Nat → Nat} {t : Nat} {bs : List Block} {first : Bool} {g : Seg}
    (h : g ∈ segsOf N sz st t first bs) : ∃ b, b ∈ bs ∧ ∃ lead, Barriers lead ∧ g = segOf N sz st t lead b := by
  induction bs generalizing first with
  | nil => cases h
  | cons b bs ih =>
    rcases List.mem_cons.1 h with rfl | h
    · refine ⟨b, List.mem_cons_self, _, ?_, rfl⟩
      cases first
      · intro l hl; exact List.mem_singleton.1 hl
      · intro l hl; cases hl
    · obtain ⟨b', h1, h2⟩ := ih h
      exact ⟨b', List.mem_cons_of_mem _ h1, h2⟩

theorem lead_segsOf {N : Nat} {sz : Nat → Nat} {st : Nat → Nat} {t : Nat} {bs : List Block} {g : Seg}
    (h : g ∈ segsOf N sz st t false bs) : g.lead ≠ [] := by
  induction bs with
  | nil => cases h
  | cons b bs ih =>
    rcases List.mem_cons.1 h with rfl | h
    · intro e; cases e
    · exact ih h

/-- Copies from the user. -/
def CopyIns (cs : List Instr) : Prop := ∀ c, c ∈ cs → ∃ d s n, c = .copy false ⟨.shm 0, d⟩ ⟨.send, s⟩ n

/-- Copies to the user. -/
def CopyOuts (cs : List Instr) : Prop := ∀ c, c ∈ cs → ∃ d s n, c = .copy false ⟨.recv, d⟩ ⟨.shm 0, s⟩ n

/-- The code of a segment after the passes. -/
def Seg.done (g : Seg) : List Instr :=
  g.lead ++ g.recvs.map RMsg.direct ++ g.sends.map SMsg.direct ++ [.waitall, .barrier, .barrier] ++ join g.reds

theorem noCopy_final (g : Seg) (hl : Barriers g.lead) (R : List Instr) : NoCopyHead (g.final ++ R) := by
  intro r d s n T e
  unfold Seg.final at e
  cases h1 : g.lead with
  | cons x xs =>
    rw [h1] at e
    have := hl x (by rw [h1]; exact List.mem_cons_self)
    subst this
    simp at e
  | nil =>
    rw [h1] at e
    cases h2 : g.recvs with
    | cons x xs => rw [h2] at e; simp [RMsg.direct] at e
    | nil =>
      rw [h2] at e
      cases h3 : g.sends with
      | cons x xs => rw [h3] at e; simp [SMsg.direct] at e
      | nil => rw [h3] at e; simp at e

theorem join_segs (gs : List Seg) (hl : ∀ g, g ∈ gs → Barriers g.lead) (R : List Instr) :
    join (gs.flatMap Seg.final ++ .barrier :: R) = gs.flatMap Seg.done ++ .barrier :: join R := by
  induction gs with
  | nil => exact join_other (l := .barrier) id R
  | cons g gs ih =>
    have ih := ih fun g' h => hl g' (List.mem_cons_of_mem _ h)
    have hX : NoCopyHead (gs.flatMap Seg.final ++ .barrier :: R) := by
      cases gs with
      | nil => intro r d s n T e; simp at e
      | cons g' gs =>
        rw [List.flatMap_cons, List.append_assoc]
        exact noCopy_final g' (hl g' (by simp)) _
    have e : (g :: gs).flatMap Seg.final ++ .barrier :: R = (g.lead ++ g.recvs.map RMsg.direct ++ g.sends.map SMsg.direct ++
        [.waitall, .barrier, .barrier]) ++ (g.reds ++ (gs.flatMap Seg.final ++ .barrier :: R)) := by
      rw [List.flatMap_cons]
      unfold Seg.final
      simp only [List.append_assoc]
    rw [e, join_others, join_append _ _ hX, ih, List.flatMap_cons]
    · unfold Seg.done
      simp only [List.append_assoc]
    · intro l hl'
      rcases List.mem_append.1 hl' with h | h
      · rcases List.mem_append.1 h with h | h
        · rcases List.mem_append.1 h with h | h
          · rw [hl g List.mem_cons_self l h]; exact id
          · obtain ⟨x, _, rfl⟩ := List.mem_map.1 h; exact id
        · obtain ⟨x, _, rfl⟩ := List.mem_map.1 h; exact id
      · simp at h
        rcases h with rfl | rfl <;> exact id

theorem starts_start (C : Nat) (hC : 0 < C) (p : List Instr) : Starts (start C p) :=
  ⟨rfl, fun _ _ h => start_mono C p hC h⟩

/-- The passes up to the joining of copies. -/
theorem common_eq (C N : Nat) (hC : 0 < C) (sz : Nat → Nat) (t : Nat) (ht : t < N) (head ci co : List Instr) (bs : List Block)
    (hh : Barriers head) (hci : CopyIns ci) (hco : CopyOuts co) (hb : ∀ b, b ∈ bs → Straight N b t) :
    ∃ st, Starts st ∧ common C (head ++ ci ++ [.barrier] ++ blocksCode N sz t true bs ++ co) =
      some (head ++ join ci ++ .barrier :: ((segsOf N sz st t true bs).flatMap Seg.done ++ .barrier :: join co)) := by
  obtain ⟨p, hp⟩ : ∃ p, p = head ++ ci ++ [.barrier] ++ blocksCode N sz t true bs ++ co := ⟨_, rfl⟩
  have hst := starts_start C hC p
  refine ⟨start C p, hst, ?_⟩
  obtain ⟨st, est⟩ : ∃ st, st = start C p := ⟨_, rfl⟩
  have hdst : ∀ b, b ∈ bs → ∀ q, q ∈ froms N sz b t →
      off sz b ((recvIdx b q).headD 0) + total sz b (recvIdx b q) ≤ st 1 := by
    intro b hbm q hq
    obtain ⟨k, hk⟩ : ∃ k, (q, k) ∈ (froms N sz b t).zipIdx 1 := by
      have : q ∈ ((froms N sz b t).zipIdx 1).map Prod.fst := by rw [List.zipIdx_map_fst]; exact hq
      obtain ⟨x, h1, h2⟩ := List.mem_map.1 this
      exact ⟨x.2, by rw [← h2]; exact h1⟩
    have h1 : Instr.copy (reduces b t q) (sh (off sz b ((recvIdx b q).headD 0))) ⟨.shm k, 0⟩ (total sz b (recvIdx b q)) ∈
        blockCode N sz b t := by
      unfold blockCode
      rw [unpack_eq]
      simp only [List.mem_append]
      refine .inl (.inl (.inl (.inr ?_)))
      exact List.mem_map.2 ⟨(q, k), hk, rfl⟩
    have h2 : ∀ i, i ∈ blockCode N sz b t → ∀ first, i ∈ blocksCode N sz t first bs := by
      intro i hi
      clear hp hst hb h1 hk
      induction bs with
      | nil => cases hbm
      | cons b' bs ih =>
        intro first
        rw [blocksCode]
        simp only [List.mem_append]
        rcases List.mem_cons.1 hbm with rfl | hbm
        · exact .inl (.inr hi)
        · exact .inr (ih hbm false)
    have h3 := used_dst (p := p) (j := k) (by
      rw [hp]
      simp only [List.mem_append]
      exact .inl (.inr (h2 _ h1 true))) rfl
    rw [est, start, start]
    omega
  obtain ⟨P, hP⟩ : ∃ P : Prog, P = ⟨head, ci, segsOf N sz st t true bs, co⟩ := ⟨_, rfl⟩
  have hok : P.Ok := by
    rw [hP]
    refine ⟨hh, fun c hc => ?_, fun c hc => ?_, fun g hg => ?_, fun g hg => ?_, fun g hg => ?_, fun g hg => ?_⟩
    · obtain ⟨d, s, n, rfl⟩ := hci c hc
      exact ⟨_, _, _, rfl, rfl, rfl⟩
    · obtain ⟨d, s, n, rfl⟩ := hco c hc
      exact ⟨_, _, _, rfl, rfl, rfl⟩
    · obtain ⟨b, _, lead, h1, rfl⟩ := mem_segsOf hg
      exact h1
    · cases bs with
      | nil => cases hg
      | cons b bs => exact lead_segsOf hg
    · obtain ⟨b, h1, lead, _, rfl⟩ := mem_segsOf hg
      exact segOf_sends N sz st (by rw [est]; rfl) t ht lead b (hb b h1)
    · obtain ⟨b, _, lead, _, rfl⟩ := mem_segsOf hg
      exact segOf_reds N sz st t lead b
  have hbuf : ∀ g, g ∈ P.segs → g.Bufs (st 1) := by
    intro g hg
    rw [hP] at hg
    obtain ⟨b, h1, lead, _, rfl⟩ := mem_segsOf hg
    exact segOf_bufs N sz st (by rw [est]; exact hst) t ht lead b (hdst b h1)
  have hflat : flatten C p = P.code0 := by
    rw [flatten_eq, ← est, hp, hP]
    unfold Prog.code0
    have e1 : head.map (fl st) = head := by
      conv_rhs => rw [← List.map_id head]
      apply List.map_congr_left
      intro l hl
      rw [hh l hl]; rfl
    have e2 : ci.map (fl st) = ci := by
      conv_rhs => rw [← List.map_id ci]
      apply List.map_congr_left
      intro l hl
      obtain ⟨d, s, n, rfl⟩ := hci l hl
      simp [fl, mapAddr, placeAt, est, start, sh]
    have e3 : co.map (fl st) = co := by
      conv_rhs => rw [← List.map_id co]
      apply List.map_congr_left
      intro l hl
      obtain ⟨d, s, n, rfl⟩ := hco l hl
      simp [fl, mapAddr, placeAt, est, start, sh]
    rw [List.map_append, List.map_append, List.map_append, List.map_append, e1, e2, e3,
      segsOf_code N sz st (by rw [est]; rfl) t ht bs hb]
    simp [fl, mapAddr]
  unfold common
  rw [← hp, hflat, hok.optimiseSends, hok.optimiseRecvs hbuf, Option.map_some, ← est]
  congr 1
  rw [hP]
  unfold Prog.final
  dsimp only
  rw [List.append_assoc, join_others head _ (fun l hl => by rw [hh l hl]; exact id), join_append ci _ (by
    intro r d s n T e; cases e), join_other (l := .barrier) id, join_segs _ (fun g hg => by
      obtain ⟨b, _, lead, h1, rfl⟩ := mem_segsOf hg
      exact h1), List.append_assoc]

end ExtMpi.Optimise
