import Verif.Lemmas.Partition
import Verif.Lemmas.Lines

namespace ExtMpi.ParallelMemcpy
open ExtMpi.Lines

/-- Lines between two barriers: messages, then copies, then messages. -/
structure Block where
  pre : List Nat
  body : List CopyLine
  post : List Nat

def Block.lines (b : Block) : List Line :=
  b.pre.map Line.other ++ (b.body.map Line.copy ++ b.post.map Line.other)

/-- A program: blocks separated by barriers. -/
def program (first : Block) (rest : List Block) : List Line :=
  first.lines ++ rest.flatMap fun b => Line.barrier :: b.lines

/-- The line sizes the pass works with: every line with the largest size of its run. -/
def annot : Option (Int × Nat) → List CopyLine → List (CopyLine × Nat)
  | _, [] => []
  | o, c :: cs =>
    let S := match o with
      | some (off, size) =>
        if off ≠ c.off1 then scanMax c.off1 c.off1 0 ((c :: cs).map Line.copy) else size
      | none => scanMax c.off1 c.off1 0 ((c :: cs).map Line.copy)
    (c, S) :: annot (some (c.off1, S)) cs

def pieces (t n r : Nat) (l : List (CopyLine × Nat)) : List CopyLine :=
  l.flatMap fun x =>
    let p := pieceLine x.2 t n r x.1
    if p.size ≠ 0 then [p] else []

def EndOK (tl : List Line) : Prop := tl = [] ∨ ∃ r, tl = Line.barrier :: r

theorem scan_tail {o st : Int} {acc : Nat} {os : List Nat} {tl : List Line} (h : EndOK tl) :
    scanMax o st acc (os.map Line.other ++ tl) = acc := by
  induction os generalizing st with
  | nil =>
    rcases h with rfl | ⟨r, rfl⟩
    · rfl
    · rfl
  | cons a os ih =>
    simp only [List.map_cons, List.cons_append, scanMax, readOff, ih]
    exact ite_self _

theorem scan_body {o st : Int} {acc : Nat} {cs : List CopyLine} {os : List Nat} {tl : List Line}
    (h : EndOK tl) :
    scanMax o st acc (cs.map Line.copy ++ (os.map Line.other ++ tl)) =
      scanMax o st acc (cs.map Line.copy) := by
  induction cs generalizing st acc with
  | nil => simpa [scanMax] using scan_tail h
  | cons c cs ih =>
    simp only [List.map_cons, List.cons_append, scanMax, readOff, ih]
    rfl

theorem scan_pre {o : Int} {acc : Nat} {os : List Nat} {tl : List Line} :
    scanMax o o acc (os.map Line.other ++ tl) = scanMax o o acc tl := by
  induction os with
  | nil => rfl
  | cons a os ih => simpa [scanMax, readOff] using ih

theorem scan_st_irrel {o st st' : Int} {acc : Nat} {cs : List CopyLine} :
    scanMax o st acc (cs.map Line.copy) = scanMax o st' acc (cs.map Line.copy) := by
  cases cs with
  | nil => rfl
  | cons c cs => simp [scanMax, readOff]

theorem pass_body (t n r : Nat) (s : State) (cs : List CopyLine) (os : List Nat) (tl : List Line)
    (hsp : ∀ c ∈ cs, splittable c = true) (h : EndOK tl) :
    ∃ s', pass t n r s (cs.map Line.copy ++ (os.map Line.other ++ tl)) =
      (pieces t n r (annot (some (s.oldOff, s.oldSize)) cs)).map Line.copy ++
        pass t n r s' (os.map Line.other ++ tl) := by
  induction cs generalizing s with
  | nil => exact ⟨s, by simp [annot, pieces]⟩
  | cons c cs ih =>
    have hc := hsp c (by simp)
    have hscan := scan_body (o := c.off1) (st := c.off1) (acc := 0) (cs := c :: cs) (os := os) h
    simp only [List.map_cons, List.cons_append] at hscan
    have hne : ((Line.copy c : Line) == Line.barrier) = false := rfl
    simp only [List.map_cons, List.cons_append, pass, hc, if_true, readOff, hne, Bool.false_or,
      Bool.false_eq_true, if_false, bne_iff_ne, hscan, annot]
    generalize hS : (if s.oldOff ≠ (c.off1 : Int) then
      scanMax (↑c.off1) (↑c.off1) 0 (Line.copy c :: List.map Line.copy cs) else s.oldSize) = S
    obtain ⟨s', hs'⟩ := ih ⟨(pieceLine S t n r c).off1, c.off1, S⟩
      (fun c' hc' => hsp c' (by simp [hc']))
    refine ⟨s', ?_⟩
    rw [hs']
    simp only [pieces, List.flatMap_cons]
    split <;> simp

theorem pass_others (t n r : Nat) (s : State) (os : List Nat) (tl : List Line) :
    ∃ s', pass t n r s (os.map Line.other ++ tl) = os.map Line.other ++ pass t n r s' tl := by
  induction os generalizing s with
  | nil => exact ⟨s, rfl⟩
  | cons a os ih =>
    simp only [List.map_cons, List.cons_append, pass]
    obtain ⟨s', hs'⟩ := ih _
    exact ⟨s', congrArg _ hs'⟩

theorem pass_pre (t n r : Nat) (s : State) (hs : s.oldOff = s.cur) (os : List Nat)
    (tl : List Line) :
    pass t n r s (os.map Line.other ++ tl) = os.map Line.other ++ pass t n r s tl := by
  induction os with
  | nil => rfl
  | cons a os ih =>
    have hne : ((Line.other a : Line) == Line.barrier) = false := rfl
    simp only [List.map_cons, List.cons_append, pass, readOff, hne, Bool.false_or,
      bne_iff_ne, ne_eq, hs, not_true, if_false]
    have : (⟨s.cur, s.cur, s.oldSize⟩ : State) = s := by
      cases s; simp_all
    rw [this, ih]

theorem annot_start (cur : Int) (S : Nat) (cs : List CopyLine)
    (h : S = scanMax cur cur 0 (cs.map Line.copy) ∨ cur < 0) :
    annot (some (cur, S)) cs = annot none cs := by
  cases cs with
  | nil => rfl
  | cons c cs =>
    simp only [annot]
    by_cases hcur : cur = c.off1
    · rcases h with h | h
      · subst hcur; simp [h]
      · omega
    · simp [hcur]

theorem pass_block (t n r : Nat) (s : State) (b : Block) (tl : List Line)
    (hsp : ∀ c ∈ b.body, splittable c = true) (h : EndOK tl) (hs : s.oldOff = s.cur)
    (hsz : s.oldSize = scanMax s.cur s.cur 0 (b.body.map Line.copy) ∨ s.cur < 0) :
    ∃ s', pass t n r s (b.lines ++ tl) =
      b.pre.map Line.other ++ ((pieces t n r (annot none b.body)).map Line.copy ++
        b.post.map Line.other) ++ pass t n r s' tl := by
  unfold Block.lines
  rw [List.append_assoc, pass_pre t n r s hs, List.append_assoc]
  obtain ⟨s1, h1⟩ := pass_body t n r s b.body b.post tl hsp h
  obtain ⟨s2, h2⟩ := pass_others t n r s1 b.post tl
  refine ⟨s2, ?_⟩
  rw [h1, h2, hs, annot_start _ _ _ hsz]
  simp

theorem pass_rest (t n r : Nat) (s : State) (rest : List Block)
    (hsp : ∀ b ∈ rest, ∀ c ∈ b.body, splittable c = true) :
    pass t n r s (rest.flatMap fun b => Line.barrier :: b.lines) =
      rest.flatMap fun b => Line.barrier :: (b.pre.map Line.other ++
        ((pieces t n r (annot none b.body)).map Line.copy ++ b.post.map Line.other)) := by
  induction rest generalizing s with
  | nil => rfl
  | cons b rest ih =>
    have hend : EndOK (rest.flatMap fun b => Line.barrier :: b.lines) := by
      cases rest with
      | nil => exact Or.inl rfl
      | cons b' rest => exact Or.inr ⟨_, rfl⟩
    simp only [List.flatMap_cons, List.cons_append]
    have hb : ((Line.barrier : Line) == Line.barrier) = true := rfl
    simp only [pass, readOff, hb, Bool.true_or, if_true]
    obtain ⟨s', hs'⟩ := pass_block t n r
      ⟨s.cur, s.cur, scanMax s.cur s.cur 0 (b.lines ++ rest.flatMap fun b => Line.barrier :: b.lines)⟩
      b _ (hsp b (by simp)) hend rfl (by
        left
        show scanMax s.cur s.cur 0 _ = _
        rw [show b.lines = b.pre.map Line.other ++ (b.body.map Line.copy ++ b.post.map Line.other)
          from rfl, List.append_assoc, scan_pre, List.append_assoc, scan_body hend])
    rw [hs', ih s' (fun b' hb' => hsp b' (by simp [hb']))]

theorem pass_program (t n r : Nat) (first : Block) (rest : List Block)
    (hf : ∀ c ∈ first.body, splittable c = true)
    (hsp : ∀ b ∈ rest, ∀ c ∈ b.body, splittable c = true) :
    pass t n r initState (program first rest) =
      first.pre.map Line.other ++ ((pieces t n r (annot none first.body)).map Line.copy ++
        first.post.map Line.other) ++
      rest.flatMap fun b => Line.barrier :: (b.pre.map Line.other ++
        ((pieces t n r (annot none b.body)).map Line.copy ++ b.post.map Line.other)) := by
  have hend : EndOK (rest.flatMap fun b => Line.barrier :: b.lines) := by
    cases rest with
    | nil => exact Or.inl rfl
    | cons b' rest => exact Or.inr ⟨_, rfl⟩
  obtain ⟨s', hs'⟩ := pass_block t n r initState first _ hf hend rfl (Or.inr (by decide))
  unfold program
  rw [hs', pass_rest t n r s' rest hsp]

/-! ### Facts about the run sizes -/

theorem scan_acc {o st : Int} {acc : Nat} {ls : List Line} :
    scanMax o st acc ls = max acc (scanMax o st 0 ls) := by
  induction ls generalizing st acc with
  | nil => simp [scanMax]
  | cons l ls ih =>
    cases l with
    | barrier => simp [scanMax]
    | other a =>
      simp only [scanMax]
      split
      · simp
      · exact ih
    | copy c =>
      simp only [scanMax]
      split
      · simp
      · split
        · rw [ih]
          conv_rhs => rw [ih]
          split <;> split <;> omega
        · exact ih

theorem annot_ge (o : Option (Int × Nat)) (cs : List CopyLine)
    (hsp : ∀ c ∈ cs, splittable c = true)
    (ho : ∀ off S, o = some (off, S) → scanMax off off 0 (cs.map Line.copy) ≤ S) :
    ∀ x ∈ annot o cs, x.1.size ≤ x.2 := by
  induction cs generalizing o with
  | nil => simp [annot]
  | cons c cs ih =>
    have hc := hsp c (by simp)
    have hstep : scanMax c.off1 c.off1 0 ((c :: cs).map Line.copy) =
        max c.size (scanMax c.off1 c.off1 0 (cs.map Line.copy)) := by
      simp only [List.map_cons, scanMax, readOff, ne_eq, not_true, if_false, hc, if_true]
      rw [scan_acc]
      split <;> omega
    simp only [annot]
    generalize hS : (match o with
      | some (off, size) => if off ≠ (c.off1 : Int) then
          scanMax c.off1 c.off1 0 ((c :: cs).map Line.copy) else size
      | none => scanMax c.off1 c.off1 0 ((c :: cs).map Line.copy)) = S
    have hge : scanMax c.off1 c.off1 0 ((c :: cs).map Line.copy) ≤ S := by
      cases o with
      | none => simp only at hS; omega
      | some p =>
        obtain ⟨off, sz⟩ := p
        simp only at hS
        split at hS
        · omega
        · rename_i hh
          have hoff : off = c.off1 := by simpa using hh
          have := ho off sz rfl
          rw [hoff] at this
          omega
    rw [hstep] at hge
    intro x hx
    rcases List.mem_cons.1 hx with rfl | hx
    · show c.size ≤ S; omega
    · refine ih (some (c.off1, S)) (fun c' h' => hsp c' (by simp [h'])) ?_ x hx
      intro off S' h
      simp only [Option.some.injEq, Prod.mk.injEq] at h
      obtain ⟨rfl, rfl⟩ := h
      omega

theorem annot_map_fst (o : Option (Int × Nat)) (cs : List CopyLine) :
    (annot o cs).map Prod.fst = cs := by
  induction cs generalizing o with
  | nil => rfl
  | cons c cs ih => simp only [annot, List.map_cons, ih]

/-- Lines of one run have the same run size. -/
theorem annot_same (o : Option (Int × Nat)) (cs : List CopyLine) :
    ∀ A B D (x y : CopyLine × Nat), annot o cs = A ++ x :: (B ++ y :: D) →
      (∀ z ∈ B, z.1.off1 = x.1.off1) → y.1.off1 = x.1.off1 → x.2 = y.2 := by
  have aux : ∀ (cs : List CopyLine) (off : Nat) (S : Nat) B D (y : CopyLine × Nat),
      annot (some ((off : Int), S)) cs = B ++ y :: D → (∀ z ∈ B, z.1.off1 = off) →
      y.1.off1 = off → S = y.2 := by
    intro cs
    induction cs with
    | nil => intro off S B D y h; simp [annot] at h
    | cons c cs ih =>
      intro off S B D y h hB hy
      simp only [annot] at h
      cases B with
      | nil =>
        simp only [List.nil_append, List.cons.injEq] at h
        obtain ⟨rfl, _⟩ := h
        simp only at hy ⊢
        rw [hy]; simp
      | cons b B =>
        simp only [List.cons_append, List.cons.injEq] at h
        obtain ⟨hb, h⟩ := h
        have hoff := hB b (by simp)
        rw [← hb] at hoff
        simp only at hoff
        rw [hoff] at h
        simp only [ne_eq, not_true, if_false] at h
        exact ih off S B D y h (fun z hz => hB z (by simp [hz])) hy
  induction cs generalizing o with
  | nil => intro A B D x y h; simp [annot] at h
  | cons c cs ih =>
    intro A B D x y h hB hy
    simp only [annot] at h
    cases A with
    | nil =>
      simp only [List.nil_append, List.cons.injEq] at h
      obtain ⟨rfl, h⟩ := h
      exact aux cs c.off1 _ B D y h hB hy
    | cons a A =>
      simp only [List.cons_append, List.cons.injEq] at h
      exact ih _ A B D x y h.2 hB hy

end ExtMpi.ParallelMemcpy
