import Verif.Model.Lines
import Verif.Spec.NodeRun

namespace ExtMpi.Lines
open ExtMpi

/-- Value of cell `d` after the transfers `os` that all write `d`, sources read in `m`. -/
def cellFold {V : Type} (f : V → V → V) (m : Mem V) (v : V) (os : List ElemOp) : V :=
  os.foldl (fun v o => if o.red then f v (m o.src) else m o.src) v

theorem execOps_cell {V : Type} (f : V → V → V) (m m0 : Mem V) (os : List ElemOp)
    (hna : ∀ o ∈ os, ∀ o' ∈ os, o.src ≠ o'.dst)
    (hsrc : ∀ o ∈ os, m o.src = m0 o.src) (d : Loc) :
    execOps f m os d = cellFold f m0 (m d) (os.filter fun o => o.dst = d) := by
  induction os generalizing m with
  | nil => simp [execOps, cellFold]
  | cons o os ih =>
    have h1 : execOps f m (o :: os) = execOps f (execOp f m o) os := rfl
    rw [h1, ih (execOp f m o)]
    · by_cases hd : o.dst = d
      · subst hd
        simp [execOp, cellFold, hsrc o (by simp)]
      · have hd' : ¬ d = o.dst := fun h => hd h.symm
        simp [execOp, cellFold, hd, hd']
    · intro a ha b hb
      exact hna a (by simp [ha]) b (by simp [hb])
    · intro a ha
      have := hna a (by simp [ha]) o (by simp)
      simp only [execOp, this, if_false]
      exact hsrc a (by simp [ha])

/-- Two transfer lists with the same transfers into each cell, in the same order, and no source
among the destinations have the same effect. -/
theorem execOps_congr {V : Type} (f : V → V → V) (m : Mem V) (os os' : List ElemOp)
    (hna : ∀ o ∈ os, ∀ o' ∈ os, o.src ≠ o'.dst)
    (h : ∀ d : Loc, (os.filter fun o => o.dst = d) = os'.filter fun o => o.dst = d) :
    execOps f m os = execOps f m os' := by
  have hmem : ∀ o, o ∈ os' → o ∈ os := by
    intro o ho
    have : o ∈ os'.filter fun o' => o'.dst = o.dst := by simp [ho]
    rw [← h] at this
    exact (List.mem_filter.1 this).1
  funext d
  rw [execOps_cell f m m os hna (fun _ _ => rfl),
    execOps_cell f m m os' (fun a ha b hb => hna a (hmem a ha) b (hmem b hb)) (fun _ _ => rfl), h]

theorem filter_range_eq (n k : Nat) :
    ((List.range n).filter fun e => decide (e = k)) = if k < n then [k] else [] := by
  induction n with
  | zero => simp
  | succ n ih =>
    rw [List.range_succ, List.filter_append, ih]
    by_cases h : n = k
    · subst h; simp
    · by_cases h2 : k < n
      · simp [h, h2, show k < n + 1 by omega]
      · simp [h, h2, show ¬ k < n + 1 by omega]

/-- The transfers of a line into a given cell: at most one. -/
theorem elemOps_filter (t : Nat) (c : CopyLine) (d : Loc) :
    ((elemOps t c).filter fun o => o.dst = d) =
      if d.buf = c.buf1 ∧ d.num = c.num1 ∧ c.off1 / t ≤ d.idx ∧ d.idx < c.off1 / t + c.size / t then
        [⟨c.kind.isReduce, d, ⟨c.buf2, c.num2, c.off2 / t + (d.idx - c.off1 / t)⟩⟩] else [] := by
  obtain ⟨b, n, x⟩ := d
  unfold elemOps
  rw [List.filter_map]
  have hfun : ((fun o : ElemOp => decide (o.dst = ⟨b, n, x⟩)) ∘ fun e =>
      (⟨c.kind.isReduce, ⟨c.buf1, c.num1, c.off1 / t + e⟩, ⟨c.buf2, c.num2, c.off2 / t + e⟩⟩ : ElemOp))
      = fun e => decide (b = c.buf1 ∧ n = c.num1 ∧ c.off1 / t + e = x) := by
    funext e
    simp only [Function.comp, Loc.mk.injEq, decide_eq_decide]
    constructor
    · rintro ⟨h1, h2, h3⟩; exact ⟨h1.symm, h2.symm, h3⟩
    · rintro ⟨h1, h2, h3⟩; exact ⟨h1.symm, h2.symm, h3⟩
  rw [hfun]
  by_cases hb : b = c.buf1
  · by_cases hn : n = c.num1
    · by_cases hx : c.off1 / t ≤ x
      · have hfun2 : (fun e => decide (b = c.buf1 ∧ n = c.num1 ∧ c.off1 / t + e = x))
            = fun e => decide (e = x - c.off1 / t) := by
          funext e
          simp only [hb, hn, true_and, decide_eq_decide]
          omega
        rw [hfun2, filter_range_eq]
        by_cases hlt : x - c.off1 / t < c.size / t
        · have h2 : x < c.off1 / t + c.size / t := by omega
          simp [hb, hn, hx, h2, hlt]
        · have h2 : ¬ x < c.off1 / t + c.size / t := by omega
          simp [h2, hlt]
      · have : ∀ e, ¬ (c.off1 / t + e = x) := by intro e; omega
        simp [this, hx]
    · simp [hn]
  · simp [hb]

theorem elemOps_dst_of_mem {t : Nat} {c : CopyLine} {o : ElemOp} (h : o ∈ elemOps t c) :
    o.dst.buf = c.buf1 ∧ o.dst.num = c.num1 ∧ c.off1 / t ≤ o.dst.idx ∧
      o.dst.idx < c.off1 / t + c.size / t := by
  unfold elemOps at h
  simp only [List.mem_map, List.mem_range] at h
  obtain ⟨e, he, rfl⟩ := h
  exact ⟨rfl, rfl, by simp, by simpa using he⟩

theorem filter_flatMap' {α β : Type} (p : β → Bool) (g : α → List β) (l : List α) :
    (l.flatMap g).filter p = l.flatMap fun a => (g a).filter p := by
  induction l with
  | nil => rfl
  | cons a l ih => simp [List.filter_append, ih]

/-- In an interleaving in which only process `r` writes cell `d`, the transfers into `d` are those
of process `r`. -/
theorem interleaving_filter {n : Nat} {ops : Nat → List ElemOp} {L : List (Nat × ElemOp)}
    (h : Spec.Interleaving n ops L) (d : Loc) (r : Nat) (hr : r < n)
    (hother : ∀ r', r' < n → r' ≠ r → (ops r').filter (fun o => o.dst = d) = []) :
    (L.map Prod.snd).filter (fun o => o.dst = d) = (ops r).filter (fun o => o.dst = d) := by
  rw [← h.2 r hr, List.filter_map, List.filter_map, List.filter_filter]
  congr 1
  apply List.filter_congr
  intro x hx
  by_cases hxr : x.1 = r
  · simp [hxr]
  · have hx1 := h.1 x hx
    have := hother x.1 hx1 hxr
    rw [← h.2 x.1 hx1] at this
    have hne : ¬ x.2.dst = d := by
      intro heq
      have hmem : x.2 ∈ ((L.filter fun y => y.1 = x.1).map Prod.snd).filter (fun o => o.dst = d) := by
        simp only [List.mem_filter, List.mem_map, decide_eq_true_eq]
        exact ⟨⟨x, ⟨hx, rfl⟩, rfl⟩, heq⟩
      rw [this] at hmem
      cases hmem
    simp [hne]

end ExtMpi.Lines
