import Verif.Lemmas.OptimiseRecvs
import Verif.Lemmas.RawCodeBlocks
/-! # Joining of adjacent copies -/
namespace ExtMpi.Optimise
open RawCode

/-! ## The main loop -/

theorem joinFwd_length (r : Bool) (d s : Addr) (n : Nat) (ls : List Instr) : (joinFwd r d s n ls).2.length ≤ ls.length := by
  induction ls generalizing n with
  | nil => exact Nat.le_refl _
  | cons l ls ih =>
    cases l with
    | copy r' d' s' n' =>
      rw [joinFwd]
      split
      · have := ih (n + n')
        rw [List.length_cons]; omega
      · exact Nat.le_refl _
    | _ => exact Nat.le_refl _

theorem joinBwd_length (r : Bool) (d s : Addr) (n : Nat) (o : Nat × Nat) (ls : List Instr) :
    (joinBwd r d s n o ls).2.2.length ≤ ls.length := by
  induction ls generalizing n o with
  | nil => exact Nat.le_refl _
  | cons l ls ih =>
    cases l with
    | copy r' d' s' n' =>
      rw [joinBwd]
      split
      · have := ih (n + n') (d'.off, s'.off)
        rw [List.length_cons]; omega
      · exact Nat.le_refl _
    | _ => exact Nat.le_refl _

theorem joinF_fuel (ls : List Instr) : ∀ f, ls.length ≤ f → joinF f ls = join ls := by
  suffices ∀ k, ∀ ls : List Instr, ls.length ≤ k → ∀ f f', ls.length ≤ f → ls.length ≤ f' →
      joinF f ls = joinF f' ls from
    fun f h => this ls.length ls (Nat.le_refl _) f ls.length h (Nat.le_refl _)
  intro k
  induction k with
  | zero =>
    intro ls h f f' _ _
    have : ls = [] := List.length_eq_zero_iff.1 (by omega)
    subst this
    cases f <;> cases f' <;> rfl
  | succ k ih =>
    intro ls h f f' hf hf'
    cases ls with
    | nil => cases f <;> cases f' <;> rfl
    | cons l ls =>
      rw [List.length_cons] at h hf hf'
      obtain ⟨f, rfl⟩ : ∃ g, f = g + 1 := ⟨f - 1, by omega⟩
      obtain ⟨f', rfl⟩ : ∃ g, f' = g + 1 := ⟨f' - 1, by omega⟩
      have h0 := ih ls (by omega) f f' (by omega) (by omega)
      cases l with
      | copy r d s n =>
        have h1 := joinFwd_length r d s n ls
        have h2 := joinBwd_length r d s n (d.off, s.off) ls
        simp only [joinF]
        rw [h0, ih _ (by omega) f f' (by omega) (by omega), ih (joinBwd r d s n (d.off, s.off) ls).2.2 (by omega) f f' (by omega) (by omega)]
      | _ => simp only [joinF]; rw [h0]

theorem join_other {l : Instr} (h : ¬IsCopy l) (ls : List Instr) : join (l :: ls) = l :: join ls := by
  unfold join
  rw [List.length_cons]
  cases l with
  | copy r d s n => exact absurd trivial h
  | _ => rfl

theorem join_others (A B : List Instr) (h : ∀ l, l ∈ A → ¬IsCopy l) : join (A ++ B) = A ++ join B := by
  induction A with
  | nil => rfl
  | cons l A ih =>
    rw [List.cons_append, join_other (h l List.mem_cons_self), ih fun l' hl => h l' (List.mem_cons_of_mem _ hl)]
    rfl

theorem join_copy (r : Bool) (d s : Addr) (n : Nat) (ls : List Instr) : join (.copy r d s n :: ls) =
    if (joinFwd r d s n ls).2.length < ls.length then
      .copy r d s (joinFwd r d s n ls).1 :: join (joinFwd r d s n ls).2
    else if (joinBwd r d s n (d.off, s.off) ls).2.2.length < ls.length then
      .copy r ⟨d.reg, (joinBwd r d s n (d.off, s.off) ls).2.1.1⟩ ⟨s.reg, (joinBwd r d s n (d.off, s.off) ls).2.1.2⟩
        (joinBwd r d s n (d.off, s.off) ls).1 :: join (joinBwd r d s n (d.off, s.off) ls).2.2
    else .copy r d s n :: join ls := by
  have h1 := joinFwd_length r d s n ls
  have h2 := joinBwd_length r d s n (d.off, s.off) ls
  rw [← joinF_fuel (.copy r d s n :: ls) (ls.length + 1) (by simp)]
  simp only [joinF]
  rw [joinF_fuel _ _ h1, joinF_fuel _ _ h2]
  rfl

/-- Does not begin with a copy. -/
def NoCopyHead (X : List Instr) : Prop := ∀ r d s n R, X ≠ .copy r d s n :: R

theorem joinFwd_append (r : Bool) (d s : Addr) (A X : List Instr) (hX : NoCopyHead X) (n : Nat) :
    joinFwd r d s n (A ++ X) = ((joinFwd r d s n A).1, (joinFwd r d s n A).2 ++ X) := by
  induction A generalizing n with
  | nil =>
    cases X with
    | nil => rfl
    | cons x X =>
      cases x with
      | copy r' d' s' n' => exact absurd rfl (hX r' d' s' n' X)
      | _ => rfl
  | cons l A ih =>
    cases l with
    | copy r' d' s' n' =>
      rw [List.cons_append, joinFwd, joinFwd]
      split
      · exact ih _
      · rfl
    | _ => rfl

theorem joinBwd_append (r : Bool) (d s : Addr) (A X : List Instr) (hX : NoCopyHead X) (n : Nat) (o : Nat × Nat) :
    joinBwd r d s n o (A ++ X) =
      ((joinBwd r d s n o A).1, (joinBwd r d s n o A).2.1, (joinBwd r d s n o A).2.2 ++ X) := by
  induction A generalizing n o with
  | nil =>
    cases X with
    | nil => rfl
    | cons x X =>
      cases x with
      | copy r' d' s' n' => exact absurd rfl (hX r' d' s' n' X)
      | _ => rfl
  | cons l A ih =>
    cases l with
    | copy r' d' s' n' =>
      rw [List.cons_append, joinBwd, joinBwd]
      split
      · exact ih _ _
      · rfl
    | _ => rfl

/-- Copies are joined up to the next other line. -/
theorem join_append (A X : List Instr) (hX : NoCopyHead X) : join (A ++ X) = join A ++ join X := by
  suffices ∀ k, ∀ A : List Instr, A.length ≤ k → join (A ++ X) = join A ++ join X from this A.length A (Nat.le_refl _)
  intro k
  induction k with
  | zero =>
    intro A hA
    have : A = [] := List.length_eq_zero_iff.1 (by omega)
    subst this
    rfl
  | succ k ih =>
    intro A hA
    cases A with
    | nil => rfl
    | cons l A =>
      rw [List.length_cons] at hA
      by_cases hc : IsCopy l
      · cases l with
        | copy r d s n =>
          have h1 := joinFwd_length r d s n A
          have h2 := joinBwd_length r d s n (d.off, s.off) A
          rw [List.cons_append, join_copy, join_copy, joinFwd_append r d s A X hX, joinBwd_append r d s A X hX,
            ih A (by omega)]
          simp only [List.length_append, Nat.add_lt_add_iff_right]
          rw [ih _ (by omega), ih (joinBwd r d s n (d.off, s.off) A).2.2 (by omega)]
          split
          · rfl
          · split <;> rfl
        | _ => exact hc.elim
      · rw [List.cons_append, join_other hc, join_other hc, ih A (by omega)]
        rfl

/-- A property of the kind of operands holds for the joined copies as well. -/
theorem join_regs (P : Bool → Reg → Reg → Prop) (cs : List Instr)
    (h : ∀ c, c ∈ cs → ∃ r d s n, c = .copy r d s n ∧ P r d.reg s.reg) :
    ∀ c, c ∈ join cs → ∃ r d s n, c = .copy r d s n ∧ P r d.reg s.reg := by
  have fwd : ∀ (r : Bool) (d s : Addr) (ls : List Instr) (n : Nat) c, c ∈ (joinFwd r d s n ls).2 → c ∈ ls := by
    intro r d s ls
    induction ls with
    | nil => intro n c hc; exact hc
    | cons l ls ih =>
      intro n c hc
      cases l with
      | copy r' d' s' n' =>
        rw [joinFwd] at hc
        split at hc
        · exact List.mem_cons_of_mem _ (ih _ c hc)
        · exact hc
      | _ => exact hc
  have bwd : ∀ (r : Bool) (d s : Addr) (ls : List Instr) (n : Nat) (o : Nat × Nat) c,
      c ∈ (joinBwd r d s n o ls).2.2 → c ∈ ls := by
    intro r d s ls
    induction ls with
    | nil => intro n o c hc; exact hc
    | cons l ls ih =>
      intro n o c hc
      cases l with
      | copy r' d' s' n' =>
        rw [joinBwd] at hc
        split at hc
        · exact List.mem_cons_of_mem _ (ih _ _ c hc)
        · exact hc
      | _ => exact hc
  suffices ∀ k, ∀ cs : List Instr, cs.length ≤ k → (∀ c, c ∈ cs → ∃ r d s n, c = .copy r d s n ∧ P r d.reg s.reg) →
      ∀ c, c ∈ join cs → ∃ r d s n, c = .copy r d s n ∧ P r d.reg s.reg from this cs.length cs (Nat.le_refl _) h
  intro k
  induction k with
  | zero =>
    intro cs hk _ c hc
    have : cs = [] := List.length_eq_zero_iff.1 (by omega)
    subst this
    cases hc
  | succ k ih =>
    intro cs hk h c hc
    cases cs with
    | nil => cases hc
    | cons l cs =>
      rw [List.length_cons] at hk
      obtain ⟨r, d, s, n, rfl, hp⟩ := h l List.mem_cons_self
      have h' : ∀ c, c ∈ cs → ∃ r d s n, c = .copy r d s n ∧ P r d.reg s.reg := fun c hc => h c (List.mem_cons_of_mem _ hc)
      have h1 := joinFwd_length r d s n cs
      have h2 := joinBwd_length r d s n (d.off, s.off) cs
      rw [join_copy] at hc
      split at hc
      · rcases List.mem_cons.1 hc with rfl | hc
        · exact ⟨_, _, _, _, rfl, hp⟩
        · exact ih _ (by omega) (fun c hc => h' c (fwd _ _ _ _ _ c hc)) c hc
      · split at hc
        · rcases List.mem_cons.1 hc with rfl | hc
          · exact ⟨_, _, _, _, rfl, hp⟩
          · exact ih _ (by omega) (fun c hc => h' c (bwd _ _ _ _ _ _ c hc)) c hc
        · rcases List.mem_cons.1 hc with rfl | hc
          · exact ⟨_, _, _, _, rfl, hp⟩
          · exact ih _ (by omega) h' c hc

/-! ## Reductions of a block -/

/-- A reduction within the rows: row of the source, position in the row, size. -/
structure Red where
  row : Nat
  pos : Nat
  size : Nat

/-- The line, with `ρ r x` the address of element `x` of row `r`, into row `dr`. -/
def Red.instr (ρ : Nat → Nat → Addr) (dr : Nat) (t : Red) : Instr := .copy true (ρ dr t.pos) (ρ t.row t.pos) t.size

/-- Rows of `L` elements in scratch memory. -/
def flat (L r x : Nat) : Addr := sh (r * L + x)

/-- What joining does with a reduction and the ones behind it. -/
inductive Merged (a x : Nat) : Nat → List Red → Nat → List Red → Prop
  | refl {n ts} : Merged a x n ts n ts
  | step {n k ts n' ts'} : Merged a x (n + k) ts n' ts' → Merged a x n (⟨a, x + n, k⟩ :: ts) n' ts'

/-- What joining does with the reductions. -/
inductive Joined : List Red → List Red → Prop
  | nil : Joined [] []
  | cons {a x n ts n' ts' us} : Merged a x n ts n' ts' → Joined ts' us → Joined (⟨a, x, n⟩ :: ts) (⟨a, x, n'⟩ :: us)

theorem merged_fwd (L dr a x : Nat) (ts : List Red) :
    ∀ n, 0 < n → x + n ≤ L → (∀ t, t ∈ ts → 0 < t.size ∧ t.pos + t.size ≤ L) →
      ∃ n' ts', joinFwd true (flat L dr x) (flat L a x) n (ts.map (Red.instr (flat L) dr)) =
        (n', ts'.map (Red.instr (flat L) dr)) ∧ Merged a x n ts n' ts' := by
  induction ts with
  | nil => intro n _ _ _; exact ⟨n, [], rfl, .refl⟩
  | cons t ts ih =>
    intro n hn hx ht
    obtain ⟨b, y, k⟩ := t
    have h1 := ht ⟨b, y, k⟩ List.mem_cons_self
    dsimp only at h1
    have e0 : (Red.mk b y k :: ts).map (Red.instr (flat L) dr) =
        .copy true (flat L dr y) (flat L b y) k :: ts.map (Red.instr (flat L) dr) := rfl
    rw [e0, joinFwd]
    split
    · next h =>
      simp only [Bool.and_eq_true, beq_iff_eq] at h
      have e1 : dr * L + x + n = dr * L + y := h.1.1.2
      have e2 : a * L + x + n = b * L + y := h.1.2
      have e3 : y = x + n := by omega
      have e4 : a * L = b * L := by omega
      have e5 : a = b := Nat.eq_of_mul_eq_mul_right (by omega) e4
      subst e3; subst e5
      obtain ⟨n', ts', g1, g2⟩ := ih (n + k) (by omega) (by omega) fun t h => ht t (List.mem_cons_of_mem _ h)
      exact ⟨n', ts', g1, .step g2⟩
    · exact ⟨n, _, rfl, .refl⟩

theorem Merged.sublist {a x n n' : Nat} {ts ts' : List Red} (h : Merged a x n ts n' ts') : ts'.Sublist ts := by
  induction h with
  | refl => exact List.Sublist.refl _
  | step _ ih => exact ih.cons _

theorem Merged.length {a x n n' : Nat} {ts ts' : List Red} (h : Merged a x n ts n' ts')
    (hl : ¬ts'.length < ts.length) : n' = n ∧ ts' = ts := by
  cases h with
  | refl => exact ⟨rfl, rfl⟩
  | step h =>
    have := h.sublist.length_le
    rw [List.length_cons] at hl
    omega

theorem joined_flat (L dr : Nat) (ts : List Red) (h : ∀ t, t ∈ ts → 0 < t.size ∧ t.pos + t.size ≤ L)
    (ho : ts.Pairwise fun t u => t.pos ≤ u.pos) :
    ∃ us, join (ts.map (Red.instr (flat L) dr)) = us.map (Red.instr (flat L) dr) ∧ Joined ts us := by
  suffices ∀ k, ∀ ts : List Red, ts.length ≤ k → (∀ t, t ∈ ts → 0 < t.size ∧ t.pos + t.size ≤ L) →
      ts.Pairwise (fun t u => t.pos ≤ u.pos) →
      ∃ us, join (ts.map (Red.instr (flat L) dr)) = us.map (Red.instr (flat L) dr) ∧ Joined ts us from
    this ts.length ts (Nat.le_refl _) h ho
  intro k
  induction k with
  | zero =>
    intro ts hk _ _
    have : ts = [] := List.length_eq_zero_iff.1 (by omega)
    subst this
    exact ⟨[], rfl, .nil⟩
  | succ k ih =>
    intro ts hk h ho
    cases ts with
    | nil => exact ⟨[], rfl, .nil⟩
    | cons t ts =>
      obtain ⟨a, x, n⟩ := t
      rw [List.length_cons] at hk
      rw [List.pairwise_cons] at ho
      have h1 := h ⟨a, x, n⟩ List.mem_cons_self
      dsimp only at h1
      have h2 : ∀ t, t ∈ ts → 0 < t.size ∧ t.pos + t.size ≤ L := fun t ht => h t (List.mem_cons_of_mem _ ht)
      obtain ⟨n', ts', g1, g2⟩ := merged_fwd L dr a x ts n h1.1 h1.2 h2
      have e0 : (Red.mk a x n :: ts).map (Red.instr (flat L) dr) =
        .copy true (flat L dr x) (flat L a x) n :: ts.map (Red.instr (flat L) dr) := rfl
      have gs := g2.sublist
      rw [e0, join_copy, g1]
      dsimp only
      rw [List.length_map, List.length_map]
      by_cases hl : ts'.length < ts.length
      · rw [if_pos hl]
        obtain ⟨us, k1, k2⟩ := ih ts' (by omega) (fun t ht => h2 t (gs.subset ht)) (ho.2.sublist gs)
        exact ⟨⟨a, x, n'⟩ :: us, by rw [k1]; rfl, .cons g2 k2⟩
      · obtain ⟨e1, e2⟩ := g2.length hl
        subst e1; subst e2
        rw [if_neg hl]
        have hb : (joinBwd true (flat L dr x) (flat L a x) n' ((flat L dr x).off, (flat L a x).off)
            (ts'.map (Red.instr (flat L) dr))).2.2 = ts'.map (Red.instr (flat L) dr) := by
          cases ts' with
          | nil => rfl
          | cons u us =>
            have := ho.1 u List.mem_cons_self
            dsimp only at this
            obtain ⟨b, y, m⟩ := u
            dsimp only at this
            rw [List.map_cons]
            show (joinBwd _ _ _ _ _ (.copy true (flat L dr y) (flat L b y) m :: _)).2.2 = _
            rw [joinBwd, if_neg]
            · rfl
            · intro g
              simp only [Bool.and_eq_true, beq_iff_eq] at g
              have : dr * L + y + n' = dr * L + x := g.1.2
              omega
        rw [if_neg (by rw [hb, List.length_map]; omega)]
        obtain ⟨us, k1, k2⟩ := ih ts' (by omega) h2 ho.2
        exact ⟨⟨a, x, n'⟩ :: us, by rw [k1]; rfl, .cons g2 k2⟩

theorem Joined.prop {ts us : List Red} (h : Joined ts us) (P : Red → Prop)
    (hP : ∀ a x n k, P ⟨a, x, n⟩ → P ⟨a, x + n, k⟩ → P ⟨a, x, n + k⟩) (hts : ∀ t, t ∈ ts → P t) : ∀ u, u ∈ us → P u := by
  induction h with
  | nil => intro u hu; cases hu
  | @cons a x n ts n' ts' us hm hj ih =>
    have hh := hts ⟨a, x, n⟩ List.mem_cons_self
    have ht : ∀ t, t ∈ ts → P t := fun t h => hts t (List.mem_cons_of_mem _ h)
    clear hts
    have key : P ⟨a, x, n'⟩ := by
      clear ih hj
      induction hm with
      | refl => exact hh
      | @step n k ts n' ts' _ ih =>
        exact ih (hP a x n k hh (ht _ List.mem_cons_self)) (fun t h => ht t (List.mem_cons_of_mem _ h))
    intro u hu
    rcases List.mem_cons.1 hu with rfl | hu
    · exact key
    · exact ih (fun t h => ht t (hm.sublist.subset h)) u hu

/-! ## Addresses of the elements of rows -/

/-- `ρ` gives the elements `D` of the rows different addresses, neighbours are adjacent. -/
structure Place (D : Nat → Nat → Prop) (ρ : Nat → Nat → Addr) : Prop where
  next : ∀ r i, D r i → D r (i + 1) → ρ r (i + 1) = ⟨(ρ r i).reg, (ρ r i).off + 1⟩
  inj : ∀ r i r' i', D r i → D r' i' → ρ r i = ρ r' i' → r = r' ∧ i = i'

/-- The interval of a row. -/
def Cells (D : Nat → Nat → Prop) (r x n : Nat) : Prop := ∀ j, j < n → D r (x + j)

theorem Cells.append {D : Nat → Nat → Prop} {r x n k : Nat} (h1 : Cells D r x n) (h2 : Cells D r (x + n) k) :
    Cells D r x (n + k) := by
  intro j hj
  by_cases c : j < n
  · exact h1 j c
  · have := h2 (j - n) (by omega)
    rw [show x + n + (j - n) = x + j by omega] at this
    exact this

theorem Place.at {D : Nat → Nat → Prop} {ρ : Nat → Nat → Addr} (h : Place D ρ) {r x n : Nat} (hc : Cells D r x n) :
    ∀ j, j < n → ρ r (x + j) = ⟨(ρ r x).reg, (ρ r x).off + j⟩ := by
  intro j
  induction j with
  | zero => intro _; rfl
  | succ j ih =>
    intro hj
    rw [← Nat.add_assoc, h.next r (x + j) (hc j (by omega)) (hc (j + 1) hj), ih (by omega)]
    rfl

theorem Place.inside {D : Nat → Nat → Prop} {ρ : Nat → Nat → Addr} (h : Place D ρ) {r x n : Nat} (hc : Cells D r x n)
    {r' i : Nat} (hD : D r' i) (ho : RawCode.inside (ρ r' i).reg (ρ r' i).off (ρ r x) n) : r' = r ∧ x ≤ i ∧ i < x + n := by
  obtain ⟨h1, h2, h3⟩ := ho
  obtain ⟨j, hj⟩ : ∃ j, (ρ r' i).off = (ρ r x).off + j := ⟨(ρ r' i).off - (ρ r x).off, by omega⟩
  have hjn : j < n := by omega
  have e := h.at hc j hjn
  have : ρ r' i = ρ r (x + j) := by
    rw [e]
    cases hq : ρ r' i with
    | mk a b =>
      rw [hq] at h1 hj
      dsimp only at h1 hj
      rw [h1, hj]
  obtain ⟨e1, e2⟩ := h.inj _ _ _ _ hD (hc j hjn) this
  exact ⟨e1, by omega, by omega⟩

theorem Place.overlap {D : Nat → Nat → Prop} {ρ : Nat → Nat → Addr} (h : Place D ρ) {r x n r' x' n' : Nat}
    (h1 : Cells D r x n) (h2 : Cells D r' x' n') (hn : 0 < n) (hn' : 0 < n')
    (ho : RawCode.overlap (ρ r x) n (ρ r' x') n') : r = r' ∧ x < x' + n' ∧ x' < x + n := by
  obtain ⟨g1, g2, g3⟩ := ho
  by_cases c : (ρ r x).off ≤ (ρ r' x').off
  · have := h.inside h1 (h2 0 hn') (r' := r') (i := x') ⟨g1.symm, c, g3⟩
    exact ⟨this.1.symm, by omega, by omega⟩
  · have := h.inside h2 (h1 0 hn) (r' := r) (i := x) ⟨g1, by omega, g2⟩
    exact ⟨this.1, by omega, by omega⟩

variable {X : Type} [Add X]

theorem copyMem_join (red : Bool) (d s : Addr) (n k : Nat) (m : Mem X)
    (ho : ¬overlap d n ⟨s.reg, s.off + n⟩ k) :
    copyMem red ⟨d.reg, d.off + n⟩ ⟨s.reg, s.off + n⟩ k (copyMem red d s n m) = copyMem red d s (n + k) m := by
  funext r i
  by_cases hr : r = d.reg
  · subst hr
    by_cases h1 : d.off ≤ i ∧ i < d.off + n
    · rw [copyMem_out _ _ _ _ _ _ _ (fun h => by have := h.2.1; dsimp only at this; omega)]
      unfold copyMem
      rw [if_pos ⟨rfl, h1⟩, if_pos (show d.reg = d.reg ∧ d.off ≤ i ∧ i < d.off + (n + k) from ⟨rfl, by omega, by omega⟩)]
    · by_cases h2 : d.off + n ≤ i ∧ i < d.off + n + k
      · have e : copyMem red d s n m s.reg (s.off + (i - d.off)) = m s.reg (s.off + (i - d.off)) := by
          apply copyMem_out
          rintro ⟨g1, g2, g3⟩
          exact ho ⟨g1.symm, by dsimp only; omega, by dsimp only; omega⟩
        have e2 : copyMem red d s n m d.reg i = m d.reg i := copyMem_out _ _ _ _ _ _ _ fun h => h1 h.2
        unfold copyMem at e e2 ⊢
        rw [if_pos ⟨rfl, h2⟩, if_pos (show d.reg = d.reg ∧ d.off ≤ i ∧ i < d.off + (n + k) from ⟨rfl, by omega, by omega⟩)]
        dsimp only at e e2 ⊢
        rw [show s.off + n + (i - (d.off + n)) = s.off + (i - d.off) by omega, e, e2]
      · rw [copyMem_out _ _ _ _ _ _ _ (fun h => h2 h.2), copyMem_out _ _ _ _ _ _ _ (fun h => h1 h.2),
          copyMem_out _ _ _ _ _ _ _ (fun h => by have := h.2; omega)]
  · rw [copyMem_out red d s (n + k) m r i fun h => hr h.1, copyMem_out red ⟨d.reg, d.off + n⟩ _ _ _ r i fun h => hr h.1,
      copyMem_out red d s n m r i fun h => hr h.1]

/-- The elements of a reduction into row `dr`. -/
def Red.In (D : Nat → Nat → Prop) (dr : Nat) (t : Red) : Prop :=
  0 < t.size ∧ t.row ≠ dr ∧ Cells D dr t.pos t.size ∧ Cells D t.row t.pos t.size

/-- Joining does not change the effect. -/
theorem Joined.exec {D : Nat → Nat → Prop} {ρ : Nat → Nat → Addr} (hρ : Place D ρ) {dr : Nat} {ts us : List Red}
    (h : Joined ts us) (hin : ∀ t, t ∈ ts → t.In D dr) (m : Mem X) :
    (us.map (Red.instr ρ dr)).foldl exec1 m = (ts.map (Red.instr ρ dr)).foldl exec1 m := by
  induction h generalizing m with
  | nil => rfl
  | @cons a x n ts n' ts' us hm hj ih =>
    have hh := hin ⟨a, x, n⟩ List.mem_cons_self
    have ht : ∀ t, t ∈ ts → t.In D dr := fun t h => hin t (List.mem_cons_of_mem _ h)
    rw [List.map_cons, List.foldl_cons, ih (fun t h => ht t (hm.sublist.subset h))]
    clear ih hin hj
    rw [← List.foldl_cons, ← List.map_cons]
    induction hm with
    | refl => rfl
    | @step n k ts n' ts' _ ih =>
      obtain ⟨c1, c2, c3, c4⟩ := hh
      obtain ⟨d1, d2, d3, d4⟩ := ht _ List.mem_cons_self
      dsimp only at c1 c2 c3 c4 d1 d2 d3 d4
      rw [ih ⟨by dsimp only; omega, c2, c3.append d3, c4.append d4⟩ (fun t h => ht t (List.mem_cons_of_mem _ h))]
      rw [List.map_cons, List.map_cons, List.map_cons, List.foldl_cons, List.foldl_cons, List.foldl_cons]
      congr 1
      show copyMem true (ρ dr x) (ρ a x) (n + k) m =
        copyMem true (ρ dr (x + n)) (ρ a (x + n)) k (copyMem true (ρ dr x) (ρ a x) n m)
      have ed := hρ.at (c3.append d3) n (by omega)
      have es := hρ.at (c4.append d4) n (by omega)
      rw [ed, es, copyMem_join]
      intro ho
      rw [← es] at ho
      exact c2 (hρ.overlap c3 d4 c1 d1 ho).1.symm

end ExtMpi.Optimise
