import Verif.Lemmas.OnNodeSim
import Verif.Spec.SingleNode
/-! Repeated executions of programs that write to the shared memory, wait for each other, and read. -/
namespace ExtMpi.OnNode

/-! ### Executions that follow each other -/

/-- One execution. `want` is what the receive buffers get, given the send buffers. -/
structure OneExec (X : Type) [AddCommMonoid X] (n b k lead : Nat) (S : Skel) (want : Nat → Nat → (Nat → Nat → X) → Option X) : Prop where
  partners : Partners n S
  race : RaceFree n S
  local_ : ∀ q, q < n → ∀ (i : Nat) (I : Item) (e : Elem), S[i]? = some I → e ∈ I.elems q →
    Loc b q e ∧ (leadSk n b lead).length ≤ i
  know : ∀ p q, p < n → q < n → R n S q 0 p S.length
  start : ∃ B, S = leadSk n b lead ++ B
  send : ∀ (m : Cell → X) p k' y, lockstep n S m (.send p k' y) = m (.send p k' y)
  recv : ∀ (m : Cell → X) p k' y, k' ≠ k → lockstep n S m (.recv p k' y) = m (.recv p k' y)
  res : ∀ (m : Cell → X) p y, p < n →
    lockstep n S m (.recv p k y) = (want p y fun q e => m (.send q k e)).getD (m (.recv p k y))

/-- The skeleton of `N` executions. -/
def seqOf (S : Nat → Nat → Skel) (alternate : Bool) : Nat → Skel
  | 0 => []
  | N + 1 => seqOf S alternate N ++ S (bankOf alternate N) N

structure SeqOk {X : Type} [AddCommMonoid X] (n : Nat) (want : Nat → Nat → (Nat → Nat → X) → Option X) (alternate : Bool)
    (m : Cell → X) (j : Nat) (A : Skel) : Prop where
  partners : Partners n A
  race : RaceFree n A
  order : ∃ L, (∀ q, q < n → ∀ (i : Nat) (I : Item) (e : Elem), A[i]? = some I → e ∈ I.elems q →
      ∃ b', Loc b' q e ∧ (b' = bankOf alternate j → i < L)) ∧
    (alternate = true → 0 < L → ∀ p q, p < n → q < n → R n A q L p A.length) ∧ (alternate = false → L = A.length)
  send : ∀ p k y, lockstep n A m (.send p k y) = m (.send p k y)
  recv : ∀ p k y, j ≤ k → lockstep n A m (.recv p k y) = m (.recv p k y)
  res : ∀ p k y, p < n → k < j →
    lockstep n A m (.recv p k y) = (want p y fun q e => m (.send q k e)).getD (m (.recv p k y))

theorem seqOk {X : Type} [AddCommMonoid X] {n lead : Nat} {S : Nat → Nat → Skel} {want : Nat → Nat → (Nat → Nat → X) → Option X}
    (hE : ∀ b k, OneExec X n b k lead (S b k) want) {alternate : Bool} (hlead : alternate = false → 0 < lead)
    (m : Cell → X) (N : Nat) : SeqOk n want alternate m N (seqOf S alternate N) := by
  induction N with
  | zero =>
    have hl : lockstep n [] m = m := rfl
    refine ⟨by intro b w hm; simp [seqOf] at hm, by intro p q i j I J e f _ _ _ hI; simp [seqOf] at hI,
      ⟨0, by intro q _ i I e hI; simp [seqOf] at hI, ?_, fun _ => rfl⟩, ?_, ?_, ?_⟩
    · intro _ h0; omega
    · intro p k y; rw [seqOf, hl]
    · intro p k y _; rw [seqOf, hl]
    · intro p k e _ hk; omega
  | succ N ih =>
    have hE' := hE (bankOf alternate N) N
    rw [seqOf]
    generalize hA : seqOf S alternate N = A at *
    generalize hSS : S (bankOf alternate N) N = T at *
    obtain ⟨B, hB⟩ := hE'.start
    obtain ⟨L, hL1, hL2, hL3⟩ := ih.order
    refine ⟨ih.partners.append hE'.partners, ?_, ?_, ?_, ?_, ?_⟩
    · refine race_join ih.race hE'.race (l := (leadSk n (bankOf alternate N) lead).length) (L := L) hE'.local_ hL1 ?_
      intro h0 p q hp hq
      cases ha : alternate with
      | true => exact ((hL2 ha h0 p q hp hq).append T).mono (Nat.le_refl _) (by omega)
      | false =>
        rw [hL3 ha, hB, ha]
        exact ((leadSk_R (b := bankOf false N) (hlead ha) hp hq).append B).prepend A
    · cases ha : alternate with
      | true =>
        refine ⟨A.length, ?_, ?_, by simp⟩
        · intro q hq i I e hI he
          by_cases hi : i < A.length
          · rw [List.getElem?_append_left hi] at hI
            obtain ⟨b', hb', _⟩ := hL1 q hq i I e hI he
            exact ⟨b', hb', fun _ => hi⟩
          · rw [List.getElem?_append_right (by omega)] at hI
            refine ⟨_, (hE'.local_ q hq _ I e hI he).1, ?_⟩
            intro hc
            rw [ha] at hc
            simp only [bankOf, if_true] at hc
            omega
        · intro _ _ p q hp hq
          refine ((hE'.know p q hp hq).prepend A).mono ?_ ?_
          · omega
          · simp
      | false =>
        refine ⟨(A ++ T).length, ?_, by simp, fun _ => rfl⟩
        intro q hq i I e hI he
        have hi := (List.getElem?_eq_some_iff.1 hI).1
        by_cases hi' : i < A.length
        · rw [List.getElem?_append_left hi'] at hI
          obtain ⟨b', hb', _⟩ := hL1 q hq i I e hI he
          exact ⟨b', hb', fun _ => hi⟩
        · rw [List.getElem?_append_right (by omega)] at hI
          exact ⟨_, (hE'.local_ q hq _ I e hI he).1, fun _ => hi⟩
    · intro p k y
      rw [lockstep_append, hE'.send, ih.send]
    · intro p k y hk
      rw [lockstep_append, hE'.recv _ _ _ _ (by omega), ih.recv p k y (by omega)]
    · intro p k y hp hk
      rw [lockstep_append]
      by_cases hkN : k = N
      · subst hkN
        rw [hE'.res _ _ _ hp, ih.recv p k y (Nat.le_refl _)]
        simp only [ih.send]
      · rw [hE'.recv _ _ _ _ hkN, ih.res p k y hp (by omega)]

/-- Repeated executions of the same programs. -/
theorem correct_seq {X : Type} [AddCommMonoid X] {n lead : Nat} {S : Nat → Nat → Skel} {want : Nat → Nat → (Nat → Nat → X) → Option X}
    (hE : ∀ b k, OneExec X n b k lead (S b k) want) {alternate : Bool} (hlead : alternate = false → 0 < lead)
    {prog : Nat → Nat → Nat → List Instr}
    (hprog : ∀ b k p, p < n → (prog b k p).flatMap (Instr.acts n p) = code (S b k) p) (m : Cell → X) (N : Nat) :
    Correct n (fun p => (List.range N).flatMap fun j => prog (bankOf alternate j) j p) m fun mem =>
      ∀ k, k < N → SingleNode.Delivered n k want m mem := by
  have h := seqOk hE hlead m N
  refine correct_of_raceFree (sk := seqOf S alternate N) ?_ h.partners h.race _ ?_
  · intro p hp
    clear h
    induction N with
    | zero => rfl
    | succ N ih =>
      rw [List.range_succ, List.flatMap_append, List.flatMap_append, ih, seqOf, code_append]
      simp [hprog _ _ p hp]
  · intro k hk p hp y
    exact ⟨h.res p k y hp hk, h.send p k y⟩

/-! ### Writing, waiting, reading -/

/-- The accesses of the two phases. -/
structure Phases (n b k : Nat) (W Rd : Nat → List Elem) : Prop where
  wr : ∀ p, ∀ e ∈ W p, (∃ x, e.dst = .shm b x) ∧ ∃ y, e.src = .send p k y
  rd : ∀ p, ∀ e ∈ Rd p, (∃ y, e.dst = .recv p k y) ∧ e.src.bank = some b
  disj : ∀ p q, p < n → q < n → p ≠ q → ∀ e ∈ W p, ∀ f ∈ W q, e.dst ≠ f.dst

def phaseSk (n b lead mid : Nat) (W Rd : Nat → List Elem) : Skel :=
  leadSk n b lead ++ ([.ops W] ++ (leadSk n b mid ++ [.ops Rd]))

theorem quiet_get {D : Skel} (h : Quiet D) {i : Nat} {I : Item} {e : Elem} {p : Nat} (hI : D[i]? = some I)
    (he : e ∈ I.elems p) : False := by
  rw [h I (List.mem_of_getElem? hI) p] at he
  cases he

/-- Positions of accesses. -/
theorem phase_get {n b lead mid : Nat} {W Rd : Nat → List Elem} {i : Nat} {I : Item} {e : Elem} {p : Nat}
    (hI : (phaseSk n b lead mid W Rd)[i]? = some I) (he : e ∈ I.elems p) :
    (i = (leadSk n b lead).length ∧ e ∈ W p) ∨
      (i = (leadSk n b lead).length + 1 + (leadSk n b mid).length ∧ e ∈ Rd p) := by
  unfold phaseSk at hI
  by_cases h1 : i < (leadSk n b lead).length
  · rw [List.getElem?_append_left h1] at hI
    exact (quiet_get (quiet_lead _ _ _) hI he).elim
  · rw [List.getElem?_append_right (by omega)] at hI
    by_cases h2 : i = (leadSk n b lead).length
    · subst h2
      simp at hI
      subst hI
      exact Or.inl ⟨rfl, he⟩
    · rw [List.getElem?_append_right (by simp; omega)] at hI
      by_cases h3 : i - (leadSk n b lead).length - [Item.ops W].length < (leadSk n b mid).length
      · rw [List.getElem?_append_left h3] at hI
        exact (quiet_get (quiet_lead _ _ _) hI he).elim
      · rw [List.getElem?_append_right (by omega)] at hI
        have hlt := (List.getElem?_eq_some_iff.1 hI).1
        simp only [List.length_singleton] at hlt h3
        have h4 : i = (leadSk n b lead).length + 1 + (leadSk n b mid).length := by omega
        subst h4
        refine Or.inr ⟨rfl, ?_⟩
        have : (leadSk n b lead).length + 1 + (leadSk n b mid).length - (leadSk n b lead).length - [Item.ops W].length -
          (leadSk n b mid).length = 0 := by simp only [List.length_singleton]; omega
        rw [this] at hI
        simp at hI
        subst hI
        exact he

theorem phase_know {n b lead mid : Nat} {W Rd : Nat → List Elem} (hm : 0 < mid) {p q : Nat} (hp : p < n) (hq : q < n) :
    R n (phaseSk n b lead mid W Rd) q ((leadSk n b lead).length + 1) p
      ((leadSk n b lead).length + 1 + (leadSk n b mid).length) := by
  have h := ((leadSk_R (b := b) hm hp hq).append [.ops Rd]).prepend (leadSk n b lead ++ [.ops W])
  have e : (leadSk n b lead ++ [Item.ops W]) ++ (leadSk n b mid ++ [.ops Rd]) = phaseSk n b lead mid W Rd := by
    simp [phaseSk]
  rw [e] at h
  simpa using h

theorem lockstep_phase {X : Type} [AddCommMonoid X] (n b lead mid : Nat) (W Rd : Nat → List Elem) (m : Cell → X) :
    lockstep n (phaseSk n b lead mid W Rd) m =
      runElems ((List.range n).flatMap Rd) (runElems ((List.range n).flatMap W) m) := by
  unfold phaseSk
  rw [lockstep_append, lockstep_append, lockstep_append, lockstep_quiet n (quiet_lead _ _ _),
    lockstep_quiet n (quiet_lead _ _ _), lockstep_ops, lockstep_ops]

/-- Accesses of other processes do not touch the receive buffer. -/
theorem runElems_own {X : Type} [AddCommMonoid X] {n p k y : Nat} (hp : p < n) (f : Nat → List Elem)
    (hf : ∀ q, ∀ e ∈ f q, (∃ y, e.dst = .recv q k y) ∧ ∀ q' k' y', e.src ≠ .recv q' k' y') (m : Cell → X) :
    runElems ((List.range n).flatMap f) m (.recv p k y) = runElems (f p) m (.recv p k y) := by
  have hother : ∀ (l : List Nat) (m' : Cell → X), p ∉ l → ∀ c, (∀ q k' y', c = Cell.recv q k' y' → q = p) →
      runElems (l.flatMap f) m' c = m' c := by
    intro l m' hl c hc
    apply runElems_other
    intro e he hd
    obtain ⟨q, hq, he⟩ := List.mem_flatMap.1 he
    obtain ⟨⟨y', hy'⟩, _⟩ := hf q e he
    have := hc q k y' (by rw [← hd, hy'])
    subst this
    exact hl hq
  -- equal contents outside of the receive buffers of other processes
  have hcongr : ∀ (es : List Elem) (m1 m2 : Cell → X), (∀ e ∈ es, ∃ y, e.dst = .recv p k y) →
      (∀ e ∈ es, ∀ q' k' y', e.src ≠ Cell.recv q' k' y') →
      (∀ c, (∀ q k' y', c = Cell.recv q k' y' → q = p) → m1 c = m2 c) →
      ∀ c, (∀ q k' y', c = Cell.recv q k' y' → q = p) → runElems es m1 c = runElems es m2 c := by
    intro es
    induction es with
    | nil => intro m1 m2 _ _ h c hc; exact h c hc
    | cons e es ih =>
      intro m1 m2 h1 h2 h c hc
      refine ih (e.run m1) (e.run m2) (fun e he => h1 e (by simp [he])) (fun e he => h2 e (by simp [he])) ?_ c hc
      intro c' hc'
      obtain ⟨y', hy'⟩ := h1 e (by simp)
      have hs : m1 e.src = m2 e.src := h _ fun q k' y'' hq => absurd hq (h2 e (by simp) _ _ _)
      have hd : m1 e.dst = m2 e.dst := h _ fun q k' y'' hq => by rw [hy'] at hq; injection hq with hq; exact hq.symm
      simp only [Elem.run, accessed, hs, hd, h c' hc']
  have hnodup := List.nodup_range (n := n)
  obtain ⟨l1, l2, hl⟩ := List.append_of_mem (List.mem_range.2 hp)
  rw [hl] at hnodup ⊢
  have hn1 : p ∉ l1 := fun hc => by
    have := List.nodup_append.1 hnodup
    exact this.2.2 p hc p (by simp) rfl
  have hn2 : p ∉ l2 := by
    have := (List.nodup_append.1 hnodup).2.1
    exact (List.nodup_cons.1 this).1
  rw [List.flatMap_append, List.flatMap_cons, runElems_append, runElems_append, hother l2 _ hn2 _ (by
    intro q k' y' h; injection h with h; exact h.symm)]
  refine hcongr _ _ _ (fun e he => (hf p e he).1) (fun e he => (hf p e he).2) ?_ _ (by
    intro q k' y' h; injection h with h; exact h.symm)
  intro c hc
  exact hother l1 m hn1 c hc

theorem Phases.partners {n b k lead mid : Nat} {W Rd : Nat → List Elem} (_ : Phases n b k W Rd) (hn : 0 < n) :
    Partners n (phaseSk n b lead mid W Rd) := by
  refine (partners_lead hn).append (Partners.append ?_ ((partners_lead hn).append ?_))
  · intro b' w hm; simp at hm
  · intro b' w hm; simp at hm

theorem Phases.race {n b k lead mid : Nat} {W Rd : Nat → List Elem} (h : Phases n b k W Rd) (hm : 0 < mid) :
    RaceFree n (phaseSk n b lead mid W Rd) := by
  apply raceFree_of_lt
  intro p q i j I J e f hp hq hpq hji hI hJ he hf hc
  rcases phase_get hI he with ⟨rfl, he'⟩ | ⟨rfl, he'⟩ <;> rcases phase_get hJ hf with ⟨rfl, hf'⟩ | ⟨rfl, hf'⟩
  · obtain ⟨⟨x, hx⟩, y, hy⟩ := h.wr p e he'
    obtain ⟨⟨x', hx'⟩, y', hy'⟩ := h.wr q f hf'
    rcases hc with hc | hc | hc
    · exact absurd hc (h.disj p q hp hq hpq e he' f hf')
    · rw [hx, hy'] at hc; cases hc
    · rw [hx', hy] at hc; cases hc
  · omega
  · exact phase_know hm hp hq
  · obtain ⟨⟨x, hx⟩, hs⟩ := h.rd p e he'
    obtain ⟨⟨x', hx'⟩, hs'⟩ := h.rd q f hf'
    rcases hc with hc | hc | hc
    · rw [hx, hx'] at hc; injection hc with hc; exact absurd hc hpq
    · rw [← hc, hx] at hs'; cases hs'
    · rw [hc, hx'] at hs; cases hs

theorem Phases.value {X : Type} [AddCommMonoid X] {n b k lead mid : Nat} {W Rd : Nat → List Elem} (h : Phases n b k W Rd)
    (m : Cell → X) {p : Nat} (hp : p < n) (y : Nat) : lockstep n (phaseSk n b lead mid W Rd) m (.recv p k y) =
      runElems (Rd p) (runElems ((List.range n).flatMap W) m) (.recv p k y) := by
  rw [lockstep_phase, runElems_own hp Rd]
  intro q e he
  obtain ⟨hd, hs⟩ := h.rd q e he
  refine ⟨hd, ?_⟩
  intro q' k' y' hc
  rw [hc] at hs; cases hs

theorem Phases.exec {X : Type} [AddCommMonoid X] {n b k lead mid : Nat} {W Rd : Nat → List Elem} (h : Phases n b k W Rd)
    (hn : 0 < n) (hm : 0 < mid) {want : Nat → Nat → (Nat → Nat → X) → Option X}
    (hw : ∀ (m : Cell → X) p y, p < n → runElems (Rd p) (runElems ((List.range n).flatMap W) m) (.recv p k y) =
      (want p y fun q e => m (.send q k e)).getD (m (.recv p k y))) :
    OneExec X n b k lead (phaseSk n b lead mid W Rd) want := by
  have hloc : ∀ q, q < n → ∀ (i : Nat) (I : Item) (e : Elem), (phaseSk n b lead mid W Rd)[i]? = some I → e ∈ I.elems q →
      Loc b q e ∧ (leadSk n b lead).length ≤ i := by
    intro q hq i I e hI he
    rcases phase_get hI he with ⟨hi, he⟩ | ⟨hi, he⟩
    · obtain ⟨⟨x, hx⟩, y, hy⟩ := h.wr q e he
      refine ⟨⟨Or.inl (by rw [hx]; rfl), Or.inr ⟨k, y, hy⟩⟩, by omega⟩
    · obtain ⟨⟨x, hx⟩, hs⟩ := h.rd q e he
      refine ⟨⟨Or.inr ⟨k, x, hx⟩, Or.inl hs⟩, by omega⟩
  have hlen : (phaseSk n b lead mid W Rd).length = (leadSk n b lead).length + 1 + (leadSk n b mid).length + 1 := by
    simp [phaseSk]; omega
  have hout : ∀ (m : Cell → X) c, c.bank = none → (∀ p y, c ≠ .recv p k y) →
      lockstep n (phaseSk n b lead mid W Rd) m c = m c := by
    intro m c hb hr
    rw [lockstep_phase, runElems_other, runElems_other]
    · intro e he hd
      obtain ⟨p, _, he⟩ := List.mem_flatMap.1 he
      obtain ⟨⟨x, hx⟩, _⟩ := h.wr p e he
      rw [← hd, hx] at hb; cases hb
    · intro e he hd
      obtain ⟨p, _, he⟩ := List.mem_flatMap.1 he
      obtain ⟨⟨x, hx⟩, _⟩ := h.rd p e he
      exact hr p x (by rw [← hd, hx])
  refine ⟨h.partners hn, h.race hm, hloc, ?_, ⟨_, rfl⟩, ?_, ?_, ?_⟩
  · intro p q hp hq
    exact (phase_know hm hp hq).mono (Nat.zero_le _) (by omega)
  · intro m p k' y
    exact hout m _ rfl (by intros; simp)
  · intro m p k' y hk
    refine hout m _ rfl ?_
    intro p' y' hc
    injection hc with _ hc
    exact hk hc
  · intro m p y hp
    rw [h.value m hp y, hw m p y hp]

/-- One execution, with any result. -/
theorem Phases.once {X : Type} [AddCommMonoid X] {n b k lead mid : Nat} {W Rd : Nat → List Elem} (h : Phases n b k W Rd)
    (hn : 0 < n) (hm : 0 < mid) {prog : Nat → List Instr}
    (hprog : ∀ p, p < n → (prog p).flatMap (Instr.acts n p) = code (phaseSk n b lead mid W Rd) p) (m : Cell → X) :
    Correct n prog m fun mem => ∀ p, p < n → ∀ y, mem (.recv p k y) =
      runElems (Rd p) (runElems ((List.range n).flatMap W) m) (.recv p k y) :=
  correct_of_raceFree hprog (h.partners hn) (h.race hm) _ fun _ hp y => h.value m hp y

theorem code_phase (n b lead mid : Nat) (W Rd : Nat → List Elem) (p : Nat) : code (phaseSk n b lead mid W Rd) p =
    (List.replicate lead (Instr.barrier b)).flatMap (Instr.acts n p) ++ (W p).map Elem.act ++
      (List.replicate mid (Instr.barrier b)).flatMap (Instr.acts n p) ++ (Rd p).map Elem.act := by
  unfold phaseSk
  rw [code_append, code_append, code_append, code_lead, code_lead]
  simp [code, Item.acts]

/-! ### Copies -/

def copies (red : Bool) (dst src : Nat → Cell) (c : Nat) : List Elem :=
  (List.range c).map fun e => ⟨red, dst e, src e⟩

theorem run_copies {X : Type} [AddCommMonoid X] {dst src : Nat → Cell} (hinj : ∀ i j, dst i = dst j → i = j)
    (hsep : ∀ i j, src i ≠ dst j) (c : Nat) (m : Cell → X) {e : Nat} (he : e < c) (red : Bool) :
    runElems (copies red dst src c) m (dst e) = if red then m (dst e) + m (src e) else m (src e) := by
  induction c with
  | zero => omega
  | succ c ih =>
    have hsplit : copies red dst src (c + 1) = copies red dst src c ++ [⟨red, dst c, src c⟩] := by
      simp [copies, List.range_succ]
    have hsame : ∀ z, (∀ i, i < c → z ≠ dst i) → runElems (copies red dst src c) m z = m z := by
      intro z hz
      apply runElems_other
      intro f hf
      simp only [copies, List.mem_map, List.mem_range] at hf
      obtain ⟨i, hi, rfl⟩ := hf
      exact Ne.symm (hz i hi)
    rw [hsplit, runElems_append]
    show (Elem.run _ _) _ = _
    simp only [Elem.run, accessed]
    by_cases hec : e = c
    · subst hec
      rw [if_pos rfl, hsame (src e) (fun i _ => hsep _ _), hsame (dst e) (fun i hi hc => by
        have := hinj _ _ hc; omega)]
    · rw [if_neg (fun hc => hec (hinj _ _ hc))]
      exact ih (by omega)

theorem run_copies_other {X : Type} [AddCommMonoid X] {dst src : Nat → Cell} (c : Nat) (m : Cell → X) {z : Cell}
    (hz : ∀ e, e < c → z ≠ dst e) (red : Bool) : runElems (copies red dst src c) m z = m z := by
  apply runElems_other
  intro f hf
  simp only [copies, List.mem_map, List.mem_range] at hf
  obtain ⟨i, hi, rfl⟩ := hf
  exact Ne.symm (hz i hi)

/-! ### Two descriptions of the same executions -/

theorem correct_both {X : Type} [AddCommMonoid X] {n : Nat} {prog : Nat → List Instr} {m : Cell → X} {P Q : (Cell → X) → Prop}
    (hP : Correct n prog m P) (hQ : Correct n prog m Q) : ∃ mem, P mem ∧ Q mem := by
  obtain ⟨bd, h⟩ := hP
  obtain ⟨bd', h'⟩ := hQ
  by_contra hcon
  push Not at hcon
  have hall : ∀ k, ∃ s, Steps n k (start n prog m) s := by
    intro k
    induction k with
    | zero => exact ⟨_, .nil⟩
    | succ k ih =>
      obtain ⟨s, hs⟩ := ih
      rcases (h k s hs).2 with ⟨hf, hp⟩ | ⟨p, s', hp, hst⟩
      · rcases (h' k s hs).2 with ⟨_, hq⟩ | ⟨p, s', hp', hst⟩
        · exact absurd hq (hcon _ hp)
        · exact ⟨s', .snoc hs hp' hst⟩
      · exact ⟨s', .snoc hs hp hst⟩
  obtain ⟨s, hs⟩ := hall (bd + 1)
  have := (h _ s hs).1
  omega

end ExtMpi.OnNode
