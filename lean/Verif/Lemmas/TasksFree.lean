import Verif.Lemmas.TasksSplit
/-! No races between the shares of a program. -/
namespace ExtMpi.TasksNode
open RawCode Schedule

/-- Not a barrier. -/
def nb (x : Option Nat × Instr) : Bool := decide (x.2 ≠ .barrier)

/-- Instructions of different processes between the same barriers do not conflict. -/
def mfree : Master → Prop
  | [] => True
  | x :: M => (∀ y, y ∈ M.takeWhile nb → x.1 ≠ y.1 → ¬Conflict x.2 y.2) ∧ mfree M

theorem mfree_of_pairwise {M : Master} (h : M.Pairwise fun x y => x.1 ≠ y.1 → ¬Conflict x.2 y.2) : mfree M := by
  induction M with
  | nil => trivial
  | cons x M ih =>
    rw [List.pairwise_cons] at h
    exact ⟨fun y hy => h.1 y ((List.takeWhile_sublist _).subset hy), ih h.2⟩

theorem takeWhile_barrier (A B : Master) (o : Option Nat) :
    (A ++ (o, .barrier) :: B).takeWhile nb = A.takeWhile nb := by
  induction A with
  | nil => rfl
  | cons x A ih =>
    rw [List.cons_append, List.takeWhile_cons, List.takeWhile_cons, ih]

theorem mfree_barrier {A B : Master} (hA : mfree A) (hB : mfree B) (o : Option Nat) : mfree (A ++ (o, .barrier) :: B) := by
  induction A with
  | nil =>
    refine ⟨fun y _ _ h => ?_, hB⟩
    rcases h with ⟨x, _, hx, _⟩ | ⟨x, _, hx, _⟩
    · exact absurd hx List.not_mem_nil
    · exact absurd hx List.not_mem_nil
  | cons x A ih =>
    rw [List.cons_append]
    refine ⟨?_, ih hA.2⟩
    rw [takeWhile_barrier]
    exact hA.1

theorem conflict_toProc {ns r r' : Nat} {i i' : Instr} (h : Conflict (toProc ns r i) (toProc ns r' i')) : Conflict i i' := by
  have w : ∀ r i, writes (toProc ns r i) = writes i := by intro r i; cases i <;> rfl
  have d : ∀ r i, reads (toProc ns r i) = reads i := by intro r i; cases i <;> rfl
  unfold Conflict at h ⊢
  rw [w, w, d, d] at h
  exact h

theorem toProc_barrier {ns r : Nat} {i : Instr} : toProc ns r i = .barrier ↔ i = .barrier := by
  cases i <;> simp [toProc]

theorem no_conflict_left {i j : Instr} (h : i = .waitall ∨ i = .barrier) : ¬Conflict i j := by
  rintro (⟨x, _, hx, _⟩ | ⟨x, _, hx, _⟩) <;> rcases h with rfl | rfl <;> exact absurd hx List.not_mem_nil

theorem no_conflict_right {i j : Instr} (h : j = .waitall ∨ j = .barrier) : ¬Conflict i j :=
  fun c => no_conflict_left h c.symm

/-- Number of barriers. -/
def bars (M : Master) : Nat := (M.filter fun x => !nb x).length

theorem bars_append (A B : Master) : bars (A ++ B) = bars A + bars B := by
  unfold bars; rw [List.filter_append, List.length_append]

theorem bars_cons (x : Option Nat × Instr) (M : Master) : bars (x :: M) = bars [x] + bars M := bars_append [x] M

theorem wf_none {N ns a : Nat} {o : Option Nat} {i : Instr} (h : WF N ns a (o, i)) : o = none ↔ (i = .waitall ∨ i = .barrier) := by
  cases o <;> cases i <;> simp_all [WF]

theorem share_count {N ns a r : Nat} {M : Master} (h : ∀ x, x ∈ M → WF N ns a x) :
    (share ns r M).count .barrier = bars M := by
  induction M with
  | nil => rfl
  | cons x M ih =>
    have ih := ih fun y hy => h y (List.mem_cons_of_mem _ hy)
    obtain ⟨o, i⟩ := x
    have hw := wf_none (h (o, i) List.mem_cons_self)
    rw [bars_cons, ← ih]
    cases o with
    | none =>
      rw [share_all, List.count_cons]
      rcases hw.1 rfl with rfl | rfl <;> simp [toProc, bars, nb, Nat.add_comm]
    | some o =>
      have hi : i ≠ .barrier := fun e => by cases hw.2 (.inr e)
      have hb : bars [(some o, i)] = 0 := by simp [bars, nb, hi]
      rw [hb, Nat.zero_add]
      by_cases e : o = r
      · subst e
        rw [share_own, List.count_cons_of_ne]
        intro c
        exact hi (toProc_barrier.1 c)
      · rw [share_other _ _ _ _ _ e]

/-- An instruction of a share is one of the program. -/
theorem share_suffix {ns r : Nat} {i : Instr} {l : List Instr} {M : Master} (h : i :: l <:+ share ns r M) :
    ∃ A x B, M = A ++ x :: B ∧ toProc ns r x.2 = i ∧ l = share ns r B ∧ (x.1 = none ∨ x.1 = some r) := by
  induction M with
  | nil => exact absurd h (by simp [share])
  | cons x M ih =>
    by_cases c : x.1 = none ∨ x.1 = some r
    · have e : share ns r (x :: M) = toProc ns r x.2 :: share ns r M := by
        unfold share
        rw [List.filterMap_cons, if_pos c]
      rw [e, List.suffix_cons_iff] at h
      rcases h with h | h
      · obtain ⟨h1, h2⟩ := List.cons.inj h
        exact ⟨[], x, M, rfl, h1.symm, h2, c⟩
      · obtain ⟨A, y, B, rfl, h2⟩ := ih h
        exact ⟨x :: A, y, B, rfl, h2⟩
    · have e : share ns r (x :: M) = share ns r M := by
        unfold share
        rw [List.filterMap_cons, if_neg c]
      rw [e] at h
      obtain ⟨A, y, B, rfl, h2⟩ := ih h
      exact ⟨x :: A, y, B, rfl, h2⟩

theorem mfree_suffix {A B : Master} (h : mfree (A ++ B)) : mfree B := by
  induction A with
  | nil => exact h
  | cons x A ih => exact ih h.2

theorem takeWhile_nobar (L B : Master) (h : bars L = 0) (x : Option Nat × Instr) (hx : x.2 ≠ .barrier) :
    x ∈ (L ++ x :: B).takeWhile nb := by
  induction L with
  | nil =>
    rw [List.nil_append, List.takeWhile_cons, if_pos (by simpa [nb] using hx)]
    exact List.mem_cons_self
  | cons y L ih =>
    rw [bars_cons] at h
    have hy : nb y = true := by
      by_contra c
      have c : nb y = false := by simpa using c
      have : bars [y] = 1 := by simp [bars, c]
      omega
    rw [List.cons_append, List.takeWhile_cons, if_pos hy]
    exact List.mem_cons_of_mem _ (ih (by omega))

/-- Instructions of different processes of node `a` that conflict are in the order given by the barriers. -/
def Ordered (N ns : Nat) (W : Nat → Nat → Nat → Prop) (a : Nat) (M : Master) : Prop :=
  ∀ A r i L r' i' B, M = A ++ (some r, i) :: (L ++ (some r', i') :: B) → r ≠ r' → r < ns → r' < ns → Conflict i i' →
    Kn N ns W (a * ns + r) (bars A + 1) (a * ns + r') (bars A + bars L)

theorem ordered_of_mfree {N ns a : Nat} (ha : a < N) {M : Master} (hM : mfree M) : Ordered N ns All a M := by
  intro A r i L r' i' B hA hne hr hr' hc
  subst hA
  have hb : 1 ≤ bars L := by
    by_contra h
    refine (mfree_suffix hM).1 (some r', i') (takeWhile_nobar L B (by omega) _ ?_) (by simpa using hne) hc
    intro e
    exact no_conflict_right (.inr e) hc
  have hlt : ∀ r, r < ns → a * ns + r < N * ns := fun r hr => by
    have : (a + 1) * ns ≤ N * ns := Nat.mul_le_mul_right _ ha
    rw [Nat.add_mul] at this
    omega
  have hdiv : ∀ r, r < ns → (a * ns + r) / ns = a := fun r hr => by
    rw [Nat.mul_comm, Nat.mul_add_div (by omega), Nat.div_eq_of_lt hr, Nat.add_zero]
  exact .mono (.sync (k := bars A + bars L) (hlt r hr) (by rw [hdiv r hr, hdiv r' hr']) trivial) (by omega) (Nat.le_refl _)

/-- The shares of a program with ordered conflicts. -/
theorem share_free {N ns a r r' : Nat} {W : Nat → Nat → Nat → Prop} (hne : r ≠ r') (hr : r < ns) (hr' : r' < ns) {M : Master}
    (hw : ∀ x, x ∈ M → WF N ns a x) (hM : Ordered N ns W a M)
    {i i' : Instr} {l l' : List Instr} {x x' : Nat} (h : i :: l <:+ share ns r M) (h' : i' :: l' <:+ share ns r' M)
    (hi : i ≠ .barrier) (hi' : i' ≠ .barrier) (hx : x + l.count .barrier = (share ns r M).count .barrier)
    (hx' : x' + l'.count .barrier = (share ns r' M).count .barrier) (hcon : Conflict i i') :
    Kn N ns W (a * ns + r) (x + 1) (a * ns + r') x' ∨ Kn N ns W (a * ns + r') (x' + 1) (a * ns + r) x := by
  obtain ⟨A, ⟨o, j⟩, B, hA, rfl, rfl, ho⟩ := share_suffix h
  obtain ⟨A', ⟨o', j'⟩, B', hA', rfl, rfl, ho'⟩ := share_suffix h'
  dsimp only at ho ho' hi hi' hcon
  have hwB : ∀ y, y ∈ B → WF N ns a y := fun y hy => hw y (by rw [hA]; exact List.mem_append_right _ (List.mem_cons_of_mem _ hy))
  have hwB' : ∀ y, y ∈ B' → WF N ns a y := fun y hy => hw y (by rw [hA']; exact List.mem_append_right _ (List.mem_cons_of_mem _ hy))
  rw [share_count hwB, share_count hw] at hx
  rw [share_count hwB', share_count hw] at hx'
  have hcon := conflict_toProc hcon
  have hwx : WF N ns a (o, j) := hw _ (by rw [hA]; exact List.mem_append_right _ List.mem_cons_self)
  have hwx' : WF N ns a (o', j') := hw _ (by rw [hA']; exact List.mem_append_right _ List.mem_cons_self)
  have g : o = some r := by
    rcases ho with e | e
    · exact absurd hcon (no_conflict_left ((wf_none hwx).1 e))
    · exact e
  have g' : o' = some r' := by
    rcases ho' with e | e
    · exact absurd hcon (no_conflict_right ((wf_none hwx').1 e))
    · exact e
  have hxb : j ≠ .barrier := fun e => hi (toProc_barrier.2 e)
  have hxb' : j' ≠ .barrier := fun e => hi' (toProc_barrier.2 e)
  subst g g'
  have z1 : bars [(some r, j)] = 0 := by simp [bars, nb, hxb]
  have z2 : bars [(some r', j')] = 0 := by simp [bars, nb, hxb']
  have hxA : x = bars A := by rw [hA, bars_append, bars_cons] at hx; omega
  have hxA' : x' = bars A' := by rw [hA', bars_append, bars_cons] at hx'; omega
  have hAA := hA.symm.trans hA'
  rcases List.append_eq_append_iff.1 hAA with ⟨L, h1, h2⟩ | ⟨L, h1, h2⟩
  · cases L with
    | nil =>
      rw [List.nil_append] at h2
      exact absurd (Option.some.inj (Prod.mk.inj (List.cons.inj h2).1).1) hne
    | cons y L =>
      rw [List.cons_append] at h2
      obtain ⟨e1, e2⟩ := List.cons.inj h2
      subst e1
      left
      have hb : bars A' = bars A + bars L := by rw [h1, bars_append, bars_cons]; omega
      rw [hxA, hxA', hb]
      exact hM A r j L r' j' B' (by rw [hA, e2]) hne hr hr' hcon
  · cases L with
    | nil =>
      rw [List.nil_append] at h2
      exact absurd (Option.some.inj (Prod.mk.inj (List.cons.inj h2).1).1) (Ne.symm hne)
    | cons y L =>
      rw [List.cons_append] at h2
      obtain ⟨e1, e2⟩ := List.cons.inj h2
      subst e1
      right
      have hb : bars A = bars A' + bars L := by rw [h1, bars_append, bars_cons]; omega
      rw [hxA, hxA', hb]
      exact hM A' r' j' L r j B (by rw [hA', e2]) (Ne.symm hne) hr' hr hcon.symm

/-- The programs of all processes. -/
theorem free_of_masters {N ns : Nat} {W : Nat → Nat → Nat → Prop} {M : Nat → Master}
    (hw : ∀ a, a < N → ∀ x, x ∈ M a → WF N ns a x)
    (hM : ∀ a, a < N → Ordered N ns W a (M a)) : Free N ns W (fun p => share ns (p % ns) (M (p / ns))) := by
  intro p p' hp hp' hne hn i l i' l' x x' h h' hi hi' hx hx' hc
  dsimp only at h h' hx hx'
  rw [← hn] at h' hx'
  have hns : 0 < ns := Nat.pos_of_ne_zero (by rintro rfl; simp at hp)
  have h1 := Nat.div_add_mod p ns
  have h2 := Nat.div_add_mod p' ns
  rw [← hn] at h2
  have := share_free (fun e => hne (by rw [← e] at h2; omega)) (Nat.mod_lt p hns) (Nat.mod_lt p' hns) (hw _ (div_lt hp))
    (hM _ (div_lt hp)) h h' hi hi' hx hx' hc
  rw [Nat.mul_comm (p / ns) ns, h1, h2] at this
  exact this

/-! ## Pending messages -/

theorem tidy_append {A l : List Instr} : ∀ {rs ss : Nat → List (Addr × Nat)}, tidy rs ss (A ++ l) →
    ∃ rs' ss', tidy rs' ss' l := by
  induction A with
  | nil => intro rs ss h; exact ⟨rs, ss, h⟩
  | cons i A ih =>
    intro rs ss h
    cases i with
    | copy red dst src n => exact ih h.2
    | irecv a n q => exact ih h.2
    | isend a n q => exact ih h.2
    | waitall => exact ih h
    | barrier => exact ih h

theorem mem_push_old {f : Nat → List (Addr × Nat)} {k q : Nat} {y x : Addr × Nat} (h : x ∈ f q) : x ∈ push f k y q := by
  unfold push
  split
  · rename_i e; subst e; exact List.mem_append_left _ h
  · exact h

theorem mem_push_new (f : Nat → List (Addr × Nat)) (k : Nat) (y : Addr × Nat) : y ∈ push f k y k := by
  unfold push
  rw [if_pos rfl]
  exact List.mem_append_right _ List.mem_cons_self

/-- What is pending is not touched before the next wait. -/
theorem tidy_clear {L : List Instr} {i : Instr} {B : List Instr} (hL : Instr.waitall ∉ L) :
    ∀ {rs ss : Nat → List (Addr × Nat)}, tidy rs ss (L ++ i :: B) →
      (∀ q x, x ∈ rs q → ∀ y, y ∈ writes i ++ reads i → ¬overlap x.1 x.2 y.1 y.2) ∧
      (∀ q x, x ∈ ss q → ∀ y, y ∈ writes i → ¬overlap x.1 x.2 y.1 y.2) := by
  induction L with
  | nil =>
    intro rs ss h
    rw [List.nil_append] at h
    cases i with
    | copy red dst src n =>
      refine ⟨fun q x hx y hy => ?_, fun q x hx y hy => ?_⟩
      · rcases List.mem_append.1 hy with hy | hy
        · rw [List.mem_singleton.1 hy]; exact h.1.2.1 q x hx
        · rw [List.mem_singleton.1 hy]; exact h.1.2.2.2 q x hx
      · rw [List.mem_singleton.1 hy]; exact h.1.2.2.1 q x hx
    | irecv a n q =>
      refine ⟨fun q x hx y hy => ?_, fun q x hx y hy => ?_⟩
      · rcases List.mem_append.1 hy with hy | hy
        · rw [List.mem_singleton.1 hy]; exact h.1.1 q x hx
        · cases hy
      · rw [List.mem_singleton.1 hy]; exact h.1.2 q x hx
    | isend a n q =>
      refine ⟨fun q x hx y hy => ?_, fun q x hx y hy => ?_⟩
      · rcases List.mem_append.1 hy with hy | hy
        · cases hy
        · rw [List.mem_singleton.1 hy]; exact h.1 q x hx
      · cases hy
    | waitall => exact ⟨fun _ _ _ y hy => absurd hy List.not_mem_nil, fun _ _ _ y hy => absurd hy List.not_mem_nil⟩
    | barrier => exact ⟨fun _ _ _ y hy => absurd hy List.not_mem_nil, fun _ _ _ y hy => absurd hy List.not_mem_nil⟩
  | cons j L ih =>
    have hL' : Instr.waitall ∉ L := fun h => hL (List.mem_cons_of_mem _ h)
    intro rs ss h
    cases j with
    | copy red dst src n => exact ih hL' h.2
    | irecv a n q =>
      obtain ⟨h1, h2⟩ := ih hL' h.2
      exact ⟨fun q x hx => h1 q x (mem_push_old hx), h2⟩
    | isend a n q =>
      obtain ⟨h1, h2⟩ := ih hL' h.2
      exact ⟨h1, fun q x hx => h2 q x (mem_push_old hx)⟩
    | waitall => exact absurd List.mem_cons_self hL
    | barrier => exact ih hL' h

theorem tidy_post {rs ss : Nat → List (Addr × Nat)} {A L B : List Instr} {j i : Instr} (h : tidy rs ss (A ++ j :: (L ++ i :: B)))
    (hL : Instr.waitall ∉ L) (hj : Post j) : ¬Conflict i j := by
  obtain ⟨rs, ss, h⟩ := tidy_append h
  intro hc
  rcases hj with ⟨a, n, q, rfl⟩ | ⟨a, n, q, rfl⟩
  · obtain ⟨h1, _⟩ := tidy_clear hL h.2
    rcases hc with ⟨x, y, hx, hy, ho⟩ | ⟨x, y, hx, hy, ho⟩
    · have hy : y = (a, n) := by
        rcases List.mem_append.1 hy with hy | hy
        · exact List.mem_singleton.1 hy
        · cases hy
      subst hy
      exact h1 q _ (mem_push_new _ _ _) x (List.mem_append_left _ hx) (overlap_symm ho)
    · have hy : y = (a, n) := List.mem_singleton.1 hy
      subst hy
      exact h1 q _ (mem_push_new _ _ _) x (List.mem_append_right _ hx) (overlap_symm ho)
  · obtain ⟨_, h1⟩ := tidy_clear hL h.2
    rcases hc with ⟨x, y, hx, hy, ho⟩ | ⟨x, y, hx, hy, ho⟩
    · have hy : y = (a, n) := by
        rcases List.mem_append.1 hy with hy | hy
        · cases hy
        · exact List.mem_singleton.1 hy
      subst hy
      exact h1 q _ (mem_push_new _ _ _) x hx (overlap_symm ho)
    · cases hy

theorem tidy_own {rs ss : Nat → List (Addr × Nat)} {l : List Instr} (h : tidy rs ss l) {i : Instr} (hi : i ∈ l) :
    ∀ x, x ∈ writes i → ∀ y, y ∈ reads i → ¬overlap x.1 x.2 y.1 y.2 := by
  obtain ⟨A, B, rfl⟩ := List.append_of_mem hi
  obtain ⟨rs, ss, h⟩ := tidy_append h
  intro x hx y hy
  cases i with
  | copy red dst src n =>
    rw [List.mem_singleton.1 hx, List.mem_singleton.1 hy]
    exact h.1.1
  | irecv a n q => cases hy
  | isend a n q => cases hx
  | waitall => cases hx
  | barrier => cases hx

/-- Accesses of other processes of node `a` behind a wait come after it in the order given by the barriers. -/
def Waited (N ns : Nat) (W : Nat → Nat → Nat → Prop) (a : Nat) (M : Master) : Prop :=
  ∀ A L r i B, M = A ++ (none, .waitall) :: (L ++ (some r, i) :: B) → r < ns → ∀ r', r' < ns → r' ≠ r →
    Kn N ns W (a * ns + r') (bars A + 1) (a * ns + r) (bars A + bars L)

/-- Every wait is directly followed by a barrier. -/
def Sealed (M : Master) : Prop := ∀ A B, M = A ++ (none, .waitall) :: B → ∃ B', B = (none, .barrier) :: B'

theorem sealed_none {M : Master} (h : (none, Instr.waitall) ∉ M) : Sealed M :=
  fun _ _ e => absurd (by rw [e]; exact List.mem_append_right _ List.mem_cons_self) h

/-- A part of a program with a property of what follows each wait. -/
theorem wait_split {M1 M2 A B : Master} {x : Option Nat × Instr} (h : M1 ++ M2 = A ++ x :: B) :
    (∃ B1, M1 = A ++ x :: B1 ∧ B = B1 ++ M2) ∨ ∃ A2, A = M1 ++ A2 ∧ M2 = A2 ++ x :: B := by
  rcases List.append_eq_append_iff.1 h with ⟨C, c1, c2⟩ | ⟨C, c1, c2⟩
  · exact .inr ⟨C, c1, c2⟩
  · cases C with
    | nil => exact .inr ⟨[], by rw [List.append_nil] at c1 ⊢; exact c1.symm, c2.symm⟩
    | cons z C =>
      obtain ⟨rfl, e⟩ := List.cons.inj c2
      exact .inl ⟨C, c1, e⟩

theorem Sealed.append {M1 M2 : Master} (h1 : Sealed M1) (h2 : Sealed M2) : Sealed (M1 ++ M2) := by
  intro A B h
  rcases wait_split h with ⟨B1, e1, rfl⟩ | ⟨A2, _, e2⟩
  · obtain ⟨B', rfl⟩ := h1 _ _ e1
    exact ⟨_, List.cons_append ..⟩
  · exact h2 _ _ e2

theorem waited_of_sealed {N ns a : Nat} (ha : a < N) {M : Master} (hM : Sealed M) : Waited N ns All a M := by
  intro A L r i B hA hr r' hr' hne
  obtain ⟨B', e⟩ := hM _ _ hA
  have hb : 1 ≤ bars L := by
    cases L with
    | nil => cases (List.cons.inj e).1
    | cons y L =>
      obtain ⟨rfl, _⟩ := List.cons.inj e
      rw [bars_cons]
      exact Nat.le_add_right 1 _
  have hlt : ∀ r, r < ns → a * ns + r < N * ns := fun r hr => by
    have : (a + 1) * ns ≤ N * ns := Nat.mul_le_mul_right _ ha
    rw [Nat.add_mul] at this
    omega
  have hdiv : ∀ r, r < ns → (a * ns + r) / ns = a := fun r hr => by
    rw [Nat.mul_comm, Nat.mul_add_div (by omega), Nat.div_eq_of_lt hr, Nat.add_zero]
  exact .mono (.sync (k := bars A + bars L) (hlt r' hr') (by rw [hdiv r hr, hdiv r' hr']) trivial) (by omega) (Nat.le_refl _)

theorem share_split {ns r : Nat} {M : Master} : ∀ {l1 l2 : List Instr}, share ns r M = l1 ++ l2 →
    ∃ M1 M2, M = M1 ++ M2 ∧ share ns r M1 = l1 ∧ share ns r M2 = l2 := by
  induction M with
  | nil =>
    intro l1 l2 h
    obtain ⟨rfl, rfl⟩ := List.append_eq_nil_iff.1 h.symm
    exact ⟨[], [], rfl, rfl, rfl⟩
  | cons x M ih =>
    intro l1 l2 h
    by_cases c : x.1 = none ∨ x.1 = some r
    · have e : ∀ M, share ns r (x :: M) = toProc ns r x.2 :: share ns r M := by
        intro M
        unfold share
        rw [List.filterMap_cons, if_pos c]
      cases l1 with
      | nil => exact ⟨[], x :: M, rfl, rfl, h⟩
      | cons i l1 =>
        rw [e] at h
        obtain ⟨h1, h2⟩ := List.cons.inj h
        obtain ⟨M1, M2, rfl, h3, h4⟩ := ih h2
        exact ⟨x :: M1, M2, rfl, by rw [e, h1, h3], h4⟩
    · have e : ∀ M, share ns r (x :: M) = share ns r M := by
        intro M
        unfold share
        rw [List.filterMap_cons, if_neg c]
      rw [e] at h
      obtain ⟨M1, M2, rfl, h3, h4⟩ := ih h
      exact ⟨x :: M1, M2, rfl, by rw [e, h3], h4⟩

theorem post_toProc {ns r : Nat} {j : Instr} (h : Post (toProc ns r j)) : Post j := by
  rcases h with ⟨a, n, q, h⟩ | ⟨a, n, q, h⟩ <;> cases j <;> cases h
  · exact .inl ⟨_, _, _, rfl⟩
  · exact .inr ⟨_, _, _, rfl⟩

theorem share_wait {ns r : Nat} {M : Master} (h : Instr.waitall ∉ share ns r M) : (none, Instr.waitall) ∉ M := by
  intro hm
  obtain ⟨A, B, rfl⟩ := List.append_of_mem hm
  rw [share_append, share_all] at h
  exact h (List.mem_append_right _ List.mem_cons_self)

theorem map_wait {N ns a : Nat} {M : Master} (hw : ∀ x, x ∈ M → WF N ns a x) (h : (none, Instr.waitall) ∉ M) :
    Instr.waitall ∉ M.map Prod.snd := by
  intro hm
  obtain ⟨⟨o, i⟩, hx, e⟩ := List.mem_map.1 hm
  dsimp only at e
  subst e
  rw [(wf_none (hw _ hx)).2 (.inl rfl)] at hx
  exact h hx

/-- An instruction with operands belongs to the process. -/
theorem share_owner {N ns a r : Nat} {i : Instr} {l : List Instr} {M : Master} (hw : ∀ x, x ∈ M → WF N ns a x)
    (h : i :: l <:+ share ns r M) (hi : i ≠ .waitall ∧ i ≠ .barrier) :
    ∃ A j B, M = A ++ (some r, j) :: B ∧ toProc ns r j = i ∧ l = share ns r B := by
  obtain ⟨A, ⟨o, j⟩, B, hA, rfl, rfl, ho⟩ := share_suffix h
  dsimp only at ho
  rcases ho with rfl | rfl
  · rcases (wf_none (hw (none, j) (by rw [hA]; exact List.mem_append_right _ List.mem_cons_self))).1 rfl with rfl | rfl
    · exact absurd rfl hi.1
    · exact absurd rfl hi.2
  · exact ⟨A, j, B, hA, rfl, rfl⟩

theorem conflict_ne {i j : Instr} (h : Conflict i j) : i ≠ .waitall ∧ i ≠ .barrier :=
  ⟨fun e => no_conflict_left (.inl e) h, fun e => no_conflict_left (.inr e) h⟩

theorem bars_some {N ns a r : Nat} {j : Instr} (h : WF N ns a (some r, j)) : bars [(some r, j)] = 0 := by
  cases j <;> first | rfl | cases h

/-- An access of a process that conflicts with a message of another one. -/
theorem share_awaits {N ns a r r' : Nat} {W : Nat → Nat → Nat → Prop} (hne : r ≠ r') (hr : r < ns) (hr' : r' < ns) {M : Master}
    (hw : ∀ x, x ∈ M → WF N ns a x) (hM : Ordered N ns W a M) (hW : Waited N ns W a M)
    (ht : tidy (fun _ => []) (fun _ => []) (M.map Prod.snd))
    {i j : Instr} {l D1 D2 l' : List Instr} {x x' : Nat} (h : i :: l <:+ share ns r M) (h' : share ns r' M = D1 ++ j :: (D2 ++ l'))
    (hD : Instr.waitall ∉ D2) (hx : x + l.count .barrier = (share ns r M).count .barrier)
    (hx' : x' + l'.count .barrier = (share ns r' M).count .barrier) (hj : Post j) (hcon : Conflict i j) :
    Kn N ns W (a * ns + r) (x + 1) (a * ns + r') x' ∨
      ∃ C E, l' = C ++ .waitall :: E ∧ Kn N ns W (a * ns + r') (x' + C.count .barrier + 1) (a * ns + r) x := by
  obtain ⟨A, i0, B, hA, rfl, rfl⟩ := share_owner hw h (conflict_ne hcon)
  obtain ⟨A', j0, B', hA', rfl, e'⟩ := share_owner (r := r') hw ⟨D1, h'.symm⟩ (conflict_ne hcon.symm)
  obtain ⟨B1, B2, rfl, e1, e2⟩ := share_split e'.symm
  have hcon := conflict_toProc hcon
  have hj := post_toProc hj
  have wB : ∀ y, y ∈ B → WF N ns a y := fun y hy => hw y (by rw [hA]; exact List.mem_append_right _ (List.mem_cons_of_mem _ hy))
  have wB' : ∀ y, y ∈ B1 ++ B2 → WF N ns a y := fun y hy => hw y (by rw [hA']; exact List.mem_append_right _ (List.mem_cons_of_mem _ hy))
  have z1 : bars [(some r, i0)] = 0 := bars_some (hw _ (by rw [hA]; exact List.mem_append_right _ List.mem_cons_self))
  have z2 : bars [(some r', j0)] = 0 := bars_some (hw _ (by rw [hA']; exact List.mem_append_right _ List.mem_cons_self))
  rw [share_count wB, share_count hw] at hx
  rw [← e2, share_count (fun y hy => wB' y (List.mem_append_right _ hy)), share_count hw] at hx'
  have hxA : x = bars A := by rw [hA, bars_append, bars_cons] at hx; omega
  have hxA' : x' = bars A' + bars B1 := by rw [hA', bars_append, bars_cons, bars_append] at hx'; omega
  have hB1 : (none, Instr.waitall) ∉ B1 := share_wait (by rw [e1]; exact hD)
  rcases List.append_eq_append_iff.1 (hA.symm.trans hA') with ⟨L, h1, h2⟩ | ⟨L, h1, h2⟩
  · cases L with
    | nil =>
      rw [List.nil_append] at h2
      exact absurd (Option.some.inj (Prod.mk.inj (List.cons.inj h2).1).1) hne
    | cons y L =>
      rw [List.cons_append] at h2
      obtain ⟨e3, e4⟩ := List.cons.inj h2
      subst e3
      left
      have hb : bars A' = bars A + bars L := by rw [h1, bars_append, bars_cons]; omega
      exact (hM A r i0 L r' j0 (B1 ++ B2) (by rw [hA, e4]) hne hr hr' hcon).mono (by omega) (by omega)
  · cases L with
    | nil =>
      rw [List.nil_append] at h2
      exact absurd (Option.some.inj (Prod.mk.inj (List.cons.inj h2).1).1) (Ne.symm hne)
    | cons y L =>
      rw [List.cons_append] at h2
      obtain ⟨e3, e4⟩ := List.cons.inj h2
      subst e3
      have hb : bars A = bars A' + bars L := by rw [h1, bars_append, bars_cons]; omega
      by_cases hL : (none, Instr.waitall) ∈ L
      · right
        obtain ⟨L1, L2, rfl⟩ := List.append_of_mem hL
        rw [List.append_assoc, List.cons_append] at e4
        obtain ⟨C, c1, c2⟩ : ∃ C, L1 = B1 ++ C ∧ B2 = C ++ (none, .waitall) :: (L2 ++ (some r, i0) :: B) := by
          rcases List.append_eq_append_iff.1 e4 with ⟨C, c1, c2⟩ | ⟨C, c1, c2⟩
          · exact ⟨C, c1, c2⟩
          · cases C with
            | nil => exact ⟨[], by rw [List.append_nil] at c1 ⊢; exact c1.symm, c2.symm⟩
            | cons z C =>
              obtain ⟨rfl, _⟩ := List.cons.inj c2
              exact absurd (by rw [c1]; exact List.mem_append_right _ List.mem_cons_self) hB1
        refine ⟨share ns r' C, share ns r' (L2 ++ (some r, i0) :: B), ?_, ?_⟩
        · rw [← e2, c2, share_append, share_all]; rfl
        · rw [share_count (fun y hy => wB' y (by rw [c2]; exact List.mem_append_right _ (List.mem_append_left _ hy)))]
          have := hW (A' ++ (some r', j0) :: L1) L2 r i0 B (by rw [hA', e4]; simp only [List.append_assoc, List.cons_append]) hr r' hr' (Ne.symm hne)
          have b1 : bars (A' ++ (some r', j0) :: L1) = bars A' + bars L1 := by rw [bars_append, bars_cons]; omega
          have b2 : bars L1 = bars B1 + bars C := by rw [c1, bars_append]
          have b3 : bars (L1 ++ (none, .waitall) :: L2) = bars L1 + bars L2 := by
            rw [bars_append, bars_cons, show bars [((none : Option Nat), Instr.waitall)] = 0 from rfl, Nat.zero_add]
          rw [b1] at this
          exact this.mono (by omega) (by omega)
      · exfalso
        rw [hA', e4, List.map_append, List.map_cons, List.map_append, List.map_cons] at ht
        refine tidy_post ht (map_wait (N := N) (ns := ns) (a := a) (fun y hy => hw y ?_) hL) hj hcon
        rw [hA, h1]
        exact List.mem_append_left _ (List.mem_append_right _ (List.mem_cons_of_mem _ hy))

/-- The programs of all processes. -/
theorem awaits_of_masters {N ns : Nat} {W : Nat → Nat → Nat → Prop} {M : Nat → Master}
    (hw : ∀ a, a < N → ∀ x, x ∈ M a → WF N ns a x)
    (hM : ∀ a, a < N → Ordered N ns W a (M a)) (hW : ∀ a, a < N → Waited N ns W a (M a))
    (ht : ∀ a, a < N → tidy (fun _ => []) (fun _ => []) ((M a).map Prod.snd)) :
    Awaits N ns W (fun p => share ns (p % ns) (M (p / ns))) := by
  refine ⟨fun p hp i hi => ?_, fun p hp D1 j D2 i l h hD hj hc => ?_,
    fun p p' hp hp' hne hn i l D1 j D2 l' x x' h h' hD hx hx' hj hc => ?_⟩
  · have hi : i ∈ share ns (p % ns) (M (p / ns)) := hi
    obtain ⟨l, hl⟩ : ∃ A, ∃ B, share ns (p % ns) (M (p / ns)) = A ++ i :: B := List.append_of_mem hi
    obtain ⟨B, hl⟩ := hl
    obtain ⟨A, ⟨o, j⟩, B, hA, rfl, _, _⟩ := share_suffix ⟨l, hl.symm⟩
    have := tidy_own (ht _ (div_lt hp)) (i := j) (by
      rw [hA, List.map_append, List.map_cons]; exact List.mem_append_right _ List.mem_cons_self)
    cases j <;> exact this
  · obtain ⟨A, j0, B, hA, rfl, e⟩ := share_owner (hw _ (div_lt hp)) ⟨D1, h.symm⟩ (conflict_ne hc.symm)
    obtain ⟨B1, B2, rfl, e1, e2⟩ := share_split e.symm
    have wB : ∀ y, y ∈ B1 ++ B2 → WF N ns (p / ns) y := fun y hy =>
      hw _ (div_lt hp) y (by rw [hA]; exact List.mem_append_right _ (List.mem_cons_of_mem _ hy))
    obtain ⟨C, i0, B3, rfl, rfl, e3⟩ := share_owner (fun y hy => wB y (List.mem_append_right _ hy)) ⟨[], by rw [e2]; rfl⟩ (conflict_ne hc)
    have t := ht _ (div_lt hp)
    by_cases hwt : (none, Instr.waitall) ∈ B1 ++ C
    · rcases List.mem_append.1 hwt with hm | hm
      · exact share_wait (by rw [e1]; exact hD) hm
      · have hC : share ns (p % ns) C = [] := by
          rw [share_append, share_own, e3] at e2
          have := congrArg List.length e2
          rw [List.length_append] at this
          exact List.length_eq_zero_iff.1 (by simpa using this)
        exact share_wait (by rw [hC]; exact List.not_mem_nil) hm
    · rw [hA, ← List.append_assoc, List.map_append, List.map_cons, List.map_append, List.map_cons] at t
      refine tidy_post t (map_wait (N := N) (ns := ns) (a := p / ns) (fun y hy => wB y ?_) hwt) (post_toProc hj) (conflict_toProc hc)
      rw [← List.append_assoc]; exact List.mem_append_left _ hy
  · rw [← hn] at h' hx'
    have hns : 0 < ns := Nat.pos_of_ne_zero (by rintro rfl; simp at hp)
    have h1 := Nat.div_add_mod p ns
    have h2 := Nat.div_add_mod p' ns
    rw [← hn] at h2
    have := share_awaits (fun e => hne (by rw [← e] at h2; omega)) (Nat.mod_lt p hns) (Nat.mod_lt p' hns) (hw _ (div_lt hp))
      (hM _ (div_lt hp)) (hW _ (div_lt hp)) (ht _ (div_lt hp)) h h' hD hx hx' hj hc
    rw [Nat.mul_comm (p / ns) ns, h1, h2] at this
    exact this

/-- The programs of all processes are correct if those of the nodes have one complete execution. -/
theorem wcorrect_of_masters {X : Type} [Add X] {N ns k : Nat} {W : Nat → Nat → Nat → Prop} {M : Nat → Master}
    {m : Nat → Mem X} {e : State X} {post : (Nat → Mem X) → Prop}
    (hw : ∀ a, a < N → ∀ x, x ∈ M a → WF N ns a x) (hM : ∀ a, a < N → Ordered N ns W a (M a))
    (hW : ∀ a, a < N → Waited N ns W a (M a))
    (ht : ∀ a q, a < N → q < N → a ≠ q → sendTags q (M a) = recvTags a (M q))
    (hr : URun N k (initial (fun a => (M a).map Prod.snd) m) e) (he : Final N e)
    (hp : ∀ mem : Nat → Mem X, (∀ a, a < N → mem a = (e.proc a).mem) → post mem) :
    WCorrect N ns W (fun p => share ns (p % ns) (M (p / ns))) m post := by
  obtain ⟨n, T, h1, h2, h3⟩ := lift hw ht hr he
  exact tcorrect_of_run (free_of_masters hw hM) (awaits_of_masters hw hM hW fun a ha => hr.tidy he ha) h1 h2 (hp _ h3)

/-- The same with barriers of all processes of a node. -/
theorem tcorrect_of_masters {X : Type} [Add X] {N ns k : Nat} {M : Nat → Master} {m : Nat → Mem X} {e : State X}
    {post : (Nat → Mem X) → Prop}
    (hw : ∀ a, a < N → ∀ x, x ∈ M a → WF N ns a x) (hM : ∀ a, a < N → mfree (M a))
    (hs : ∀ a, a < N → Sealed (M a))
    (ht : ∀ a q, a < N → q < N → a ≠ q → sendTags q (M a) = recvTags a (M q))
    (hr : URun N k (initial (fun a => (M a).map Prod.snd) m) e) (he : Final N e)
    (hp : ∀ mem : Nat → Mem X, (∀ a, a < N → mem a = (e.proc a).mem) → post mem) :
    TCorrect N ns (fun p => share ns (p % ns) (M (p / ns))) m post :=
  wcorrect_of_masters hw (fun a ha => ordered_of_mfree ha (hM a ha)) (fun a ha => waited_of_sealed ha (hs a ha)) ht hr he hp

end ExtMpi.TasksNode
