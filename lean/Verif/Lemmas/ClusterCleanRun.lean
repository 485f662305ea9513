import Verif.Lemmas.ClusterClean
/-! Programs after the removal of barriers. -/
namespace ExtMpi.Cluster
open RawCode Schedule
open TasksNode
open BarrierPasses (Line runSeg clean clean_bar noFirst)

/-! ## The first barrier -/

theorem noFirst_false (l : List PLine) : noFirst false l = l := by
  induction l with
  | nil => rfl
  | cons x l ih => cases x <;> simp [noFirst, ih]

theorem noFirst_split {l1 : List PLine} (h : ∀ x, x ∈ l1 → ∀ b, x ≠ .barrier b) (i : Nat) (l2 : List PLine) :
    noFirst true (l1 ++ .barrier i :: l2) = l1 ++ l2 := by
  induction l1 with
  | nil => exact noFirst_false l2
  | cons x l1 ih =>
    have ih := ih fun y hy => h y (List.mem_cons_of_mem _ hy)
    cases x with
    | barrier b => exact absurd rfl (h _ List.mem_cons_self b)
    | nop => exact congrArg _ ih
    | waitany0 => exact congrArg _ ih
    | work w => exact congrArg _ ih

theorem shape_noFirst {l : List PLine} {s : List (Option (List CInstr))} (h : shape l = none :: s) : shape (noFirst true l) = s := by
  obtain ⟨l1, i, l2, rfl, h1, h2⟩ := shape_bar h
  rw [noFirst_split (shape_nil h1), shape_append, h1, h2]
  rfl

theorem rounds_length (ns r : Nat) : (rounds ns r).length = 2 * K ns := by
  unfold rounds
  rw [List.length_flatMap]
  simp [Nat.mul_comm]

theorem code_noFirst {ns r : Nat} {l : List PLine} {s : List (Option (List CInstr))} (h : shape l = none :: s) :
    (noFirst true l).flatMap (lineCode ns r) = (l.flatMap (lineCode ns r)).drop (2 * K ns) := by
  rw [shape_code, shape_noFirst h, shape_code ns r l, h, List.flatMap_cons, List.drop_append_of_le_length (by rw [rounds_length]),
    ← rounds_length ns r, List.drop_length, List.nil_append]

theorem mem_noFirst {l : List PLine} {x : PLine} : ∀ {f}, x ∈ noFirst f l → x ∈ l := by
  induction l with
  | nil => intro f h; cases f <;> cases h
  | cons y l ih =>
    intro f h
    cases f <;> cases y <;> simp only [noFirst, List.mem_cons] at h ⊢
    all_goals first
      | exact .inr (ih h)
      | exact h.imp_right ih

/-- Instructions of a node of which all processes have a barrier first. -/
theorem Cut.tail {N ns a : Nat} (hns : 0 < ns) {E : Master} {ws : List (Nat → Nat)} {sh : Nat → List (Option (List CInstr))}
    (h : Cut ns E ws sh) (hw : ∀ x, x ∈ E → WF N ns a x) {sh' : Nat → List (Option (List CInstr))} (hs : ∀ r, r < ns → sh r = none :: sh' r) :
    ∃ E' ws', E = nodeBar ns ++ E' ∧ ws = nodeWs ns ++ ws' ∧ Cut ns E' ws' sh' := by
  induction h with
  | nil h =>
    have := hs 0 hns
    rw [h 0 hns] at this
    cases this
  | @seg E1 ws1 E ws s sh sh1 h1 h2 h3 h4 ih =>
    have hsn : ∀ r, r < ns → s r = [] := fun r hr => by
      have e := h4 r hr
      rw [hs r hr] at e
      cases hs' : s r with
      | nil => rfl
      | cons x l =>
        rw [hs'] at e
        cases (List.cons.inj e).1
    have hz : E1 = [] := by
      refine share_empty hns (fun x hx => hw x (List.mem_append_left _ hx)) fun r hr => ?_
      obtain ⟨_, hc⟩ := h2 r hr
      rw [hsn r hr] at hc
      exact toC_nil (hc (fun k => (ws1.getD (k - 1) id) r) 0 fun j w hj => by
        rw [show 0 + j + 1 - 1 = j by omega, List.getD_eq_getElem?_getD, hj]; rfl)
    subst hz
    have hw1 : ws1 = [] := List.length_eq_zero_iff.1 h1
    subst hw1
    exact ih hw fun r hr => by
      have := h4 r hr
      rw [hsn r hr] at this
      rw [← hs r hr, this]
      rfl
  | bar h1 h2 _ =>
    refine ⟨_, _, rfl, rfl, h1.congr fun r hr => ?_⟩
    have := h2 r hr
    rw [hs r hr] at this
    exact (List.cons.inj this).2

/-! ## What the pass keeps -/

/-- The instructions start with a barrier of the node. -/
def Begins (ns : Nat) (E : Master) (ws : List (Nat → Nat)) : Prop := (∃ E', E = nodeBar ns ++ E') ∧ ∃ ws', ws = nodeWs ns ++ ws'

theorem begins_undouble {ns : Nat} {A B : Master} {wa wb : List (Nat → Nat)}
    (h : Begins ns (A ++ (nodeBar ns ++ (nodeBar ns ++ B))) (wa ++ (nodeWs ns ++ (nodeWs ns ++ wb)))) :
    Begins ns (A ++ (nodeBar ns ++ B)) (wa ++ (nodeWs ns ++ wb)) := by
  obtain ⟨⟨E', h1⟩, ws', h2⟩ := h
  rw [← List.append_assoc] at h1 h2
  obtain ⟨F, e, _⟩ := append_split h1 (by rw [List.length_append]; omega)
  obtain ⟨f, e', _⟩ := append_split h2 (by rw [List.length_append]; omega)
  refine ⟨⟨F ++ B, ?_⟩, f ++ wb, ?_⟩
  · rw [← List.append_assoc, e, List.append_assoc]
  · rw [← List.append_assoc, e', List.append_assoc]

theorem full_undouble {ns : Nat} {A B : Master} {wa wb : List (Nat → Nat)} (hl : wa.length = bars A) :
    Full ns (A ++ (nodeBar ns ++ B)) (wa ++ (nodeWs ns ++ wb)) := ⟨A, B, wa, wb, rfl, rfl, hl⟩

theorem worked_undouble {ns : Nat} {A B : Master} {wa wb : List (Nat → Nat)} (hl : wa.length = bars A)
    (h : Worked ns (A ++ (nodeBar ns ++ (nodeBar ns ++ B))) (wa ++ (nodeWs ns ++ (nodeWs ns ++ wb)))) :
    Worked ns (A ++ (nodeBar ns ++ B)) (wa ++ (nodeWs ns ++ wb)) := by
  obtain ⟨G, wg, x, L, wl, h1, h2, h3, h4, h5⟩ := h
  have hx : x ≠ (none, .barrier) := by
    rintro rfl
    exact h4 rfl
  have hx0 : bars [x] = 0 := by
    obtain ⟨o, i⟩ := x
    cases i with
    | barrier => exact absurd rfl h4
    | copy red d s n => rfl
    | irecv b n q => rfl
    | isend b n q => rfl
    | waitall => rfl
  have hbn := bars_nodeBar ns
  have hwn := nodeWs_length ns
  rw [← List.append_assoc (nodeBar ns) G] at h1
  rcases split_around h1 hx with ⟨A2, rfl, rfl⟩ | ⟨P2, e1, e2⟩
  · rw [bars_append, bars_append, bars_cons, hx0] at hl
    rw [← List.append_assoc (nodeWs ns) wg] at h2
    obtain ⟨w, rfl, rfl⟩ := append_split h2 (by rw [List.length_append]; omega)
    rw [List.length_append, List.length_append] at hl
    refine ⟨G, wg, x, A2 ++ (nodeBar ns ++ B), w ++ (nodeWs ns ++ wb), ?_, ?_, h3, h4, full_undouble (by omega)⟩
    · simp only [List.append_assoc, List.cons_append]
    · simp only [List.append_assoc]
  · have e2' : [] ++ (nodeBar ns ++ B) = P2 ++ x :: L := e2
    rcases split_around e2' hx with ⟨A2, e, _⟩ | ⟨P3, rfl, rfl⟩
    · exact absurd e (by simp)
    · rw [List.nil_append] at e1
      have hb := congrArg bars e1
      simp only [bars_append] at hb
      rw [← List.append_assoc (nodeWs ns) wg, ← List.append_assoc (nodeWs ns) (nodeWs ns), ← List.append_assoc wa] at h2
      obtain ⟨w3, e3, rfl⟩ := append_split h2.symm (by simp only [List.length_append]; omega)
      rw [← List.append_assoc] at e1
      obtain ⟨F, f1, rfl⟩ := append_split e1.symm (by rw [List.length_append]; omega)
      rw [← List.append_assoc wa, List.append_assoc (wa ++ nodeWs ns)] at e3
      obtain ⟨f, g1, rfl⟩ := append_split e3.symm (by rw [List.length_append]; omega)
      have b1 := congrArg bars f1
      have b2 := congrArg List.length g1
      simp only [bars_append, List.length_append] at b1 b2 h3 hb
      refine ⟨F ++ P3, f ++ w3, x, L, wl, ?_, ?_, ?_, h4, h5⟩
      · rw [← List.append_assoc, f1]
        simp only [List.append_assoc]
      · rw [← List.append_assoc, g1]
        simp only [List.append_assoc]
      · rw [List.length_append, bars_append]
        omega

/-! ## The lines that the pass writes -/

theorem mem_runSeg (l : List PLine) : ∀ f, (∀ x, x ∈ (runSeg f l).1 → x ∈ l) ∧ ∀ y, (runSeg f l).2.2 = some y → .barrier y.1 ∈ l ∧ ∀ x, x ∈ y.2 → x ∈ l := by
  induction l with
  | nil => intro f; exact ⟨fun _ h => h, by intro y h; cases h⟩
  | cons z l ih =>
    intro f
    cases z with
    | barrier i =>
      refine ⟨(by intro x h; cases h), fun y h => ?_⟩
      cases h
      exact ⟨List.mem_cons_self, fun x hx => List.mem_cons_of_mem _ hx⟩
    | nop => exact ⟨fun x h => List.mem_cons_of_mem _ ((ih f).1 x h), fun y h => ⟨List.mem_cons_of_mem _ ((ih f).2 y h).1, fun x hx => List.mem_cons_of_mem _ (((ih f).2 y h).2 x hx)⟩⟩
    | waitany0 => exact ⟨fun x h => List.mem_cons_of_mem _ ((ih f).1 x h), fun y h => ⟨List.mem_cons_of_mem _ ((ih f).2 y h).1, fun x hx => List.mem_cons_of_mem _ (((ih f).2 y h).2 x hx)⟩⟩
    | work w =>
      refine ⟨fun x h => ?_, fun y h => ⟨List.mem_cons_of_mem _ ((ih false).2 y h).1, fun x hx => List.mem_cons_of_mem _ (((ih false).2 y h).2 x hx)⟩⟩
      rcases List.mem_cons.1 h with rfl | h
      · exact List.mem_cons_self
      · exact List.mem_cons_of_mem _ ((ih false).1 x h)

theorem mem_clean {R C : Type} [Fintype R] [Fintype C] (fuel : Nat) : ∀ (ps : R × C → Bool × List PLine) {out : R × C → List PLine},
    clean fuel ps = some out → ∀ p x, x ∈ out p → x ∈ (ps p).2 := by
  induction fuel with
  | zero => intro ps out h; cases h
  | succ fuel ih =>
    intro ps out h p x hx
    unfold clean at h
    dsimp only at h
    split at h
    · obtain rfl := Option.some.inj h
      exact (mem_runSeg _ _).1 x hx
    · split at h
      · rename_i hne
        obtain ⟨out', h', rfl⟩ := Option.map_eq_some_iff.1 h
        have hr := ih _ h' p x
        obtain ⟨y, hy⟩ := Option.ne_none_iff_exists'.1 (hne p)
        dsimp only at hx hr
        rw [hy] at hx hr
        obtain ⟨g1, g2⟩ := (mem_runSeg _ _).2 y hy
        rcases List.mem_append.1 hx with hx | hx
        · rcases List.mem_append.1 hx with hx | hx
          · exact (mem_runSeg _ _).1 x hx
          · dsimp only at hx
            split at hx
            · cases hx
            · rw [List.mem_singleton.1 hx]; exact g1
        · exact g2 x (hr hx)
      · cases h

theorem mem_cleanLines {ns a : Nat} {lines : Nat → List PLine} {out : Nat → List PLine} (h : cleanLines ns lines a = some out) {r : Nat}
    (hr : r < ns) {x : PLine} (hx : x ∈ out r) : x ∈ lines (a * ns + r) := by
  unfold cleanLines BarrierPasses.cleanBarriers at h
  obtain ⟨o, ho, rfl⟩ := Option.map_eq_some_iff.1 h
  dsimp only at hx
  rw [dif_pos hr] at hx
  exact mem_clean _ _ ho (⟨r, hr⟩, 0) x hx

/-- The pass writes the first barrier. -/
theorem cleanLines_head {ns a : Nat} (hns : 0 < ns) {lines : Nat → List PLine} {out : Nat → List PLine} (h : cleanLines ns lines a = some out)
    {s : Nat → List (Option (List CInstr))} (hs : ∀ r, r < ns → shape (lines (a * ns + r)) = none :: s r) {r : Nat} (hr : r < ns) :
    ∃ s', shape (out r) = none :: s' := by
  have : ∀ p : Fin ns × Fin 1, ∃ l1 i l2, lines (a * ns + p.1.val) = l1 ++ .barrier i :: l2 ∧ shape l1 = [] := fun p => by
    obtain ⟨l1, i, l2, h1, h2, _⟩ := shape_bar (hs p.1.val p.1.isLt)
    exact ⟨l1, i, l2, h1, h2⟩
  choose l1 i l2 e1 e2 using this
  unfold cleanLines BarrierPasses.cleanBarriers at h
  obtain ⟨o, ho, rfl⟩ := Option.map_eq_some_iff.1 h
  dsimp only
  rw [dif_pos hr]
  simp only [e1] at ho
  obtain ⟨fl', g1, g2⟩ := clean_pre ((lines (a * ns)).length + 1) (fun _ => false) l1 (fun p => .barrier (i p) :: l2 p) fun p => shape_nil (e2 p)
  rw [g1] at ho
  obtain ⟨o', ho', rfl⟩ := Option.map_eq_some_iff.1 ho
  haveI : Nonempty (Fin ns) := ⟨⟨0, hns⟩⟩
  rw [clean_bar (w := fun _ => []) (rest := l2) (fl := fl') (id := i) _ _ fun p => rfl] at ho'
  obtain ⟨o2, _, rfl⟩ := Option.map_eq_some_iff.1 ho'
  have hf : ¬∀ q, fl' q = true := fun hf => absurd (g2 (⟨r, hr⟩, 0) (hf _)).1 (by decide)
  have hk : shape (kept (l1 (⟨r, hr⟩, 0))) = [] := by
    apply List.filterMap_eq_nil_iff.2
    intro x hx
    exact List.filterMap_eq_nil_iff.1 (e2 (⟨r, hr⟩, 0)) x (List.mem_of_mem_filter hx)
  dsimp only
  rw [shape_append, hk]
  simp only [hf, decide_false, Bool.false_eq_true, if_false, List.nil_append]
  exact ⟨_, rfl⟩

end ExtMpi.Cluster
