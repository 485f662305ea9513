import Verif.Lemmas.ClusterUndouble
import Verif.Props.BarrierPasses
/-! Removal of barriers from the programs of the processes of a node. -/
namespace ExtMpi.Cluster
open RawCode Schedule
open TasksNode
open BarrierPasses (Line runSeg clean clean_end clean_bar)

/-! ## Lines without barriers -/

/-- Lines that remain. -/
def kept (l : List PLine) : List PLine := l.filter fun x => match x with | .work _ => true | _ => false

theorem kept_code (ns rank : Nat) (l : List PLine) (h : ∀ x, x ∈ l → ∀ b, x ≠ .barrier b) :
    (kept l).flatMap (lineCode ns rank) = l.flatMap (lineCode ns rank) := by
  induction l with
  | nil => rfl
  | cons x l ih =>
    have ih := ih fun y hy => h y (List.mem_cons_of_mem _ hy)
    cases x with
    | barrier b => exact absurd rfl (h _ List.mem_cons_self b)
    | nop => exact ih
    | waitany0 => exact ih
    | work w =>
      show w ++ (kept l).flatMap _ = w ++ l.flatMap _
      rw [ih]

theorem runSeg_pre (f : Bool) (l : List PLine) (h : ∀ x, x ∈ l → ∀ b, x ≠ .barrier b) (l' : List PLine) :
    ∃ f', runSeg f (l ++ l') = (kept l ++ (runSeg f' l').1, (runSeg f' l').2) ∧ (f' = true → f = true ∧ kept l = []) := by
  induction l generalizing f with
  | nil => exact ⟨f, rfl, fun h => ⟨h, rfl⟩⟩
  | cons x l ih =>
    have ih := fun f => ih f fun y hy => h y (List.mem_cons_of_mem _ hy)
    cases x with
    | barrier b => exact absurd rfl (h _ List.mem_cons_self b)
    | nop => exact ih f
    | waitany0 => exact ih f
    | work w =>
      obtain ⟨f', e1, e2⟩ := ih false
      refine ⟨f', ?_, fun h => absurd (e2 h).1 (by decide)⟩
      show (Line.work w :: (runSeg false (l ++ l')).1, (runSeg false (l ++ l')).2) = _
      rw [e1]
      rfl

theorem clean_pre {R C : Type} [Fintype R] [Fintype C] (fuel : Nat) (fl : R × C → Bool) (l l' : R × C → List PLine)
    (h : ∀ p, ∀ x, x ∈ l p → ∀ b, x ≠ .barrier b) :
    ∃ fl' : R × C → Bool, clean fuel (fun p => (fl p, l p ++ l' p)) = (clean fuel fun p => (fl' p, l' p)).map (fun out p => kept (l p) ++ out p) ∧
      ∀ p, fl' p = true → fl p = true ∧ kept (l p) = [] := by
  choose fl' h1 h2 using fun p => runSeg_pre (fl p) (l p) (h p) (l' p)
  refine ⟨fl', ?_, h2⟩
  cases fuel with
  | zero => rfl
  | succ fuel =>
    unfold clean
    simp only [h1]
    split
    · rfl
    · split
      · rw [Option.map_map]
        congr 1
        funext out p
        simp only [Function.comp, List.append_assoc]
      · rfl

/-! ## Shapes -/

theorem shape_nil {l : List PLine} (h : shape l = []) : ∀ x, x ∈ l → ∀ b, x ≠ .barrier b := by
  rintro x hx b rfl
  have := (List.filterMap_eq_nil_iff.1 h) _ hx
  cases this

theorem shape_kept {l : List PLine} (h : ∀ x, x ∈ l → ∀ b, x ≠ .barrier b) (hk : kept l = []) : shape l = [] := by
  apply List.filterMap_eq_nil_iff.2
  intro x hx
  have := (List.filter_eq_nil_iff.1 hk) x hx
  cases x with
  | barrier b => exact absurd rfl (h _ hx b)
  | nop => rfl
  | waitany0 => rfl
  | work w => exact absurd rfl this

theorem shape_somes {l : List PLine} {s : List (List CInstr)} (h : shape l = s.map some) : ∀ x, x ∈ l → ∀ b, x ≠ .barrier b := by
  rintro x hx b rfl
  have : (none : Option (List CInstr)) ∈ shape l := List.mem_filterMap.2 ⟨_, hx, rfl⟩
  rw [h] at this
  obtain ⟨_, _, e⟩ := List.mem_map.1 this
  cases e

theorem shape_split {l : List PLine} {a b : List (Option (List CInstr))} (h : shape l = a ++ b) : ∃ l1 l2, l = l1 ++ l2 ∧ shape l1 = a ∧ shape l2 = b := by
  obtain ⟨l1, l2, h1, h2, h3⟩ := List.filterMap_eq_append_iff.1 h
  exact ⟨l1, l2, h1, h2, h3⟩

theorem shape_bar {l : List PLine} {b : List (Option (List CInstr))} (h : shape l = none :: b) :
    ∃ l1 i l2, l = l1 ++ .barrier i :: l2 ∧ shape l1 = [] ∧ shape l2 = b := by
  obtain ⟨l1, x, l2, h1, h2, h3, h4⟩ := List.filterMap_eq_cons_iff.1 h
  refine ⟨l1, ?_⟩
  cases x with
  | barrier i => exact ⟨i, l2, h1, List.filterMap_eq_nil_iff.2 h2, h4⟩
  | nop => cases h3
  | waitany0 => cases h3
  | work w => cases w <;> cases h3

theorem shape_flatten {ns rank : Nat} {l : List PLine} {s : List (List CInstr)} (h : shape l = s.map some) : l.flatMap (lineCode ns rank) = s.flatten := by
  rw [shape_code, h, List.flatMap_map]
  show s.flatMap (fun w => w) = _
  rw [List.flatMap_id']

/-! ## The pass -/

/-- Number of barriers. -/
def shapeBars (s : List (Option (List CInstr))) : Nat := s.count none

/-- Instructions of which no process has a share. -/
theorem share_empty {N ns a : Nat} (hns : 0 < ns) {E : Master} (hw : ∀ x, x ∈ E → WF N ns a x) (h : ∀ r, r < ns → share ns r E = []) : E = [] := by
  cases E with
  | nil => rfl
  | cons x E =>
    obtain ⟨o, i⟩ := x
    have hx := hw _ List.mem_cons_self
    cases o with
    | none =>
      have := h 0 hns
      rw [share_all] at this
      cases this
    | some o =>
      have ho : o < ns := by
        cases i <;> simp only [WF] at hx
        · exact hx
        · exact hx.1
        · exact hx.1
      have := h o ho
      rw [share_own] at this
      cases this

theorem toC_nil {part : Nat → Nat} {rank c : Nat} {l : List Instr} (h : toC part rank c l = []) : l = [] := by
  cases l with
  | nil => rfl
  | cons i l => cases i <;> cases h

/-- The pass on the processes of a node keeps a property of the instructions of the node that is kept if the second of two consecutive
barriers is removed. -/
theorem clean_cut {N ns a : Nat} (hns : 0 < ns) (Good : Master → List (Nat → Nat) → Prop)
    (hW : ∀ E ws, Good E ws → ∀ x, x ∈ E → WF N ns a x)
    (hG : ∀ A wa B wb, wa.length = bars A → Good (A ++ (nodeBar ns ++ (nodeBar ns ++ B))) (wa ++ (nodeWs ns ++ (nodeWs ns ++ wb))) →
      Good (A ++ (nodeBar ns ++ B)) (wa ++ (nodeWs ns ++ wb)))
    {E : Master} {ws : List (Nat → Nat)} {sh : Nat → List (Option (List CInstr))} (hC : Cut ns E ws sh) :
    ∀ (A : Master) (wa : List (Nat → Nat)) (fl : Fin ns × Fin 1 → Bool) (lines : Fin ns × Fin 1 → List PLine) (fuel : Nat),
      wa.length = bars A → Good (A ++ E) (wa ++ ws) → (∀ p, shape (lines p) = sh p.1.val) →
      ((∀ p, fl p = true) → ∃ A1 wa1, A = A1 ++ nodeBar ns ∧ wa = wa1 ++ nodeWs ns ∧ wa1.length = bars A1) →
      (∀ r, r < ns → shapeBars (sh r) < fuel) →
      ∃ out E' ws', clean fuel (fun p => (fl p, lines p)) = some out ∧ Good (A ++ E') (wa ++ ws') ∧ ws'.length = bars E' ∧
        ∀ p : Fin ns × Fin 1, (share ns p.1.val E').count .barrier = ws'.length ∧ Codes ns E' ws' p.1.val ((out p).flatMap (lineCode ns p.1.val)) := by
  induction hC with
  | nil h =>
    intro A wa fl lines fuel _ hg hs _ hf
    obtain ⟨fuel, rfl⟩ : ∃ k, fuel = k + 1 := ⟨fuel - 1, by have := hf 0 hns; omega⟩
    have hb : ∀ p, ∀ x, x ∈ lines p → ∀ b, x ≠ .barrier b := fun p => shape_nil (by rw [hs p]; exact h _ p.1.isLt)
    obtain ⟨fl', e1, _⟩ := clean_pre (fuel + 1) fl lines (fun _ => []) hb
    rw [clean_end fuel (fun p => (fl' p, [])) (w := fun _ => []) (fl := fl') fun p => rfl] at e1
    simp only [List.append_nil] at e1
    refine ⟨_, [], [], e1, hg, rfl, fun p => ⟨rfl, ?_⟩⟩
    have : (kept (lines p)).flatMap (lineCode ns p.1.val) = [] := by
      rw [kept_code _ _ _ (hb p), shape_code, hs p, h _ p.1.isLt]; rfl
    dsimp only
    rw [List.append_nil, this]
    exact codes_nil _ _
  | @seg E1 ws1 E ws s sh sh' h1 h2 _ h4 ih =>
    intro A wa fl lines fuel hl hg hs hfl hf
    have : ∀ p, ∃ l1 l2, lines p = l1 ++ l2 ∧ shape l1 = (s p.1.val).map some ∧ shape l2 = sh p.1.val := fun p =>
      shape_split (by rw [hs p, h4 _ p.1.isLt])
    choose l1 l2 e1 e2 e3 using this
    have hb : ∀ p, ∀ x, x ∈ l1 p → ∀ b, x ≠ .barrier b := fun p => shape_somes (e2 p)
    obtain ⟨fl', g1, g2⟩ := clean_pre fuel fl l1 l2 hb
    rw [← List.append_assoc, ← List.append_assoc] at hg
    obtain ⟨out, E', ws', o1, o2, o3, o4⟩ := ih (A ++ E1) (wa ++ ws1) fl' l2 fuel (by rw [List.length_append, bars_append, hl, h1]) hg e3
      (fun hall => by
        have hz : E1 = [] := by
          refine share_empty hns (fun x hx => hW _ _ hg x (List.mem_append_left _ (List.mem_append_right _ hx))) fun r hr => ?_
          have hk := (g2 (⟨r, hr⟩, 0) (hall _)).2
          have hse := shape_kept (hb _) hk
          rw [e2] at hse
          have hse : s r = [] := List.map_eq_nil_iff.1 hse
          obtain ⟨_, hc⟩ := h2 r hr
          rw [hse] at hc
          exact toC_nil (hc (fun k => (ws1.getD (k - 1) id) r) 0 fun j w hj => by
            rw [show 0 + j + 1 - 1 = j by omega, List.getD_eq_getElem?_getD, hj]; rfl)
        subst hz
        have hw1 : ws1 = [] := List.length_eq_zero_iff.1 h1
        subst hw1
        rw [List.append_nil, List.append_nil]
        exact hfl fun p => (g2 p (hall p)).1)
      (fun r hr => by
        have := hf r hr
        rw [h4 r hr] at this
        unfold shapeBars at this ⊢
        rw [List.count_append] at this
        omega)
    refine ⟨fun p => kept (l1 p) ++ out p, E1 ++ E', ws1 ++ ws', ?_, ?_, ?_, fun p => ?_⟩
    · simp only [e1]
      rw [g1, o1]; rfl
    · rwa [← List.append_assoc, ← List.append_assoc]
    · rw [List.length_append, bars_append, h1, o3]
    · obtain ⟨c1, c2⟩ := h2 p.1.val p.1.isLt
      refine ⟨by rw [share_append, List.count_append, List.length_append, c1, (o4 p).1], ?_⟩
      rw [List.flatMap_append, kept_code _ _ _ (hb p), shape_flatten (e2 p)]
      exact c2.append (o4 p).2 c1
  | @bar E ws sh sh' _ h2 ih =>
    intro A wa fl lines fuel hl hg hs hfl hf
    obtain ⟨fuel, rfl⟩ : ∃ k, fuel = k + 1 := ⟨fuel - 1, by have := hf 0 hns; omega⟩
    haveI : Nonempty (Fin ns) := ⟨⟨0, hns⟩⟩
    have : ∀ p, ∃ l1 i l2, lines p = l1 ++ .barrier i :: l2 ∧ shape l1 = [] ∧ shape l2 = sh p.1.val := fun p =>
      shape_bar (by rw [hs p, h2 _ p.1.isLt])
    choose l1 i l2 e1 e2 e3 using this
    have hb : ∀ p, ∀ x, x ∈ l1 p → ∀ b, x ≠ .barrier b := fun p => shape_nil (e2 p)
    obtain ⟨fl', g1, g2⟩ := clean_pre (fuel + 1) fl l1 (fun p => .barrier (i p) :: l2 p) hb
    rw [clean_bar fuel (fun p => (fl' p, .barrier (i p) :: l2 p)) (w := fun _ => []) (rest := l2) (fl := fl') (id := i) fun p => rfl] at g1
    have hf' : ∀ r, r < ns → shapeBars (sh r) < fuel := fun r hr => by
      have := hf r hr
      rw [h2 r hr] at this
      unfold shapeBars at this ⊢
      rw [List.count_cons_self] at this
      omega
    have hk : ∀ p, (kept (l1 p)).flatMap (lineCode ns p.1.val) = [] := fun p => by
      rw [kept_code _ _ _ (hb p), shape_code, e2 p]; rfl
    by_cases hall : ∀ p, fl' p = true
    · obtain ⟨A1, wa1, rfl, rfl, hl1⟩ := hfl fun p => (g2 p (hall p)).1
      have hg' := hG A1 wa1 E ws hl1 (by rwa [List.append_assoc, List.append_assoc] at hg)
      rw [← List.append_assoc, ← List.append_assoc] at hg'
      obtain ⟨out, E', ws', o1, o2, o3, o4⟩ := ih _ _ (fun _ => true) l2 fuel hl hg' e3 (fun _ => ⟨A1, wa1, rfl, rfl, hl1⟩) hf'
      refine ⟨fun p => kept (l1 p) ++ out p, E', ws', ?_, o2, o3, fun p => ⟨(o4 p).1, ?_⟩⟩
      · simp only [e1]
        rw [g1, o1]
        simp only [hall, implies_true, decide_true, if_true, Option.map_some, List.nil_append]
      · rw [List.flatMap_append, hk, List.nil_append]
        exact (o4 p).2
    · rw [← List.append_assoc, ← List.append_assoc] at hg
      obtain ⟨out, E', ws', o1, o2, o3, o4⟩ := ih _ _ (fun _ => true) l2 fuel (by
        rw [List.length_append, bars_append, hl, nodeWs_length, bars_nodeBar]) hg e3 (fun _ => ⟨A, wa, rfl, rfl, hl⟩) hf'
      refine ⟨fun p => kept (l1 p) ++ ([.barrier (i p)] ++ out p), nodeBar ns ++ E', nodeWs ns ++ ws', ?_, ?_, ?_, fun p => ⟨?_, ?_⟩⟩
      · simp only [e1]
        rw [g1, o1]
        simp only [hall, decide_false, Bool.false_eq_true, if_false, Option.map_some, List.nil_append]
      · rwa [← List.append_assoc, ← List.append_assoc]
      · rw [List.length_append, bars_append, nodeWs_length, bars_nodeBar, o3]
      · rw [share_append, List.count_append, List.length_append, (o4 p).1, nodeWs_length]
        unfold nodeBar
        rw [share_bar, List.count_replicate_self]
      · rw [List.flatMap_append, hk, List.nil_append, List.flatMap_append, List.flatMap_singleton]
        refine (codes_bar ns p.1.val).append (o4 p).2 ?_
        unfold nodeBar
        rw [share_bar, List.count_replicate_self, nodeWs_length]

theorem cut_bars {ns : Nat} {E : Master} {ws : List (Nat → Nat)} {sh : Nat → List (Option (List CInstr))} (h : Cut ns E ws sh) {r r' : Nat}
    (hr : r < ns) (hr' : r' < ns) : shapeBars (sh r) = shapeBars (sh r') := by
  have hz : ∀ s : List (List CInstr), (s.map some).count none = 0 := fun s => by
    rw [List.count_eq_zero]
    intro h
    obtain ⟨_, _, e⟩ := List.mem_map.1 h
    cases e
  unfold shapeBars
  induction h with
  | nil h => rw [h r hr, h r' hr']
  | seg _ _ _ h4 ih => rw [h4 r hr, h4 r' hr', List.count_append, List.count_append, hz, hz, ih]
  | bar _ h2 ih => rw [h2 r hr, h2 r' hr', List.count_cons_self, List.count_cons_self, ih]

variable {X : Type} [Add X]

/-- The pass on node `a`; `Q` is kept as well. -/
theorem Piece.cleanNode {N ns a : Nat} (hns : 0 < ns) (ha : a < N) {E : Nat → Master} {ws : Nat → List (Nat → Nat)} {prog : Nat → List CInstr}
    {m : Nat → Mem X} {post : (Nat → Mem X) → Prop} (h : Piece N ns E ws prog m post) {lines : Nat → List PLine}
    (hC : Cut ns (E a) (ws a) fun r => shape (lines (a * ns + r))) (Q : Master → List (Nat → Nat) → Prop)
    (hQ : ∀ A wa B wb, wa.length = bars A → Q (A ++ (nodeBar ns ++ (nodeBar ns ++ B))) (wa ++ (nodeWs ns ++ (nodeWs ns ++ wb))) →
      Q (A ++ (nodeBar ns ++ B)) (wa ++ (nodeWs ns ++ wb))) (hq : Q (E a) (ws a)) :
    ∃ out E' ws' prog', Cluster.cleanNode ns lines a = some out ∧ Piece N ns (put E a E') (put ws a ws') prog' m post ∧ Q E' ws' ∧
      ∀ r, r < ns → Codes ns E' ws' r (out r) := by
  obtain ⟨out, E', ws', h1, ⟨⟨prog', h2⟩, h3⟩, _, h5⟩ := clean_cut (N := N) (a := a) hns
    (fun A wa => (∃ prog', Piece N ns (put E a A) (put ws a wa) prog' m post) ∧ Q A wa)
    (fun A wa g x hx => by
      obtain ⟨⟨_, g⟩, _⟩ := g
      have := g.wf a ha
      rw [put_same] at this
      exact this x hx)
    (fun A wa B wb hl g => by
      obtain ⟨⟨_, g⟩, g'⟩ := g
      exact ⟨g.undouble ha hl, hQ A wa B wb hl g'⟩)
    hC [] [] (fun _ => false) (fun p => lines (a * ns + p.1.val)) ((lines (a * ns)).length + 1) rfl
    ⟨⟨prog, by rw [List.nil_append, List.nil_append, put_self, put_self]; exact h⟩, hq⟩ (fun p => rfl)
    (fun hf => absurd (hf (⟨0, hns⟩, 0)) (by decide))
    (fun r hr => by
      rw [cut_bars hC hr hns, Nat.add_zero]
      refine Nat.lt_succ_of_le ?_
      unfold shapeBars
      exact Nat.le_trans (List.count_le_length) (List.length_filterMap_le _ _))
  refine ⟨fun r => (if h : r < ns then out (⟨r, h⟩, 0) else []).flatMap (lineCode ns r), E', ws', prog', ?_, h2, h3, fun r hr => ?_⟩
  · unfold Cluster.cleanNode cleanLines BarrierPasses.cleanBarriers
    rw [h1]
    rfl
  · dsimp only
    rw [dif_pos hr]
    exact (h5 (⟨r, hr⟩, 0)).2

/-- The pass on all nodes. -/
theorem Piece.clean {N ns : Nat} (hns : 0 < ns) {E : Nat → Master} {ws : Nat → List (Nat → Nat)} {prog : Nat → List CInstr}
    {m : Nat → Mem X} {post : (Nat → Mem X) → Prop} (h : Piece N ns E ws prog m post) {lines : Nat → List PLine}
    (hC : ∀ a, a < N → Cut ns (E a) (ws a) fun r => shape (lines (a * ns + r))) (Q : Master → List (Nat → Nat) → Prop)
    (hQ : ∀ A wa B wb, wa.length = bars A → Q (A ++ (nodeBar ns ++ (nodeBar ns ++ B))) (wa ++ (nodeWs ns ++ (nodeWs ns ++ wb))) →
      Q (A ++ (nodeBar ns ++ B)) (wa ++ (nodeWs ns ++ wb))) (hq : ∀ a, a < N → Q (E a) (ws a)) :
    ∃ (out : Nat → Nat → List CInstr) (E' : Nat → Master) (ws' : Nat → List (Nat → Nat)), (∀ a, a < N → Cluster.cleanNode ns lines a = some (out a)) ∧
      Piece N ns E' ws' (fun p => out (p / ns) (p % ns)) m post ∧ ∀ a, a < N → Q (E' a) (ws' a) := by
  have key : ∀ k, k ≤ N → ∃ (out : Nat → Nat → List CInstr) (E' : Nat → Master) (ws' : Nat → List (Nat → Nat)) (prog' : Nat → List CInstr),
      (∀ a, a < k → Cluster.cleanNode ns lines a = some (out a)) ∧ Piece N ns E' ws' prog' m post ∧ (∀ a, a < k → Q (E' a) (ws' a)) ∧
      (∀ a, a < k → ∀ r, r < ns → Codes ns (E' a) (ws' a) r (out a r)) ∧ ∀ a, k ≤ a → E' a = E a ∧ ws' a = ws a := by
    intro k
    induction k with
    | zero => intro _; exact ⟨fun _ _ => [], E, ws, prog, fun a h => absurd h (by omega), h, fun a h => absurd h (by omega),
        fun a h => absurd h (by omega), fun a _ => ⟨rfl, rfl⟩⟩
    | succ k ih =>
      intro hk
      obtain ⟨out, E1, ws1, prog1, g1, g2, g3, g4, g5⟩ := ih (by omega)
      obtain ⟨o, E2, ws2, prog2, f1, f2, f3, f4⟩ := g2.cleanNode hns (a := k) (by omega) (lines := lines) (by
        rw [(g5 k (Nat.le_refl _)).1, (g5 k (Nat.le_refl _)).2]; exact hC k (by omega)) Q hQ (by
        rw [(g5 k (Nat.le_refl _)).1, (g5 k (Nat.le_refl _)).2]; exact hq k (by omega))
      refine ⟨put out k o, put E1 k E2, put ws1 k ws2, prog2, fun a ha => ?_, f2, fun a ha => ?_, fun a ha => ?_, fun a ha => ?_⟩
      · by_cases e : a = k
        · subst e; rw [put_same]; exact f1
        · rw [put_other _ _ e]; exact g1 a (by omega)
      · by_cases e : a = k
        · subst e; rw [put_same, put_same]; exact f3
        · rw [put_other _ _ e, put_other _ _ e]; exact g3 a (by omega)
      · by_cases e : a = k
        · subst e; rw [put_same, put_same, put_same]; exact f4
        · rw [put_other _ _ e, put_other _ _ e, put_other _ _ e]; exact g4 a (by omega)
      · rw [put_other _ _ (by omega), put_other _ _ (by omega)]; exact g5 a (by omega)
  obtain ⟨out, E', ws', prog', g1, g2, g3, g4, _⟩ := key N (Nat.le_refl _)
  exact ⟨out, E', ws', g1, g2.recode fun p hp => g4 _ (div_lt hp) _ (Nat.mod_lt _ hns), g3⟩

end ExtMpi.Cluster
