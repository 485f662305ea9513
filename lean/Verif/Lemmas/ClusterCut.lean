import Verif.Model.ClusterClean
import Verif.Lemmas.ClusterRun
/-! The barriers of a node among the lines of its processes. -/
namespace ExtMpi.Cluster
open RawCode Schedule
open TasksNode
open OnNode (Skel leadSk dis nodeW)

/-! ## Lines and programs -/

theorem inLine_code (ns : Nat) (u : Users) (a r : Nat) (hr : r < ns) (l : List OnNode.Instr) :
    (l.map (inLine ns u a r)).flatMap (lineCode ns r) = (l.flatMap (OnNode.Instr.acts ns r)).map (fromAct ns u a) := by
  induction l with
  | nil => rfl
  | cons i l ih =>
    rw [List.map_cons, List.flatMap_cons, ih, List.flatMap_cons, List.map_append]
    congr 1
    cases i with
    | barrier b =>
      show rounds ns r = ((List.range _).flatMap _).map _
      unfold rounds
      rw [List.map_flatMap]
      rfl
    | copy red d s n => rfl
    | set b r => rfl
    | wait b r => rfl

theorem outLine_code (ns : Nat) (u : Users) (t : Nat) (l : List Instr) :
    (l.map (outLine ns u t)).flatMap (lineCode ns (t % ns)) = l.flatMap (expand ns u t) := by
  rw [List.flatMap_map]
  apply List.flatMap_congr
  intro i _
  cases i <;> rfl

theorem reduceLines_code {N ns : Nat} {P : OnNode.Par} {sz : Nat → Nat} {out : Block → List Instr} {perm : List Nat} {u : Users}
    {sched : List Block} {node rank : Nat} (hr : rank < ns) :
    reduceProgram N ns P sz out perm u sched node rank =
      (reduceLines N ns P sz out perm u sched node rank).map fun l => l.flatMap (lineCode ns rank) := by
  unfold reduceProgram reduceLines
  cases TasksNode.tasks N ns perm node rank sched with
  | none => rfl
  | some a =>
    rw [Option.bind_some, Option.bind_some]
    cases a with
    | nil => rfl
    | cons b0 bs =>
      cases (b0 :: bs).getLast? with
      | none => rfl
      | some bl =>
        dsimp only
        by_cases hif : (bs.all TasksNode.inside && (b0 ++ bl).all fun l => decide (l.frac < N)) = true
        · rw [if_pos hif, if_pos hif]
          cases copyInC P sz b0 rank with
          | none => rfl
          | some c =>
            rw [Option.map_some, Option.map_some, Option.map_some]
            conv_rhs => rw [List.flatMap_append, inLine_code ns u node rank hr]
            have := outLine_code ns u (node * ns + rank)
              (TasksNode.code (TasksNode.blocksLines N ns (mmsize N sz) node rank true bs) ++ out bl)
            rw [proc_mod hr] at this
            rw [this]
        · rw [if_neg hif, if_neg hif]
          rfl

theorem allgatherLines_code {N ns : Nat} {cnt : Nat → Nat} {perm : List Nat} {u : Users} {sched : List Block} {node rank : Nat}
    (hr : rank < ns) :
    allgatherProgram N ns cnt perm u sched node rank =
      (allgatherLines N ns cnt perm u sched node rank).map fun l => l.flatMap (lineCode ns rank) := by
  unfold allgatherProgram allgatherLines
  cases gatherProgram N ns cnt perm sched node rank with
  | none => rfl
  | some l =>
    rw [Option.map_some, Option.map_some, Option.map_some]
    have := outLine_code ns u (node * ns + rank) l
    rw [proc_mod hr] at this
    rw [this]

theorem reduceLines_head {N ns : Nat} {P : OnNode.Par} {sz : Nat → Nat} {out : Block → List Instr} {perm : List Nat} {u : Users}
    {sched : List Block} {node rank : Nat} {l : List PLine} (h : reduceLines N ns P sz out perm u sched node rank = some l) :
    ∃ l', l = .barrier 0 :: l' := by
  unfold reduceLines at h
  cases ht : TasksNode.tasks N ns perm node rank sched with
  | none => rw [ht] at h; cases h
  | some a =>
    rw [ht, Option.bind_some] at h
    cases a with
    | nil => cases h
    | cons b0 bs =>
      cases hl : (b0 :: bs).getLast? with
      | none => rw [hl] at h; cases h
      | some bl =>
        rw [hl] at h
        dsimp only at h
        by_cases hif : (bs.all TasksNode.inside && (b0 ++ bl).all fun l => decide (l.frac < N)) = true
        · rw [if_pos hif] at h
          obtain ⟨c, hc, rfl⟩ := Option.map_eq_some_iff.1 h
          obtain ⟨c', _, rfl⟩ := Option.map_eq_some_iff.1 hc
          exact ⟨_, rfl⟩
        · rw [if_neg hif] at h
          cases h

/-! ## Shapes -/

theorem shape_append (l l' : List PLine) : shape (l ++ l') = shape l ++ shape l' := List.filterMap_append

theorem shape_code (ns rank : Nat) (l : List PLine) :
    l.flatMap (lineCode ns rank) = (shape l).flatMap fun x => match x with | none => rounds ns rank | some w => w := by
  induction l with
  | nil => rfl
  | cons x l ih =>
    rw [List.flatMap_cons, ih, ← List.singleton_append (l := l), shape_append, List.flatMap_append]
    congr 1
    cases x with
    | barrier b => simp [shape, lineCode]
    | nop => rfl
    | waitany0 => rfl
    | work w => cases w <;> simp [shape, lineCode]

/-- Lines without barriers. -/
theorem shape_works (l : List PLine) (h : ∀ x, x ∈ l → ∀ b, x ≠ .barrier b) :
    ∃ s : List (List CInstr), shape l = s.map some ∧ ∀ ns rank, s.flatten = l.flatMap (lineCode ns rank) := by
  induction l with
  | nil => exact ⟨[], rfl, fun _ _ => rfl⟩
  | cons x l ih =>
    obtain ⟨s, h1, h2⟩ := ih fun y hy => h y (List.mem_cons_of_mem _ hy)
    cases x with
    | barrier b => exact absurd rfl (h _ List.mem_cons_self b)
    | nop => exact ⟨s, h1, h2⟩
    | waitany0 => exact ⟨s, h1, h2⟩
    | work w =>
      cases w with
      | nil => exact ⟨s, h1, h2⟩
      | cons i w =>
        refine ⟨(i :: w) :: s, ?_, fun ns rank => ?_⟩
        · show some (i :: w) :: shape l = _
          rw [h1]; rfl
        · rw [List.flatten_cons, h2 ns rank]; rfl

/-! ## Instructions of a node and shapes of its processes -/

/-- A barrier of the node. -/
def nodeBar (ns : Nat) : Master := List.replicate (K ns) (none, .barrier)

/-- Its partners. -/
def nodeWs (ns : Nat) : List (Nat → Nat) := (List.range (K ns)).map (nodeW ns)

theorem nodeWs_length (ns : Nat) : (nodeWs ns).length = K ns := by
  unfold nodeWs; rw [List.length_map, List.length_range]

theorem bars_nodeBar (ns : Nat) : bars (nodeBar ns) = K ns := bars_replicate _

/-- The program of process `r` is its share of the instructions `E`. -/
def Codes (ns : Nat) (E : Master) (ws : List (Nat → Nat)) (r : Nat) (l : List CInstr) : Prop :=
  ∀ (part : Nat → Nat) (c : Nat), (∀ j w, ws[j]? = some w → part (c + j + 1) = w r) → toC part r c (share ns r E) = l

theorem Codes.append {ns : Nat} {E E' : Master} {ws ws' : List (Nat → Nat)} {r : Nat} {l l' : List CInstr} (h : Codes ns E ws r l)
    (h' : Codes ns E' ws' r l') (hc : (share ns r E).count .barrier = ws.length) : Codes ns (E ++ E') (ws ++ ws') r (l ++ l') := by
  intro part c hp
  rw [share_append, toC_append, h part c fun j w hj => hp j w (by
    rw [List.getElem?_append_left (List.getElem?_eq_some_iff.1 hj).1]; exact hj), hc, h' part _ fun j w hj => by
    have := hp (ws.length + j) w (by
      rw [List.getElem?_append_right (Nat.le_add_right _ _), Nat.add_sub_cancel_left]; exact hj)
    rwa [← Nat.add_assoc] at this]

theorem codes_nil (ns r : Nat) : Codes ns [] [] r [] := fun _ _ _ => rfl

theorem share_bar (ns r n : Nat) : share ns r (List.replicate n (none, .barrier)) = List.replicate n .barrier := by
  induction n with
  | zero => rfl
  | succ n ih => rw [List.replicate_succ, share_all, ih]; rfl

theorem codes_bar (ns r : Nat) : Codes ns (nodeBar ns) (nodeWs ns) r (rounds ns r) := by
  intro part c hp
  unfold nodeBar
  rw [share_bar, toC_barriers]
  unfold rounds
  apply List.flatMap_congr
  intro k hk
  have := hp k (nodeW ns k) (by
    unfold nodeWs
    rw [List.getElem?_map, List.getElem?_range (List.mem_range.1 hk)]; rfl)
  rw [this]
  rfl

/-- Instructions `E` of a node, with the partners `ws` of their barriers, and the shapes of the programs of its processes. -/
inductive Cut (ns : Nat) : Master → List (Nat → Nat) → (Nat → List (Option (List CInstr))) → Prop
  | nil {sh} : (∀ r, r < ns → sh r = []) → Cut ns [] [] sh
  | seg {E1 ws1 E ws} {s : Nat → List (List CInstr)} {sh sh'} : ws1.length = bars E1 →
      (∀ r, r < ns → (share ns r E1).count .barrier = ws1.length ∧ Codes ns E1 ws1 r (s r).flatten) → Cut ns E ws sh →
      (∀ r, r < ns → sh' r = (s r).map some ++ sh r) → Cut ns (E1 ++ E) (ws1 ++ ws) sh'
  | bar {E ws sh sh'} : Cut ns E ws sh → (∀ r, r < ns → sh' r = none :: sh r) → Cut ns (nodeBar ns ++ E) (nodeWs ns ++ ws) sh'

theorem Cut.congr {ns : Nat} {E : Master} {ws : List (Nat → Nat)} {sh sh' : Nat → List (Option (List CInstr))} (h : Cut ns E ws sh)
    (e : ∀ r, r < ns → sh' r = sh r) : Cut ns E ws sh' := by
  cases h with
  | nil h => exact .nil fun r hr => by rw [e r hr, h r hr]
  | seg h1 h2 h3 h4 => exact .seg h1 h2 h3 fun r hr => by rw [e r hr, h4 r hr]
  | bar h1 h2 => exact .bar h1 fun r hr => by rw [e r hr, h2 r hr]

/-- From the lines without barriers of the processes. -/
theorem Cut.lines {ns : Nat} {E1 E : Master} {ws1 ws : List (Nat → Nat)} {l : Nat → List PLine} {sh : Nat → List (Option (List CInstr))}
    (hl : ws1.length = bars E1) (hc : ∀ r, r < ns → (share ns r E1).count .barrier = ws1.length)
    (hb : ∀ r, r < ns → ∀ x, x ∈ l r → ∀ b, x ≠ .barrier b)
    (h : ∀ r, r < ns → Codes ns E1 ws1 r ((l r).flatMap (lineCode ns r))) (hE : Cut ns E ws sh) :
    Cut ns (E1 ++ E) (ws1 ++ ws) fun r => shape (l r) ++ sh r := by
  have : ∀ r, ∃ s : List (List CInstr), r < ns → shape (l r) = s.map some ∧ s.flatten = (l r).flatMap (lineCode ns r) := fun r => by
    by_cases hr : r < ns
    · obtain ⟨s, h1, h2⟩ := shape_works (l r) (hb r hr)
      exact ⟨s, fun _ => ⟨h1, h2 ns r⟩⟩
    · exact ⟨[], fun h => absurd h hr⟩
  choose s hs using this
  exact .seg hl (fun r hr => ⟨hc r hr, by rw [(hs r hr).2]; exact h r hr⟩) hE fun r hr => by rw [(hs r hr).1]

theorem Cut.append {ns : Nat} {E E' : Master} {ws ws' : List (Nat → Nat)} {sh sh' : Nat → List (Option (List CInstr))} (h : Cut ns E ws sh)
    (h' : Cut ns E' ws' sh') : Cut ns (E ++ E') (ws ++ ws') fun r => sh r ++ sh' r := by
  induction h with
  | nil h => exact h'.congr fun r hr => by rw [h r hr]; rfl
  | seg h1 h2 _ h4 ih =>
    rw [List.append_assoc, List.append_assoc]
    exact .seg h1 h2 ih fun r hr => by rw [h4 r hr, List.append_assoc]
  | bar _ h2 ih =>
    rw [List.append_assoc, List.append_assoc]
    exact .bar ih fun r hr => by rw [h2 r hr]; rfl

theorem cut_bar (ns : Nat) : Cut ns (nodeBar ns) (nodeWs ns) fun _ => [none] := by
  have := Cut.bar (ns := ns) (sh' := fun _ => [none]) (Cut.nil (sh := fun _ => []) fun _ _ => rfl) fun _ _ => rfl
  rwa [List.append_nil, List.append_nil] at this

/-! ## The parts of the programs -/

/-- Line of an instruction with its addresses. -/
def rawLine (ns rank : Nat) : Instr → PLine
  | .barrier => .barrier 0
  | i => .work (expandRaw ns rank i)

theorem rawLine_code (ns rank : Nat) (l : List Instr) : (l.map (rawLine ns rank)).flatMap (lineCode ns rank) = l.flatMap (expandRaw ns rank) := by
  rw [List.flatMap_map]
  apply List.flatMap_congr
  intro i _
  cases i <;> rfl

theorem outLine_placed {ns : Nat} {u : Users} {t : Nat} (l : List Instr)
    (h : ∀ red d s n, Instr.copy red d s n ∈ l.map (placed u t) → ¬overlap d n s n) :
    l.map (outLine ns u t) = (l.map (placed u t)).map (rawLine ns (t % ns)) := by
  rw [List.map_map]
  apply List.map_congr_left
  intro i hi
  cases i with
  | copy red d s n =>
    have := h red (place u t d) (place u t s) n (List.mem_map.2 ⟨_, hi, rfl⟩)
    show BarrierPasses.Line.work (if _ then _ else _) = _
    rw [if_neg fun (h : red = false ∧ overlap (place u t d) n (place u t s) n) => this h.2]
    rfl
  | barrier => rfl
  | irecv b n q => rfl
  | isend b n q => rfl
  | waitall => rfl

theorem bars_elem_one (ns : Nat) (x : Option Nat × Instr) (h : bars [x] = 0) : bars (elemM (K ns) [x]) = 0 := by
  rw [bars_elem, h, Nat.mul_zero]

/-- The instructions after the copy-in. -/
theorem cut_master {N ns a : Nat} {M : Master} (hw : ∀ x, x ∈ M → WF N ns a x) :
    Cut ns (elemM (K ns) M) (syncs (leadSk ns 0 (bars M))) fun r => shape ((share ns r M).map (rawLine ns r)) := by
  induction M with
  | nil => exact .nil fun _ _ => rfl
  | cons x M ih =>
    have ih := ih fun y hy => hw y (List.mem_cons_of_mem _ hy)
    have hx := hw x List.mem_cons_self
    have hx1 : ∀ y, y ∈ [x] → WF N ns a y := fun y hy => by rw [List.mem_singleton.1 hy]; exact hx
    by_cases hb : x = (none, .barrier)
    · subst hb
      rw [elem_barrier, bars_cons, show bars [((none : Option Nat), Instr.barrier)] = 1 from rfl, lead_add, syncs_append, syncs_lead_one]
      refine .bar ih fun r _ => ?_
      rw [share_all]
      rfl
    · have hz : bars [x] = 0 := by
        apply bars_zero
        intro y hy
        rw [List.mem_singleton.1 hy]
        intro h
        obtain ⟨o, i⟩ := x
        have h : i = .barrier := h
        subst h
        cases o with
        | none => exact hb rfl
        | some o => exact absurd hx (by simp [WF])
      rw [bars_cons, hz, Nat.zero_add, show x :: M = [x] ++ M from rfl, elemM_append]
      refine (Cut.lines (E1 := elemM (K ns) [x]) (ws1 := []) (l := fun r => (share ns r [x]).map (rawLine ns r))
        ?_ ?_ ?_ ?_ ih).congr fun r hr => ?_
      · exact (bars_elem_one ns x hz).symm
      · intro r hr
        rw [share_count (elemM_wf hx1), bars_elem_one ns x hz]; rfl
      · intro r hr y hy b
        obtain ⟨i, hi, rfl⟩ := List.mem_map.1 hy
        have hc : (share ns r [x]).count .barrier = 0 := by rw [share_count hx1, hz]
        cases i with
        | barrier => exact absurd hi (List.count_eq_zero.1 hc)
        | _ => intro h; cases h
      · intro r hr part c _
        rw [share_elem, rawLine_code, toC_elem]
        intro j k hj
        rw [share_count hx1, hz] at hj
        omega
      · rw [share_append, List.map_append, shape_append]

/-- A part of the copy-in without barriers of the node. -/
theorem cut_skel {ns : Nat} {u : Users} {a : Nat} {T : Skel} {l : Nat → List OnNode.Instr}
    (hl : ∀ r, r < ns → (l r).flatMap (OnNode.Instr.acts ns r) = OnNode.code T r) (hb : ∀ r, r < ns → ∀ x, x ∈ l r → ∀ b, x ≠ .barrier b) :
    Cut ns (skelM ns u a T) (syncs T) fun r => shape ((l r).map (inLine ns u a r)) := by
  have h0 : Cut ns [] [] fun _ => [] := .nil fun _ _ => rfl
  have := Cut.lines (E1 := skelM ns u a T) (ws1 := syncs T) (l := fun r => (l r).map (inLine ns u a r)) (bars_skel ns u a T).symm
    (fun r hr => ?_) (fun r hr x hx b => ?_) (fun r hr part c hp => ?_) h0
  · rw [List.append_nil, List.append_nil] at this
    exact this.congr fun r _ => (List.append_nil _).symm
  · obtain ⟨_, t2⟩ := toC_skel (u := u) (a := a) (part := fun k => ((syncs T).getD (k - 1) id) r) hr T 0 (fun j w hj => by
      rw [show 0 + j + 1 - 1 = j by omega, List.getD_eq_getElem?_getD, hj]; rfl)
    exact t2
  · obtain ⟨i, hi, rfl⟩ := List.mem_map.1 hx
    cases i with
    | barrier b' => exact absurd rfl (hb r hr _ hi b')
    | _ => intro h; cases h
  · rw [inLine_code ns u a r hr, hl r hr]
    exact (toC_skel hr T c hp).1

/-! ## Programs with their lines -/

variable {X : Type} [Add X]

/-- A barrier of the node, and later an instruction that is none with another one after it. -/
def Worked (ns : Nat) (E : Master) (ws : List (Nat → Nat)) : Prop :=
  ∃ (G : Master) (wg : List (Nat → Nat)) (x : Option Nat × Instr) (L : Master) (wl : List (Nat → Nat)), E = nodeBar ns ++ (G ++ x :: L) ∧
    ws = nodeWs ns ++ (wg ++ wl) ∧ wg.length = bars G ∧ x.2 ≠ .barrier ∧ Full ns L wl

/-- As `Serial`, for programs with lines from `gen`. -/
def Lined (N ns d : Nat) (gen : Nat → Option (List PLine)) (prog : Nat → List CInstr) (m : Nat → Mem X) (post : (Nat → Mem X) → Prop) : Prop :=
  (∀ p, ¬p < N * ns → prog p = []) ∧ ∃ (E : Nat → Master) (ws : Nat → List (Nat → Nat)) (lines : Nat → List PLine),
    Piece N ns E ws prog m post ∧ Led N ns d E ws ∧
    (∀ p, p < N * ns → gen p = some (lines p) ∧ prog p = (lines p).flatMap (lineCode ns (p % ns))) ∧
    (∀ a, a < N → Cut ns (E a) (ws a) fun r => shape (lines (a * ns + r))) ∧ (d = 2 → ∀ a, a < N → Worked ns (E a) (ws a))

section
variable {N ns d : Nat} {gen : Nat → Option (List PLine)} {prog : Nat → List CInstr} {m : Nat → Mem X}

theorem Lined.serial {post : (Nat → Mem X) → Prop} (h : Lined N ns d gen prog m post) : Serial N ns d prog m post := by
  obtain ⟨hz, E, ws, _, h1, h2, _⟩ := h
  exact ⟨hz, E, ws, h1, h2⟩

theorem Lined.imp {A B : (Nat → Mem X) → Prop} (h : Lined N ns d gen prog m A) (hAB : ∀ mem, A mem → B mem) : Lined N ns d gen prog m B := by
  obtain ⟨hz, E, ws, l, h1, h2⟩ := h
  exact ⟨hz, E, ws, l, h1.imp hAB, h2⟩

theorem Lined.ccorrect (hns : 0 < ns) {post : (Nat → Mem X) → Prop} (h : Lined N ns d gen prog m post) : CCorrect N ns prog m post :=
  h.serial.ccorrect hns

end

end ExtMpi.Cluster
