import Verif.Lemmas.AlternateBank
import Verif.Lemmas.ClusterUses
/-! Executions with alternating shared memories one after the other. -/
namespace ExtMpi.Cluster
open RawCode
open TasksNode
open OnNode (nodeW)

theorem own_bank {u : Users} {S R : Nat → Nat} {p b : Nat} {i : Instr} (h : OwnI u S R p i) : OwnI u S R p (bankI b i) := by
  constructor
  · intro x hx
    rw [writes_bank, reads_bank, ← List.map_append] at hx
    obtain ⟨y, hy, rfl⟩ := List.mem_map.1 hx
    rcases h.1 y hy with ⟨k, g⟩ | ⟨g1, g2⟩ | ⟨g1, g2⟩
    · exact .inl ⟨2 * k + b, by show bank b y.1.reg = _; rw [g]; rfl⟩
    · exact .inr (.inl ⟨by show bank b y.1.reg = _; rw [g1]; rfl, g2⟩)
    · exact .inr (.inr ⟨by show bank b y.1.reg = _; rw [g1]; rfl, g2⟩)
  · intro x hx
    rw [writes_bank] at hx
    obtain ⟨y, hy, rfl⟩ := List.mem_map.1 hx
    have := h.2 y hy
    show bank b y.1.reg ≠ _
    cases hr : y.1.reg with
    | send => exact absurd hr this
    | recv => nofun
    | shm k => nofun

/-- Different shared memories, own receive buffers, and send buffers are not written. -/
theorem bank_apart {ns : Nat} {u : Users} {S R : Nat → Nat} (hR : ApartBy ns u R) {p p' b b' : Nat} (hne : p ≠ p') (hd : p / ns = p' / ns)
    (hb : b < 2) (hb' : b' < 2) (hbb : b ≠ b') {i i' : Instr} (h : OwnI u S R p i) (h' : OwnI u S R p' i') :
    ¬Conflict (bankI b i) (bankI b' i') := by
  have key : ∀ x y : Addr × Nat, OwnA u S R p x → OwnA u S R p' y → (x.1.reg ≠ .send ∨ y.1.reg ≠ .send) →
      ¬overlap (bankA b x.1) x.2 (bankA b' y.1) y.2 := by
    rintro x y hx hy hs ⟨e1, e2, e3⟩
    have e1 : bank b x.1.reg = bank b' y.1.reg := e1
    have e2 : x.1.off < y.1.off + y.2 := e2
    have e3 : y.1.off < x.1.off + x.2 := e3
    rcases hx with ⟨k, g⟩ | ⟨g, g1, g2⟩ | ⟨g, g1, g2⟩ <;> rcases hy with ⟨k', g'⟩ | ⟨g', g1', g2'⟩ | ⟨g', g1', g2'⟩ <;>
      rw [g, g'] at e1
    · have : 2 * k + b = 2 * k' + b' := Reg.shm.inj e1
      omega
    · cases e1
    · cases e1
    · cases e1
    · rcases hs with hs | hs
      · exact hs g
      · exact hs g'
    · cases e1
    · cases e1
    · cases e1
    · by_cases hle : x.1.off ≤ y.1.off
      · exact hR p p' hne hd (y.1.off - u.recv p) (y.1.off - u.recv p') (by omega) (by omega) (by omega)
      · exact hR p p' hne hd (x.1.off - u.recv p) (x.1.off - u.recv p') (by omega) (by omega) (by omega)
  rintro (⟨x, y, hx, hy, ho⟩ | ⟨x, y, hx, hy, ho⟩)
  · rw [writes_bank] at hx
    rw [writes_bank, reads_bank, ← List.map_append] at hy
    obtain ⟨x, gx, rfl⟩ := List.mem_map.1 hx
    obtain ⟨y, gy, rfl⟩ := List.mem_map.1 hy
    exact key x y (h.1 x (List.mem_append_left _ gx)) (h'.1 y gy) (.inl (h.2 x gx)) ho
  · rw [reads_bank] at hx
    rw [writes_bank] at hy
    obtain ⟨x, gx, rfl⟩ := List.mem_map.1 hx
    obtain ⟨y, gy, rfl⟩ := List.mem_map.1 hy
    exact key x y (h.1 x (List.mem_append_right _ gx)) (h'.1 y (List.mem_append_left _ gy)) (.inr (h'.2 y gy)) ho

theorem conflict_toProc {ns r r' : Nat} {i i' : Instr} : Conflict (toProc ns r i) (toProc ns r' i') ↔ Conflict i i' := by
  have w : ∀ r i, writes (toProc ns r i) = writes i := by intro r i; cases i <;> rfl
  have d : ∀ r i, reads (toProc ns r i) = reads i := by intro r i; cases i <;> rfl
  unfold Conflict
  rw [w, d, w, d]

/-! ## Repetition -/

/-- The executions without the numbers of the programs at the barriers. -/
def altFrom (fills : Nat → Nat → List Change) (prog : Nat → List CInstr) : Nat → Nat → Nat → List CInstr
  | _, 0, _ => []
  | s, K + 1, p => (fills s p).map (fun x => .op x.instr) ++ ((prog p).map (bankC ((s + 1) % 2)) ++ altFrom fills prog (s + 1) K p)

theorem mem_bankC {b : Nat} {j : Instr} {l : List CInstr} (h : CInstr.op j ∈ l.map (bankC b)) : ∃ j0, .op j0 ∈ l ∧ j = bankI b j0 := by
  obtain ⟨x, hx, e⟩ := List.mem_map.1 h
  cases x with
  | op i =>
    obtain rfl := CInstr.op.inj e
    exact ⟨i, hx, rfl⟩
  | set r => cases e
  | wait r => cases e

theorem mem_alt {fills : Nat → Nat → List Change} {prog : Nat → List CInstr} {p : Nat} {j : Instr} (n : Nat) : ∀ s,
    CInstr.op j ∈ altFrom fills prog s n p → (∃ i x, x ∈ fills i p ∧ j = x.instr) ∨ ∃ b j0, .op j0 ∈ prog p ∧ j = bankI b j0 := by
  induction n with
  | zero => intro s h; cases h
  | succ n ih =>
    intro s h
    rcases List.mem_append.1 h with h | h
    · obtain ⟨x, hx, e⟩ := List.mem_map.1 h
      exact .inl ⟨s, x, hx, (CInstr.op.inj e).symm⟩
    · rcases List.mem_append.1 h with h | h
      · obtain ⟨j0, h1, h2⟩ := mem_bankC h
        exact .inr ⟨_, j0, h1, h2⟩
      · exact ih _ h

/-- What the programs must satisfy. -/
structure Alternates (ns : Nat) (fills : Nat → Nat → List Change) (prog : Nat → List CInstr) : Prop where
  own : ∀ i p x, x ∈ fills i p → ∀ i' p' x', x' ∈ fills i' p' → p ≠ p' → p / ns = p' / ns → ¬Conflict x.instr x'.instr
  used : ∀ i p x, x ∈ fills i p → ∀ p' b j, .op j ∈ prog p' → p ≠ p' → p / ns = p' / ns → ¬Conflict x.instr (bankI b j)
  ne : ∀ i p x, x ∈ fills i p → x.1 ≠ x.2
  apart : ∀ p p', p ≠ p' → p / ns = p' / ns → ∀ b b' j j', b < 2 → b' < 2 → b ≠ b' → .op j ∈ prog p → .op j' ∈ prog p' →
    ¬Conflict (bankI b j) (bankI b' j')

theorem alternates_of_own {ns : Nat} {u : Users} {S R : Nat → Nat} {fills : Nat → Nat → List Change} {prog : Nat → List CInstr}
    (h : OwnData ns u S R fills) (hR : ApartBy ns u R) (hp : ∀ p j, .op j ∈ prog p → OwnI u S R p j) : Alternates ns fills prog where
  own := (private_of_own h hp).own
  ne := h.ne
  used := fun i p x hx p' b j hj hne hd =>
    (private_of_own (prog := fun p => (prog p).map (bankC b)) h fun q k hk => by
      obtain ⟨j0, h1, rfl⟩ := mem_bankC hk
      exact own_bank (hp q j0 h1)).used i p x hx p' _ (List.mem_map.2 ⟨_, hj, rfl⟩) hne hd
  apart := fun p p' hne hd b b' j j' hb hb' hbb hj hj' => bank_apart hR hne hd hb hb' hbb (hp p j hj) (hp p' j' hj')

theorem Alternates.private {ns : Nat} {fills : Nat → Nat → List Change} {prog : Nat → List CInstr} (h : Alternates ns fills prog) :
    Private ns fills (fun _ => []) :=
  ⟨h.own, fun _ _ _ _ _ _ hj => absurd hj List.not_mem_nil, h.ne⟩

variable {X : Type} [Add X]

/-- What comes after the instructions of another process in a program with a barrier of the node is after them. -/
theorem kn_full {N ns a : Nat} (ha : a < N) {r r' : Nat} (hr : r < ns) (hr' : r' < ns) (hne : r ≠ r') {E : Master}
    {ws : List (Nat → Nat)} (hF : Full ns E ws) {V : Nat → List (Nat → Nat)} {c : Nat}
    (hV : ∀ j w, ws[j]? = some w → (V a)[c + j]? = some w) :
    Kn N ns (single ns (partOf ns V)) (a * ns + r) (c + 1) (a * ns + r') (c + bars E) := by
  obtain ⟨E1, E2, ws1, ws2, rfl, rfl, h3⟩ := hF
  refine (kn_node ha hr hr' hne (V := V) (c := c + ws1.length) fun j w hj => ?_).mono (by omega) ?_
  · rw [Nat.add_assoc]
    apply hV
    rw [List.getElem?_append_right (Nat.le_add_right _ _), Nat.add_sub_cancel_left,
      List.getElem?_append_left (List.getElem?_eq_some_iff.1 hj).1]
    exact hj
  · rw [bars_append, bars_append, bars_replicate]
    omega

/-- The instructions of a node for the executions from `s` on: changes and an execution with a barrier, then others. -/
def Shape (N ns : Nat) (fills : Nat → Nat → List Change) (prog : Nat → List CInstr) (s : Nat) (E : Nat → Master)
    (ws : Nat → List (Nat → Nat)) : Prop :=
  ∃ (E2 E3 : Nat → Master) (ws2 ws3 : Nat → List (Nat → Nat)), E = (fun a => fillM ns (fills s) a ++ (E2 a ++ E3 a)) ∧ ws = (fun a => ws2 a ++ ws3 a) ∧
    ∀ a, a < N → Full ns (E2 a) (ws2 a) ∧
      ∀ r i, r < ns → (some r, i) ∈ E2 a → i ≠ .barrier → ∃ j, .op j ∈ prog (a * ns + r) ∧ toProc ns r i = bankI ((s + 1) % 2) j

/-- An execution is followed by others. -/
theorem follows_shape {N ns : Nat} {fills : Nat → Nat → List Change} {prog : Nat → List CInstr} (hP : Alternates ns fills prog) {s b : Nat}
    (hb : b < 2) (hbs : b ≠ (s + 1) % 2) {E1 E : Nat → Master} {ws1 ws : Nat → List (Nat → Nat)} {m : Nat → Mem X} {post : (Nat → Mem X) → Prop}
    (h1 : Piece N ns E1 ws1 (fun p => (prog p).map (bankC b)) m post) (h : Shape N ns fills prog s E ws) : Follows N ns E1 E ws := by
  obtain ⟨E2, E3, ws2, ws3, rfl, rfl, hs⟩ := h
  intro a ha r i A r' i' B hi e hne hr hr' hc V c hV
  obtain ⟨hF, hE2⟩ := hs a ha
  obtain ⟨j, hj, ej⟩ := mem_bankC (h1.mem ha hr (not_barrier_left hc) hi)
  have hk : Kn N ns (single ns (partOf ns V)) (a * ns + r) (c + 1) (a * ns + r') (c + bars (E2 a)) :=
    kn_full ha hr hr' hne hF fun k w hk => hV k w (by rw [List.getElem?_append_left (List.getElem?_eq_some_iff.1 hk).1]; exact hk)
  have hpp : a * ns + r ≠ a * ns + r' := by omega
  have hdd : (a * ns + r) / ns = (a * ns + r') / ns := by rw [proc_div hr, proc_div hr']
  have hc' : Conflict (toProc ns r i) (toProc ns r' i') := conflict_toProc.2 hc
  -- the second access is one of the changes or of the next execution
  have no1 : (some r', i') ∉ fillM ns (fills s) a := fun hm => by
    obtain ⟨x, hx, rfl⟩ := mem_fill hm
    rw [ej] at hc'
    exact hP.used s _ x hx _ b j hj hpp.symm hdd.symm hc'.symm
  have no2 : (some r', i') ∉ E2 a := fun hm => by
    obtain ⟨j', hj', ej'⟩ := hE2 r' i' hr' hm (not_barrier_left hc.symm)
    rw [ej, ej'] at hc'
    exact hP.apart _ _ hpp hdd b _ j j' hb (Nat.mod_lt _ (by decide)) hbs hj hj' hc'
  have le : bars (E2 a) ≤ bars A := by
    dsimp only at e
    rw [← List.append_assoc] at e
    rcases List.append_eq_append_iff.1 e with ⟨C, e1, _⟩ | ⟨C, e1, e2⟩
    · rw [e1, bars_append, bars_append]; omega
    · cases C with
      | nil =>
        rw [List.append_nil] at e1
        rw [← e1, bars_append]; omega
      | cons z C =>
        obtain ⟨rfl, _⟩ := List.cons.inj e2
        have hm : (some r', i') ∈ fillM ns (fills s) a ++ E2 a := by rw [e1]; exact List.mem_append_right _ List.mem_cons_self
        rcases List.mem_append.1 hm with hm | hm
        · exact absurd hm no1
        · exact absurd hm no2
  exact hk.mono (Nat.le_refl _) (by omega)

/-- Changes are followed by executions. -/
theorem follows_changes {N ns : Nat} {fills : Nat → Nat → List Change} {prog : Nat → List CInstr} (hP : Alternates ns fills prog) {s : Nat}
    {E : Nat → Master} {ws : Nat → List (Nat → Nat)} {progE : Nat → List CInstr} {m : Nat → Mem X} {post : (Nat → Mem X) → Prop}
    (h : Piece N ns E ws progE m post)
    (hm : ∀ p j, .op j ∈ progE p → (∃ i x, x ∈ fills i p ∧ j = x.instr) ∨ ∃ b j0, .op j0 ∈ prog p ∧ j = bankI b j0) :
    Follows N ns (fillM ns (fills s)) E ws := by
  intro a ha r i A r' i' B hi e hne hr hr' hc V c hV
  exfalso
  obtain ⟨x, hx, rfl⟩ := mem_fill hi
  have hpp : a * ns + r ≠ a * ns + r' := by omega
  have hdd : (a * ns + r) / ns = (a * ns + r') / ns := by rw [proc_div hr, proc_div hr']
  have hc' : Conflict x.instr (toProc ns r' i') := conflict_toProc (r := r).2 hc
  have hin := h.mem ha hr' (not_barrier_left hc.symm) (by rw [e]; exact List.mem_append_right _ List.mem_cons_self : (some r', i') ∈ E a)
  rcases hm _ _ hin with ⟨i2, x', hx', e'⟩ | ⟨b, j0, hj, e'⟩
  · rw [e'] at hc'
    exact hP.own s _ x hx i2 _ x' hx' hpp hdd hc'
  · rw [e'] at hc'
    exact hP.used s _ x hx _ b j0 hj hpp hdd hc'

theorem alt_piece {N ns : Nat} (hns : 0 < ns) {fills : Nat → Nat → List Change} {prog : Nat → List CInstr}
    (hP : Alternates ns fills prog) {post : (Nat → Mem X) → (Nat → Mem X) → Prop}
    (hpost : ∀ b m mem, post (fun a r => m a (bank b r)) (fun a r => mem a (bank b r)) → post m mem)
    (h : ∀ m, ∃ E ws, Piece N ns E ws prog m (post m) ∧ ∀ a, a < N → Full ns (E a) (ws a)) (n : Nat) :
    ∀ s (m : Nat → Mem X), ∃ E ws, Piece N ns E ws (altFrom fills prog s n) m (Serially N ns fills post s n m) ∧
      ((∀ a, E a = []) ∨ Shape N ns fills prog s E ws) := by
  induction n with
  | zero => intro s m; exact ⟨_, _, piece_nil N ns m, .inl fun _ => rfl⟩
  | succ n ih =>
    intro s m
    have hb : (s + 1) % 2 < 2 := Nat.mod_lt _ (by decide)
    obtain ⟨E2, ws2, h2, l2⟩ := h fun a r => changed ns (fills s) m a (bank ((s + 1) % 2) r)
    have h2 := h2.bank hb
    obtain ⟨k, e, r1, r2, r3⟩ := h2.run
    obtain ⟨E3, ws3, h3, o3⟩ := ih (s + 1) fun a => (e.proc a).mem
    have x3 : Follows N ns (fun a => bankM ((s + 1) % 2) (E2 a)) E3 ws3 := by
      rcases o3 with o3 | o3
      · intro a _ r i A r' i' B _ e
        rw [o3 a] at e
        simp at e
      · exact follows_shape hP hb (by omega) h2 o3
    have h4 := (h2.append r1 r2 h3 x3).imp (B := Serially N ns fills post s (n + 1) m) fun mem hmem =>
      ⟨_, hpost _ _ _ (r3 _ fun _ _ => rfl), hmem⟩
    have h1 := (piece_fill (N := N) hns hP.private s m)
    obtain ⟨k1, e1, q1, q2, q3⟩ := h1.run
    have h5 := h4.mem_congr (m' := fun a => (e1.proc a).mem) fun a ha => q3 _ (fun _ _ => rfl) a ha
    refine ⟨_, _, h1.append q1 q2 h5 (follows_changes hP h5 fun p j hj => ?_), .inr ⟨_, E3, ws2, ws3, rfl, rfl, fun a ha =>
      ⟨full_bank (l2 a ha), fun r i hr hm hi => ?_⟩⟩⟩
    · rcases List.mem_append.1 hj with hj | hj
      · obtain ⟨j0, g1, g2⟩ := mem_bankC hj
        exact .inr ⟨_, j0, g1, g2⟩
      · exact mem_alt n _ hj
    · obtain ⟨j, g1, g2⟩ := mem_bankC (h2.mem ha hr hi hm)
      exact ⟨j, g1, g2⟩

end ExtMpi.Cluster
