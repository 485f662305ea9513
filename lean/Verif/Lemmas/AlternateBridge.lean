import Verif.Spec.ClusterAlternate
import Verif.Lemmas.AlternateOrder
import Verif.Lemmas.AlternateDrop
/-! Two programs with a counter and flags each behave as one with one counter and one set of flags. -/
namespace ExtMpi.Cluster
open RawCode
open TasksNode (put)

/-- Without the number of the program. -/
def eraseI : AInstr → CInstr
  | .op i => .op i
  | .set _ r => .set r
  | .wait _ r => .wait r

/-- A program of local process `k` whose barriers use the flags and counters of the programs in the list. -/
inductive Paired (k : Nat) : List AInstr → List Nat → Prop
  | nil : Paired k [] []
  | op {i l T} : Paired k l T → Paired k (.op i :: l) T
  | bar {b r l T} : Paired k l T → Paired k (.set b (k : Nat) :: .wait b (r : Nat) :: l) (b :: T)

theorem Paired.append {k : Nat} {l l' : List AInstr} {T T' : List Nat} (h : Paired k l T) (h' : Paired k l' T') :
    Paired k (l ++ l') (T ++ T') := by
  induction h with
  | nil => exact h'
  | op _ ih => exact .op ih
  | bar _ ih => exact .bar ih

/-- Where process `k` of a node is; its counters are `n` and `t.count`, its flags are `f` and `fl`. -/
def Place (T : List Nat) (k : Nat) (t : ATask) (n : Nat) (fl : Nat → Nat) (f : Nat) : Prop :=
  ∃ D U, n = D.length + 1 ∧ (∀ b, t.count b = D.count b + 1) ∧
    ((T = D ++ U ∧ Paired k t.rest U ∧ f = D.length ∧ ∀ b, fl b = D.count b) ∨
      ∃ (b r : Nat) (l : List AInstr), T = D ++ b :: U ∧ t.rest = .wait b r :: l ∧ Paired k l U ∧ f = D.length + 1 ∧
        ∀ b', fl b' = (D ++ [b]).count b')

theorem Place.flags {T : List Nat} {k : Nat} {t : ATask} {n : Nat} {fl : Nat → Nat} {f : Nat} (h : Place T k t n fl f) :
    ∃ F, F <+: T ∧ f = F.length ∧ ∀ b, fl b = F.count b := by
  obtain ⟨D, U, _, _, ⟨h1, _, h3, h4⟩ | ⟨b, r, l, h1, _, _, h3, h4⟩⟩ := h
  · exact ⟨D, ⟨U, h1.symm⟩, h3, h4⟩
  · exact ⟨D ++ [b], ⟨U, by rw [h1, List.append_assoc]; rfl⟩, by rw [h3, List.length_append]; rfl, h4⟩

/-- Both counters have the same value for the flags to wait for. -/
theorem wait_same {T D F : List Nat} {b : Nat} (hD : D ++ [b] <+: T) (hF : F <+: T) : D.count b + 1 ≤ F.count b ↔ D.length + 1 ≤ F.length := by
  constructor
  · intro h
    by_contra hl
    have hp : F <+: D := by
      have h1 : D <+: T := (List.prefix_append D [b]).trans hD
      exact List.prefix_of_prefix_length_le hF h1 (by omega)
    have := hp.sublist.count_le b
    omega
  · intro h
    have hp : D ++ [b] <+: F := List.prefix_of_prefix_length_le hD hF (by rw [List.length_append]; exact h)
    have := hp.sublist.count_le b
    rw [List.count_append, List.count_singleton_self] at this
    exact this

/-- The states correspond. -/
structure Same {X : Type} (N ns : Nat) (T : Nat → List Nat) (s : AState X) (c : CState X) : Prop where
  rest : ∀ p, (c.task p).rest = (s.task p).rest.map eraseI
  recvs : ∀ p, (c.task p).recvs = (s.task p).recvs
  sends : ∀ p, (c.task p).sends = (s.task p).sends
  mem : c.mem = s.mem
  chan : c.chan = s.chan
  place : ∀ p, p < N * ns → Place (T (p / ns)) (p % ns) (s.task p) (c.task p).count (fun b => s.flag (p / ns) b (p % ns))
    (c.flag (p / ns) (p % ns))
  none : ∀ a r, ns ≤ r → c.flag a r = 0 ∧ ∀ b, s.flag a b r = 0

variable {X : Type} {N ns : Nat} {T : Nat → List Nat} {s : AState X} {c : CState X}

theorem Same.flags (h : Same N ns T s c) {p : Nat} (hp : p < N * ns) (r : Nat) :
    ∃ F, F <+: T (p / ns) ∧ c.flag (p / ns) r = F.length ∧ ∀ b, s.flag (p / ns) b r = F.count b := by
  by_cases hr : r < ns
  · have := (h.place (p / ns * ns + r) (TasksNode.proc_lt hr (TasksNode.div_lt hp))).flags
    rw [TasksNode.proc_div hr, TasksNode.proc_mod hr] at this
    exact this
  · obtain ⟨h1, h2⟩ := h.none (p / ns) r (by omega)
    exact ⟨[], List.nil_prefix, h1, h2⟩

/-- The next instruction of a process, seen from both sides. -/
theorem Same.head_op (h : Same N ns T s c) {p : Nat} {i : Instr} {l : List CInstr} (hr : (c.task p).rest = .op i :: l) :
    ∃ l', (s.task p).rest = .op i :: l' ∧ l = l'.map eraseI := by
  rw [h.rest] at hr
  obtain ⟨x, l', e1, e2, e3⟩ := List.map_eq_cons_iff.1 hr
  cases x with
  | op j =>
    obtain rfl := CInstr.op.inj e2
    exact ⟨l', e1, e3.symm⟩
  | set b r => cases e2
  | wait b r => cases e2

theorem Same.clear (h : Same N ns T s c) {a : Nat} {i : Instr} : AClear ns s a i ↔ CClear ns c a i := by
  unfold AClear CClear
  simp only [h.recvs, h.sends]

/-- Steps that leave counters and flags. -/
theorem Same.move (h : Same N ns T s c) {p : Nat} {t : ATask} {t' : CTask} {m : Nat → Mem X} {ch : Nat → Nat → List (List X)}
    (h1 : t'.rest = t.rest.map eraseI) (h2 : t'.recvs = t.recvs) (h3 : t'.sends = t.sends)
    (h4 : p < N * ns → Place (T (p / ns)) (p % ns) t t'.count (fun b => s.flag (p / ns) b (p % ns)) (c.flag (p / ns) (p % ns))) :
    Same N ns T ⟨put s.task p t, s.flag, m, ch⟩ ⟨put c.task p t', c.flag, m, ch⟩ where
  rest := fun q => by
    dsimp only
    by_cases e : q = p
    · subst e; rw [put_same, put_same]; exact h1
    · rw [put_other _ _ e, put_other _ _ e]; exact h.rest q
  recvs := fun q => by
    dsimp only
    by_cases e : q = p
    · subst e; rw [put_same, put_same]; exact h2
    · rw [put_other _ _ e, put_other _ _ e]; exact h.recvs q
  sends := fun q => by
    dsimp only
    by_cases e : q = p
    · subst e; rw [put_same, put_same]; exact h3
    · rw [put_other _ _ e, put_other _ _ e]; exact h.sends q
  mem := rfl
  chan := rfl
  place := fun q hq => by
    dsimp only
    by_cases e : q = p
    · subst e; rw [put_same, put_same]; exact h4 hq
    · rw [put_other _ _ e, put_other _ _ e]; exact h.place q hq
  none := h.none

theorem Place.congr {L : List Nat} {k : Nat} {t t' : ATask} {n : Nat} {fl : Nat → Nat} {f : Nat} (h : Place L k t n fl f)
    (h1 : t'.rest = t.rest) (h2 : t'.count = t.count) : Place L k t' n fl f := by
  unfold Place at h ⊢
  rw [h1, h2]
  exact h

theorem Place.op {L : List Nat} {k : Nat} {t t' : ATask} {n : Nat} {fl : Nat → Nat} {f : Nat} {i : Instr} {l : List AInstr}
    (h : Place L k t n fl f) (hr : t.rest = .op i :: l) (h1 : t'.rest = l) (h2 : t'.count = t.count) : Place L k t' n fl f := by
  obtain ⟨D, U, g1, g2, ⟨g3, g4, g5⟩ | ⟨b, r, l', g3, g4, _⟩⟩ := h
  · rw [hr] at g4
    cases g4 with
    | op g => exact ⟨D, U, g1, by rw [h2]; exact g2, .inl ⟨g3, by rw [h1]; exact g, g5⟩⟩
  · rw [hr] at g4
    cases g4

theorem after_rest (i : Instr) (l : List AInstr) (t : ATask) : (aAfter i l t).rest = l ∧ (aAfter i l t).count = t.count := by
  cases i <;> exact ⟨rfl, rfl⟩

theorem after_same (i : Instr) {l : List AInstr} {l' : List CInstr} {t : ATask} {t' : CTask} (hl : l' = l.map eraseI) (h1 : t'.recvs = t.recvs)
    (h2 : t'.sends = t.sends) : (cAfter i l' t').rest = (aAfter i l t).rest.map eraseI ∧ (cAfter i l' t').recvs = (aAfter i l t).recvs ∧
      (cAfter i l' t').sends = (aAfter i l t).sends ∧ (cAfter i l' t').count = t'.count := by
  cases i <;> simp [cAfter, aAfter, hl, h1, h2]

variable [Add X]

/-- Both make the same steps. -/
theorem Same.op (h : Same N ns T s c) {p : Nat} {i : Instr} {l : List AInstr} (hr : (s.task p).rest = .op i :: l) :
    Same N ns T
      { s with task := put s.task p (aAfter i l (s.task p)), mem := put s.mem (p / ns) (TasksNode.memAfter i (s.mem (p / ns))) }
      { c with task := put c.task p (cAfter i (l.map eraseI) (c.task p)), mem := put c.mem (p / ns) (TasksNode.memAfter i (c.mem (p / ns))) } := by
  obtain ⟨g1, g2, g3, g4⟩ := after_same i (l := l) (t := s.task p) (t' := c.task p) rfl (h.recvs p) (h.sends p)
  rw [h.mem, h.chan]
  refine h.move g1 g2 g3 fun hp => ?_
  rw [g4]
  exact (h.place p hp).op hr (after_rest i l _).1 (after_rest i l _).2

/-- A process sets its flag. -/
theorem Same.set (h : Same N ns T s c) {p : Nat} (hp : p < N * ns) {b : Nat} {r : Nat} {l : List AInstr}
    (hr : (s.task p).rest = .set b r :: l) :
    Same N ns T
      { s with
        task := put s.task p { s.task p with rest := l },
        flag := put s.flag (p / ns) (put (s.flag (p / ns)) b (put (s.flag (p / ns) b) r ((s.task p).count b))) }
      { c with
        task := put c.task p { c.task p with rest := l.map eraseI },
        flag := put c.flag (p / ns) (put (c.flag (p / ns)) r (c.task p).count) } := by
  obtain ⟨D, U, g1, g2, ⟨g3, g4, g5, g6⟩ | ⟨_, _, _, _, g4, _⟩⟩ := h.place p hp
  swap
  · rw [hr] at g4; cases g4
  rw [hr] at g4
  generalize hz : ((r : Nat) : Int) = z at g4
  cases g4 with
  | @bar _ r' l' U' g =>
    obtain rfl : r = p % ns := by exact_mod_cast hz
    have hk : p % ns < ns := TasksNode.mod_lt' hp
    refine ⟨fun q => ?_, fun q => ?_, fun q => ?_, h.mem, h.chan, fun q hq => ?_, fun a x hx => ?_⟩
    · dsimp only
      by_cases e : q = p
      · subst e; rw [put_same, put_same]
      · rw [put_other _ _ e, put_other _ _ e]; exact h.rest q
    · dsimp only
      by_cases e : q = p
      · subst e; rw [put_same, put_same]; exact h.recvs q
      · rw [put_other _ _ e, put_other _ _ e]; exact h.recvs q
    · dsimp only
      by_cases e : q = p
      · subst e; rw [put_same, put_same]; exact h.sends q
      · rw [put_other _ _ e, put_other _ _ e]; exact h.sends q
    · dsimp only
      by_cases e : q = p
      · subst e
        rw [put_same, put_same, put_same, put_same]
        refine ⟨D, U', g1, g2, .inr ⟨b, r', l', g3, rfl, g, ?_, fun b' => ?_⟩⟩
        · rw [put_same, g1]
        · rw [List.count_append]
          dsimp only
          by_cases eb : b' = b
          · subst eb
            rw [put_same, put_same, g2, List.count_singleton_self]
          · rw [put_other _ _ eb, List.count_singleton, if_neg (by simpa using Ne.symm eb), Nat.add_zero]
            exact g6 b'
      · have hne : q / ns = p / ns → q % ns ≠ p % ns := fun e1 e2 => e (by
          rw [← Nat.div_add_mod' q ns, ← Nat.div_add_mod' p ns, e1, e2])
        have hf : put c.flag (p / ns) (put (c.flag (p / ns)) (p % ns) (c.task p).count) (q / ns) (q % ns) = c.flag (q / ns) (q % ns) := by
          by_cases ea : q / ns = p / ns
          · rw [ea, put_same, put_other _ _ (hne ea)]
          · rw [put_other _ _ ea]
        have hfl : (fun b' => put s.flag (p / ns) (put (s.flag (p / ns)) b (put (s.flag (p / ns) b) (p % ns) ((s.task p).count b)))
            (q / ns) b' (q % ns)) = fun b' => s.flag (q / ns) b' (q % ns) := by
          funext b'
          by_cases ea : q / ns = p / ns
          · rw [ea, put_same]
            by_cases eb : b' = b
            · subst eb; rw [put_same, put_other _ _ (hne ea)]
            · rw [put_other _ _ eb]
          · rw [put_other _ _ ea]
        rw [hf, hfl, put_other _ _ e, put_other _ _ e]
        exact h.place q hq
    · dsimp only
      have hx' : x ≠ p % ns := by omega
      obtain ⟨h1, h2⟩ := h.none a x hx
      refine ⟨?_, fun b' => ?_⟩
      · by_cases ea : a = p / ns
        · subst ea; rw [put_same, put_other _ _ hx']; exact h1
        · rw [put_other _ _ ea]; exact h1
      · by_cases ea : a = p / ns
        · subst ea
          rw [put_same]
          by_cases eb : b' = b
          · subst eb; rw [put_same, put_other _ _ hx']; exact h2 b'
          · rw [put_other _ _ eb]; exact h2 b'
        · rw [put_other _ _ ea]; exact h2 b'

/-- A process passes a round of a barrier. -/
theorem Same.wait (h : Same N ns T s c) {p : Nat} (hp : p < N * ns) {b : Nat} {r : Nat} {l : List AInstr}
    (hr : (s.task p).rest = .wait b r :: l) :
    ((s.task p).count b ≤ s.flag (p / ns) b r ↔ (c.task p).count ≤ c.flag (p / ns) r) ∧
    Same N ns T
      { s with task := put s.task p { s.task p with rest := l, count := put (s.task p).count b ((s.task p).count b + 1) } }
      { c with task := put c.task p { c.task p with rest := l.map eraseI, count := (c.task p).count + 1 } } := by
  obtain ⟨D, U, g1, g2, ⟨_, g4, _⟩ | ⟨b', r', l', g3, g4, g5, g6, g7⟩⟩ := h.place p hp
  · rw [hr] at g4; cases g4
  rw [hr] at g4
  obtain ⟨e1, rfl⟩ := List.cons.inj g4
  obtain ⟨rfl, _⟩ := AInstr.wait.inj e1
  constructor
  · obtain ⟨F, f1, f2, f3⟩ := h.flags hp r
    rw [f2, f3, g1, g2]
    exact wait_same ⟨U, by rw [g3, List.append_assoc]; rfl⟩ f1
  · have hm : c.mem = s.mem := h.mem
    have hc : c.chan = s.chan := h.chan
    rw [hm, hc]
    refine h.move rfl (h.recvs p) (h.sends p) fun _ => ⟨D ++ [b], U, ?_, fun b' => ?_, .inl ⟨by rw [g3, List.append_assoc]; rfl, g5, ?_, g7⟩⟩
    · show (c.task p).count + 1 = _
      rw [g1, List.length_append]; rfl
    · show put (s.task p).count b ((s.task p).count b + 1) b' = _
      rw [List.count_append]
      by_cases eb : b' = b
      · subst eb; rw [put_same, g2, List.count_singleton_self]
      · rw [put_other _ _ eb, g2, List.count_singleton, if_neg (by simpa using Ne.symm eb), Nat.add_zero]
    · rw [g6, List.length_append]; rfl

theorem Same.depart (h : Same N ns T s c) (q t : Nat) (ch : Nat → Nat → List (List X)) :
    Same N ns T { s with task := put s.task q { s.task q with sends := pop (s.task q).sends t }, chan := ch }
      { c with task := put c.task q { c.task q with sends := pop (c.task q).sends t }, chan := ch } := by
  rw [h.mem]
  exact h.move (h.rest q) (h.recvs q) (by dsimp only; rw [h.sends q]) fun hp => (h.place q hp).congr rfl rfl

theorem Same.arrive (h : Same N ns T s c) (q t : Nat) (m : Nat → Mem X) (ch : Nat → Nat → List (List X)) :
    Same N ns T { s with task := put s.task t { s.task t with recvs := pop (s.task t).recvs q }, mem := m, chan := ch }
      { c with task := put c.task t { c.task t with recvs := pop (c.task t).recvs q }, mem := m, chan := ch } :=
  h.move (h.rest t) (by dsimp only; rw [h.recvs t]) (h.sends t) fun hp => (h.place t hp).congr rfl rfl

/-- Steps of the two programs are steps of one. -/
theorem Same.step (h : Same N ns T s c) {l : Lab} {s' : AState X} (hs : AStep N ns l s s') :
    ∃ c', CStep N ns l c c' ∧ Same N ns T s' c' := by
  cases hs with
  | @op _ p i rest hp hr hi hc hw =>
    exact ⟨_, .op hp (by rw [h.rest, hr]; rfl) hi (h.clear.1 hc) (fun e q => by rw [h.recvs, h.sends]; exact hw e q), h.op hr⟩
  | @set _ p b rest r hp hr => exact ⟨_, .set hp (by rw [h.rest, hr]; rfl), h.set hp hr⟩
  | @wait _ p b rest r hp hr hle =>
    obtain ⟨h1, h2⟩ := h.wait hp hr
    exact ⟨_, .wait hp (by rw [h.rest, hr]; rfl) (h1.1 hle), h2⟩
  | @depart _ q t a n r hq ht hne hs =>
    refine ⟨_, .depart hq ht hne (by rw [h.sends]; exact hs), ?_⟩
    rw [h.chan, h.mem]
    have := h.depart q t (setChan s.chan q t (s.chan q t ++ [readMem (s.mem (q / ns)) a n]))
    rw [h.mem] at this
    exact this
  | @arrive _ q t a n r msg ms hq ht hne hc hr hl =>
    refine ⟨_, .arrive hq ht hne (by rw [h.chan]; exact hc) (by rw [h.recvs]; exact hr) hl, ?_⟩
    rw [h.chan, h.mem]
    exact h.arrive q t _ _

/-- Steps of one are steps of the two programs. -/
theorem Same.back (h : Same N ns T s c) {l : Lab} {c' : CState X} (hs : CStep N ns l c c') : ∃ s', AStep N ns l s s' := by
  cases hs with
  | @op _ p i rest hp hr hi hc hw =>
    obtain ⟨l', h1, _⟩ := h.head_op hr
    exact ⟨_, .op hp h1 hi (h.clear.2 hc) fun e q => by rw [← h.recvs, ← h.sends]; exact hw e q⟩
  | @set _ p rest r hp hr =>
    rw [h.rest] at hr
    obtain ⟨x, l', e1, e2, _⟩ := List.map_eq_cons_iff.1 hr
    cases x with
    | op j => cases e2
    | set b r' =>
      obtain rfl := CInstr.set.inj e2
      exact ⟨_, .set hp e1⟩
    | wait b r' => cases e2
  | @wait _ p rest r hp hr hle =>
    rw [h.rest] at hr
    obtain ⟨x, l', e1, e2, _⟩ := List.map_eq_cons_iff.1 hr
    cases x with
    | op j => cases e2
    | set b r' => cases e2
    | wait b r' =>
      obtain rfl := CInstr.wait.inj e2
      exact ⟨_, .wait hp e1 ((h.wait hp e1).1.2 hle)⟩
  | @depart _ q t a n r hq ht hne hs => exact ⟨_, .depart hq ht hne (by rw [← h.sends]; exact hs)⟩
  | @arrive _ q t a n r msg ms hq ht hne hc hr hl =>
    exact ⟨_, .arrive hq ht hne (by rw [← h.chan]; exact hc) (by rw [← h.recvs]; exact hr) hl⟩

theorem Same.steps {k : Nat} {s s' : AState X} (hs : ASteps N ns k s s') : ∀ {c : CState X}, Same N ns T s c →
    ∃ c', CSteps N ns k c c' ∧ Same N ns T s' c' := by
  induction hs with
  | refl => intro c h; exact ⟨c, .refl, h⟩
  | step h _ ih =>
    intro c hc
    obtain ⟨c1, h1, h2⟩ := hc.step h
    obtain ⟨c2, h3, h4⟩ := ih h2
    exact ⟨c2, .step h1 h3, h4⟩

theorem same_start {prog : Nat → List AInstr} (h : ∀ p, p < N * ns → Paired (p % ns) (prog p) (T (p / ns))) (m : Nat → Mem X) :
    Same N ns T (startA prog m) (startC (fun p => (prog p).map eraseI) m) where
  rest := fun _ => rfl
  recvs := fun _ => rfl
  sends := fun _ => rfl
  mem := rfl
  chan := rfl
  place := fun p hp => ⟨[], T (p / ns), rfl, fun _ => rfl, .inl ⟨rfl, h p hp, rfl, fun _ => rfl⟩⟩
  none := fun _ _ _ => ⟨rfl, fun _ => rfl⟩

/-- Two programs with a counter and flags each are correct if one is. -/
theorem acorrect_of {prog : Nat → List AInstr} (hT : ∀ p, p < N * ns → Paired (p % ns) (prog p) (T (p / ns))) {m : Nat → Mem X}
    {post : (Nat → Mem X) → Prop} (h : CCorrect N ns (fun p => (prog p).map eraseI) m post) : ACorrect N ns prog m post := by
  obtain ⟨bound, h⟩ := h
  refine ⟨bound, fun k s hs => ?_⟩
  obtain ⟨c, h1, h2⟩ := Same.steps hs (same_start hT m)
  obtain ⟨g1, g2, g4, g3⟩ := h k c h1
  refine ⟨g1, fun p p' hp hp' hne hd i r i' r' e e' => ?_, fun p hp i r e => h2.clear.2 (g4 p hp i _ (by rw [h2.rest, e]; rfl)), ?_⟩
  · exact g2 p p' hp hp' hne hd i _ i' _ (by rw [h2.rest, e]; rfl) (by rw [h2.rest, e']; rfl)
  · rcases g3 with ⟨hf, hp⟩ | ⟨l, c', hu, hc⟩
    · refine .inl ⟨fun p hp => ?_, by rw [← h2.mem]; exact hp⟩
      obtain ⟨f1, f2⟩ := hf p hp
      rw [h2.rest] at f1
      refine ⟨List.map_eq_nil_iff.1 f1, fun q => ?_⟩
      have := f2 q
      rw [h2.recvs, h2.sends, h2.chan] at this
      exact this
    · obtain ⟨s', hs'⟩ := h2.back hc
      refine .inr ⟨l, s', ?_, hs'⟩
      cases l with
      | loc => trivial
      | arrive => trivial
      | depart q t =>
        have hu : c.chan q t = [] ∧ (c.task t).recvs q ≠ [] := hu
        rw [h2.chan, h2.recvs] at hu
        exact hu

/-! ## The programs of the executions -/

open TasksNode

theorem erase_inBank (b : Nat) (x : CInstr) : eraseI (inBank b x) = bankC b x := by
  cases x <;> rfl

theorem erase_alternate (fills : Nat → Nat → List Change) (prog : Nat → List CInstr) (p n : Nat) : ∀ s,
    (alternateFrom fills prog s n p).map eraseI = altFrom fills prog s n p := by
  induction n with
  | zero => intro s; rfl
  | succ n ih =>
    intro s
    unfold alternateFrom altFrom
    rw [List.map_append, List.map_append, ih, List.map_map, List.map_map]
    congr 2
    exact List.map_congr_left fun x _ => erase_inBank _ x

omit [Add X] in
theorem paired_toC (part : Nat → Nat) (k b : Nat) (l : List Instr) : ∀ c,
    Paired k ((toC part k c l).map (inBank b)) (List.replicate (l.count .barrier) b) := by
  induction l with
  | nil => intro c; exact .nil
  | cons i l ih =>
    intro c
    by_cases hi : i = .barrier
    · subst hi
      rw [List.count_cons_self, List.replicate_succ]
      exact .bar (ih _)
    · rw [toC_op _ _ _ hi, List.count_cons_of_ne hi]
      exact .op (ih c)

omit [Add X] in
theorem paired_ops (k : Nat) (l : List Change) : Paired k (l.map fun x => .op x.instr) [] := by
  induction l with
  | nil => exact .nil
  | cons x l ih => exact .op ih

/-- The programs of the barriers of `n` executions with `c` rounds of barriers each, from execution `s` on. -/
def order (c : Nat) : Nat → Nat → List Nat
  | _, 0 => []
  | s, n + 1 => List.replicate c ((s + 1) % 2) ++ order c (s + 1) n

omit [Add X] in
theorem paired_alternate {fills : Nat → Nat → List Change} {prog : Nat → List CInstr} {p k c : Nat}
    (h : ∀ b, Paired k ((prog p).map (inBank b)) (List.replicate c b)) (n : Nat) : ∀ s,
    Paired k (alternateFrom fills prog s n p) (order c s n) := by
  induction n with
  | zero => intro s; exact .nil
  | succ n ih =>
    intro s
    exact (paired_ops k (fills s p)).append ((h _).append (ih (s + 1)))

omit [Add X] in
theorem alternateFrom_congr {fills : Nat → Nat → List Change} {prog prog' : Nat → List CInstr} {p : Nat} (h : prog p = prog' p) (n : Nat) :
    ∀ s, alternateFrom fills prog s n p = alternateFrom fills prog' s n p := by
  induction n with
  | zero => intro s; rfl
  | succ n ih => intro s; unfold alternateFrom; rw [h, ih]

theorem Piece.paired {E : Nat → Master} {ws : Nat → List (Nat → Nat)} {prog : Nat → List CInstr} {m : Nat → Mem X}
    {post : (Nat → Mem X) → Prop} (h : Piece N ns E ws prog m post) {p : Nat} (hp : p < N * ns) (b : Nat) :
    Paired (p % ns) ((prog p).map (inBank b)) (List.replicate (bars (E (p / ns))) b) := by
  rw [← h.code p hp (fun i => ((ws (p / ns))[i - 1]?.map fun w => w (p % ns)).getD 0) 0 fun j w hj => by
    rw [Nat.zero_add, Nat.add_sub_cancel, hj]; rfl, ← share_count (h.wf _ (TasksNode.div_lt hp)) (r := p % ns)]
  exact paired_toC _ _ _ _ _

/-- The executions with alternating shared memories of programs that contain a barrier of the node are correct. -/
theorem alternate_full (hns : 0 < ns) {fills : Nat → Nat → List Change} {prog : Nat → List CInstr}
    (hP : Alternates ns fills fun p => if p < N * ns then prog p else []) {post : (Nat → Mem X) → (Nat → Mem X) → Prop}
    (hpost : ∀ b m mem, post (fun a r => m a (bank b r)) (fun a r => mem a (bank b r)) → post m mem)
    (h : ∀ m, ∃ E ws, Piece N ns E ws prog m (post m) ∧ ∀ a, a < N → Full ns (E a) (ws a)) (n : Nat) (m : Nat → Mem X) :
    ACorrect N ns (alternating N ns fills prog n) m (Serially N ns fills post 0 n m) := by
  obtain ⟨g, hg⟩ : ∃ g : Nat → List CInstr, g = fun p => if p < N * ns then prog p else [] := ⟨_, rfl⟩
  rw [← hg] at hP
  have hS : ∀ m, ∃ E ws, Piece N ns E ws g m (post m) ∧ ∀ a, a < N → Full ns (E a) (ws a) := fun m => by
    obtain ⟨E, ws, h3, h4⟩ := h m
    exact ⟨E, ws, h3.congr fun p hp => by rw [hg]; dsimp only; rw [if_pos hp], h4⟩
  have e : ∀ p, p < N * ns → alternating N ns fills prog n p = alternateFrom fills g 0 n p := fun p hp => by
    unfold alternating
    rw [if_pos hp]
    exact alternateFrom_congr (by rw [hg]; dsimp only; rw [if_pos hp]) n 0
  obtain ⟨E0, ws0, h0, _⟩ := hS m
  obtain ⟨E, ws, h1, _⟩ := alt_piece hns hP hpost hS n 0 m
  refine acorrect_of (T := fun a => order (bars (E0 a)) 0 n) (fun p hp => ?_) (ccorrect_congr (h1.ccorrect hns) fun p => ?_)
  · rw [e p hp]
    exact paired_alternate (fun b => h0.paired hp b) n 0
  · by_cases hp : p < N * ns
    · rw [e p hp, if_pos hp, erase_alternate]
    · unfold alternating
      rw [if_neg hp, if_neg hp]
      rfl

/-- The executions with alternating shared memories are correct. -/
theorem alternate_acorrect (hns : 0 < ns) {d j : Nat} (hj : j ≤ d) {fills : Nat → Nat → List Change} {prog : Nat → List CInstr}
    (hP : Alternates ns fills fun p => if p < N * ns then prog p else []) {post : (Nat → Mem X) → (Nat → Mem X) → Prop}
    (hpost : ∀ b m mem, post (fun a r => m a (bank b r)) (fun a r => mem a (bank b r)) → post m mem)
    (h : ∀ m, ∃ pr, (∀ p, p < N * ns → pr p = prog p) ∧ Serial N ns d pr m (post m)) (n : Nat) (m : Nat → Mem X) :
    ACorrect N ns (alternating N ns fills (fun p => withoutFirst ns j (prog p)) n) m (Serially N ns fills post 0 n m) := by
  have hin : ∀ p i, .op i ∈ (if p < N * ns then withoutFirst ns j (prog p) else []) → .op i ∈ (if p < N * ns then prog p else []) :=
    fun p i hi => by
      split at hi
      · rename_i hp
        rw [if_pos hp]
        exact List.mem_of_mem_drop hi
      · cases hi
  refine alternate_full hns ⟨hP.own, fun i p x hx p' b k hk => hP.used i p x hx p' b k (hin _ _ hk), hP.ne,
    fun p p' hne hd b b' k k' hb hb' hbb hk hk' => hP.apart p p' hne hd b b' k k' hb hb' hbb (hin _ _ hk) (hin _ _ hk')⟩ hpost (fun m => ?_) n m
  obtain ⟨pr, h1, h2⟩ := h m
  obtain ⟨E, ws, h3, h4⟩ := h2.drop hj
  exact ⟨E, ws, h3.congr fun p hp => by rw [← h1 p hp]; rfl, h4⟩

end ExtMpi.Cluster
