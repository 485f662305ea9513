import Verif.Lemmas.AlternateDrop
import Verif.Lemmas.ClusterCut
/-! Programs without the second of two consecutive barriers of a node. -/
namespace ExtMpi.Cluster
open RawCode Schedule
open TasksNode
open OnNode (leadSk nodeW)

/-! ## What the processes know -/

/-- Knowledge up to barrier `J` depends on the partners up to there. -/
theorem kn_prefix {N ns : Nat} {W W' : Nat → Nat → Nat → Prop} {a J : Nat}
    (hW : ∀ q k p, q / ns = a → k ≤ J → W q k p → W' q k p) {p i q j : Nat} (h : Kn N ns W p i q j) (hq : q / ns = a)
    (hj : j ≤ J) : Kn N ns W' p i q j := by
  induction h with
  | own h => exact .own h
  | sync h1 h2 h3 => exact .sync h1 h2 (hW _ _ _ hq hj h3)
  | mono _ h1 h2 ih => exact .mono (ih hq (by omega)) h1 h2
  | @trans p i r k q j h1 h2 ih1 ih2 =>
    have l2 := (kn_le h2).2
    have e2 := (kn_le h2).1
    exact .trans (ih1 (e2.trans hq) (by omega)) (ih2 hq hj)

theorem insertW_early (c : Nat) (L : List (Nat → Nat)) (V : Nat → List (Nat → Nat)) (a j : Nat) (h : j < c) :
    (insertW c L V a).getD j id = (V a).getD j id := by
  unfold insertW
  rw [List.getD_eq_getElem?_getD, List.getElem?_append_left (by rw [List.length_map, List.length_range]; exact h), List.getElem?_map,
    List.getElem?_range h]
  rfl

theorem append_split {α : Type} {A B C D : List α} (h : A ++ B = C ++ D) (hl : C.length ≤ A.length) : ∃ F, A = C ++ F ∧ D = F ++ B := by
  rcases List.append_eq_append_iff.1 h with ⟨F, e1, e2⟩ | ⟨F, e1, e2⟩
  · have : F = [] := List.length_eq_zero_iff.1 (by rw [e1, List.length_append] at hl; omega)
    subst this
    rw [List.append_nil] at e1
    exact ⟨[], by rw [e1, List.append_nil], e2.symm⟩
  · exact ⟨F, e1, e2⟩

theorem mem_nodeBar {ns : Nat} {x : Option Nat × Instr} (h : x ∈ nodeBar ns) : x = (none, .barrier) := (List.mem_replicate.1 h).2

/-- An element that is no barrier is before or after a barrier of the node. -/
theorem split_around {ns : Nat} {A B P Q : Master} {x : Option Nat × Instr} (h : A ++ (nodeBar ns ++ B) = P ++ x :: Q)
    (hx : x ≠ (none, .barrier)) :
    (∃ A2, A = P ++ x :: A2 ∧ Q = A2 ++ (nodeBar ns ++ B)) ∨ ∃ P2, P = A ++ (nodeBar ns ++ P2) ∧ B = P2 ++ x :: Q := by
  rcases List.append_eq_append_iff.1 h with ⟨F, e1, e2⟩ | ⟨F, e1, e2⟩
  · right
    rcases List.append_eq_append_iff.1 e2 with ⟨G, g1, g2⟩ | ⟨G, g1, g2⟩
    · exact ⟨G, by rw [e1, g1], g2⟩
    · cases G with
      | nil => exact ⟨[], by rw [e1, g1, List.append_nil, List.append_nil], g2.symm⟩
      | cons y G =>
        obtain ⟨rfl, _⟩ := List.cons.inj g2
        exact absurd (mem_nodeBar (ns := ns) (by rw [g1]; exact List.mem_append_right _ List.mem_cons_self)) hx
  · cases F with
    | nil =>
      right
      rw [List.nil_append] at e2
      cases hb : nodeBar ns with
      | nil =>
        rw [hb] at e2
        exact ⟨[], by rw [e1]; simp only [List.append_nil], e2.symm⟩
      | cons y G =>
        rw [hb] at e2
        obtain ⟨rfl, _⟩ := List.cons.inj e2
        exact absurd (mem_nodeBar (ns := ns) (by rw [hb]; exact List.mem_cons_self)) hx
    | cons y F =>
      left
      obtain ⟨rfl, rfl⟩ := List.cons.inj e2
      exact ⟨F, e1, rfl⟩

theorem ordered_undouble {N ns a c : Nat} (ha : a < N) {A B : Master} {wa wb : List (Nat → Nat)} (hl : wa.length = bars A)
    (h : ∀ (V : Nat → List (Nat → Nat)) (c : Nat), (∀ j w, (wa ++ (nodeWs ns ++ (nodeWs ns ++ wb)))[j]? = some w → (V a)[c + j]? = some w) →
      OrderedAt N ns (single ns (partOf ns V)) a c (A ++ (nodeBar ns ++ (nodeBar ns ++ B))))
    {V : Nat → List (Nat → Nat)} (hV : ∀ j w, (wa ++ (nodeWs ns ++ wb))[j]? = some w → (V a)[c + j]? = some w) :
    OrderedAt N ns (single ns (partOf ns V)) a c (A ++ (nodeBar ns ++ B)) := by
  have hK : (nodeWs ns).length = K ns := nodeWs_length ns
  have hH := h (insertW (c + (bars A + K ns)) (nodeWs ns) V) c (fun j w hj => by
    by_cases h1 : j < bars A + K ns
    · have hj' : (wa ++ (nodeWs ns ++ wb))[j]? = some w := by
        rw [← List.append_assoc, List.getElem?_append_left (by rw [List.length_append, hl, hK]; exact h1)] at hj ⊢
        exact hj
      have := hV j w hj'
      unfold insertW
      rw [List.getElem?_append_left (by rw [List.length_map, List.length_range]; omega), List.getElem?_map,
        List.getElem?_range (by omega), Option.map_some, List.getD_eq_getElem?_getD, this]
      rfl
    · obtain ⟨k, rfl⟩ : ∃ k, j = bars A + K ns + k := ⟨j - (bars A + K ns), by omega⟩
      rw [← List.append_assoc, List.getElem?_append_right (by rw [List.length_append, hl, hK]; omega), List.length_append, hl, hK,
        Nat.add_sub_cancel_left] at hj
      rw [show c + (bars A + K ns + k) = c + (bars A + K ns) + k by omega]
      by_cases h2 : k < K ns
      · rw [List.getElem?_append_left (by omega)] at hj
        exact insertW_new _ _ _ _ _ _ hj
      · obtain ⟨i, rfl⟩ : ∃ i, k = (nodeWs ns).length + i := ⟨k - K ns, by omega⟩
        rw [List.getElem?_append_right (by omega), Nat.add_sub_cancel_left] at hj
        rw [insertW_late, show c + (bars A + K ns) + i = c + (bars A + K ns + i) by omega]
        apply hV
        rw [← List.append_assoc, List.getElem?_append_right (by rw [List.length_append, hl, hK]; omega), List.length_append, hl, hK,
          Nat.add_sub_cancel_left]
        exact hj)
  intro P r i L r' i' Q e hne hr hr' hc
  rcases split_around e (by intro h; cases h) with ⟨A2, e1, e2⟩ | ⟨P2, e1, e2⟩
  · rcases split_around e2.symm (by intro h; cases h) with ⟨A3, e3, e4⟩ | ⟨P3, e3, e4⟩
    · -- both before
      have h1 := hH P r i L r' i' (A3 ++ (nodeBar ns ++ (nodeBar ns ++ B))) (by rw [e1, e3]; simp only [List.append_assoc, List.cons_append]) hne hr hr' hc
      have hb : bars A = bars P + (bars L + bars A3) := by
        rw [e1, e3, bars_append, bars_cons, bars_append, bars_cons (some r', i')]
        have f1 : bars [(some r, i)] = 0 := bars_zero fun x hx => by rw [List.mem_singleton.1 hx]; rintro rfl; exact absurd hc (by simp [Conflict, writes, reads])
        have f2 : bars [(some r', i')] = 0 := bars_zero fun x hx => by rw [List.mem_singleton.1 hx]; rintro rfl; exact absurd hc (by simp [Conflict, writes, reads])
        omega
      refine kn_prefix (a := a) (J := c + (bars A + K ns)) (fun q k p hq hk hw => ?_) h1 (proc_div hr' a) (by omega)
      show _ = _
      rw [show p % ns = _ from hw]
      unfold partOf
      rw [hq]
      by_cases hk0 : k = 0
      · subst hk0
        by_cases hz : c + (bars A + K ns) = 0
        · have : K ns = 0 := by omega
          unfold insertW
          rw [hz]
          have hn : nodeWs ns = [] := List.length_eq_zero_iff.1 (by rw [hK, this])
          rw [hn]
          simp
        · rw [insertW_early _ _ _ _ _ (by omega)]
      · rw [insertW_early _ _ _ _ _ (by omega)]
    · -- one before, one after
      have hb : bars A = bars P + bars A2 := by
        rw [e1, bars_append, bars_cons]
        have f1 : bars [(some r, i)] = 0 := bars_zero fun x hx => by rw [List.mem_singleton.1 hx]; rintro rfl; exact absurd hc (by simp [Conflict, writes, reads])
        omega
      have hb2 : bars L = bars A2 + (K ns + bars P3) := by rw [e3, bars_append, bars_append, bars_nodeBar]
      refine (kn_node ha hr hr' hne (V := V) (c := c + bars A) fun j w hj => ?_).mono (by omega) (by omega)
      have hj : (nodeWs ns)[j]? = some w := hj
      rw [Nat.add_assoc]
      apply hV
      rw [← hl, List.getElem?_append_right (Nat.le_add_right _ _), Nat.add_sub_cancel_left,
        List.getElem?_append_left (List.getElem?_eq_some_iff.1 hj).1]
      exact hj
  · -- both after
    have h1 := hH (A ++ (nodeBar ns ++ (nodeBar ns ++ P2))) r i L r' i' Q (by rw [e2]; simp only [List.append_assoc]) hne hr hr' hc
    have hb : bars P = bars A + (K ns + bars P2) := by rw [e1, bars_append, bars_append, bars_nodeBar]
    rw [bars_append, bars_append, bars_append, bars_nodeBar] at h1
    have h2 := kn_shift (W' := single ns (partOf ns V)) (a := a) (b := c + (bars A + K ns)) (d := K ns) (fun q k p hq hk hw => by
      show _ = _
      rw [show p % ns = _ from hw]
      unfold partOf
      rw [hq]
      obtain ⟨j, rfl⟩ : ∃ j, k = c + (bars A + K ns) + ((nodeWs ns).length + j) + 1 := ⟨k - 1 - (c + (bars A + K ns)) - K ns, by omega⟩
      rw [Nat.add_sub_cancel, show c + (bars A + K ns) + ((nodeWs ns).length + j) + 1 - K ns - 1 = c + (bars A + K ns) + j by omega,
        List.getD_eq_getElem?_getD, List.getD_eq_getElem?_getD, insertW_late]) h1 (proc_div hr' a) (by omega)
    exact h2.mono (by omega) (by omega)

theorem sealed_undouble {ns : Nat} {A B : Master} {wa wb : List (Nat → Nat)} (hl : wa.length = bars A)
    (h : Sealed ns (A ++ (nodeBar ns ++ (nodeBar ns ++ B))) (wa ++ (nodeWs ns ++ (nodeWs ns ++ wb)))) :
    Sealed ns (A ++ (nodeBar ns ++ B)) (wa ++ (nodeWs ns ++ wb)) := by
  have hK : (nodeWs ns).length = K ns := nodeWs_length ns
  have hN : (nodeBar ns).length = K ns := List.length_replicate
  intro P Q e
  rcases split_around e (by intro h; cases h) with ⟨A2, e1, e2⟩ | ⟨P2, e1, e2⟩
  · obtain ⟨B', v1, v2, h1, h2, h3⟩ := h P (A2 ++ (nodeBar ns ++ (nodeBar ns ++ B))) (by rw [e1]; simp only [List.append_assoc, List.cons_append])
    have hb : bars A = bars P + bars A2 := by
      rw [e1, bars_append, bars_cons]
      have f1 : bars [((none : Option Nat), Instr.waitall)] = 0 := rfl
      omega
    rw [← List.append_assoc] at h1
    obtain ⟨F, f1, f2⟩ := append_split h1 (by rw [List.length_append, List.length_replicate, hN]; omega)
    rw [← List.append_assoc wa, ← List.append_assoc v1] at h2
    obtain ⟨G, g1, g2⟩ := append_split h2 (by
      rw [List.length_append, List.length_append, List.length_map, List.length_range, hK, hl, h3]
      omega)
    exact ⟨F ++ B, v1, G ++ wb, by rw [e2, ← List.append_assoc, f1, List.append_assoc], by
      rw [← List.append_assoc, g1]; simp only [List.append_assoc], h3⟩
  · obtain ⟨B', v1, v2, h1, h2, h3⟩ := h (A ++ (nodeBar ns ++ (nodeBar ns ++ P2))) Q (by rw [e2]; simp only [List.append_assoc])
    rw [bars_append, bars_append, bars_append, bars_nodeBar] at h3
    rw [← List.append_assoc (nodeWs ns), ← List.append_assoc] at h2
    obtain ⟨F, f1, f2⟩ := append_split h2.symm (by
      rw [List.length_append, List.length_append, hK, hl, h3]; omega)
    refine ⟨B', wa ++ (nodeWs ns ++ F), v2, h1, by rw [f2]; simp only [List.append_assoc], ?_⟩
    have := congrArg List.length f1
    rw [List.length_append, List.length_append, List.length_append] at this
    rw [List.length_append, List.length_append, e1, bars_append, bars_append, bars_nodeBar]
    omega

/-! ## The execution -/

/-- `l'` is `l` without some barriers. -/
inductive Thin : List Instr → List Instr → Prop
  | nil : Thin [] []
  | cons {i l l'} : Thin l l' → Thin (i :: l) (i :: l')
  | skip {l l'} : Thin l l' → Thin (.barrier :: l) l'

theorem thin_refl (l : List Instr) : Thin l l := by
  induction l with
  | nil => exact .nil
  | cons i l ih => exact .cons ih

theorem thin_left (A : List Instr) {l l' : List Instr} (h : Thin l l') : Thin (A ++ l) (A ++ l') := by
  induction A with
  | nil => exact h
  | cons i A ih => exact .cons ih

theorem thin_bars (n : Nat) {l l' : List Instr} (h : Thin l l') : Thin (List.replicate n .barrier ++ l) l' := by
  induction n with
  | zero => exact h
  | succ n ih => exact .skip ih

theorem thin_cons {i : Instr} {l l' : List Instr} (h : Thin (i :: l) l') (hi : i ≠ .barrier) : ∃ r, l' = i :: r ∧ Thin l r := by
  cases h with
  | cons h => exact ⟨_, rfl, h⟩
  | skip h => exact absurd rfl hi

variable {X : Type} [Add X]

/-- Processes with other remaining instructions. -/
def strip (f : Nat → List Instr) (s : State X) : State X := ⟨fun t => { s.proc t with rest := f t }, s.chan⟩

theorem strip_put (f : Nat → List Instr) (g : Nat → Proc X) (t : Nat) (p : Proc X) (l : List Instr) (c : Nat → Nat → List (List X)) :
    strip (put f t l) ⟨setProc g t p, c⟩ = ⟨setProc (strip f ⟨g, c⟩).proc t { p with rest := l }, c⟩ := by
  unfold strip
  congr 1
  funext a
  by_cases h : a = t
  · subst h; simp only [setProc_same, put_same]
  · simp only [setProc_ne _ _ _ _ h, put_other _ _ h]

theorem put_self {Y : Type} (f : Nat → Y) (t : Nat) : put f t (f t) = f := by
  funext a
  by_cases h : a = t
  · subst h; rw [put_same]
  · rw [put_other _ _ h]

theorem step_strip {N : Nat} {f : Nat → List Instr} {l : Lab} {s s1 : State X} (hf : ∀ t, Thin (s.proc t).rest (f t)) (hu : Unbuffered l s)
    (h : Step N l s s1) :
    (strip f s1 = strip f s ∧ ∀ t, Thin (s1.proc t).rest (f t)) ∨
      ∃ f', Unbuffered l (strip f s) ∧ Step N l (strip f s) (strip f' s1) ∧ ∀ t, Thin (s1.proc t).rest (f' t) := by
  have thin' : ∀ (t : Nat) (p : Proc X) (l : List Instr) (c : Nat → Nat → List (List X)), Thin p.rest l →
      ∀ a, Thin ((State.mk (setProc s.proc t p) c).proc a).rest (put f t l a) := fun t p l c h a => by
    by_cases e : a = t
    · subst e; rw [put_same]; show Thin (setProc _ _ _ _).rest _; rw [setProc_same]; exact h
    · rw [put_other _ _ e]; show Thin (setProc _ _ _ _).rest _; rw [setProc_ne _ _ _ _ e]; exact hf a
  cases h with
  | @loc _ t p ht hl =>
    have ht' := hf t
    have go : ∀ l, LStep ((strip f s).proc t) { p with rest := l } → Thin p.rest l → ∃ f', Unbuffered (.loc t) (strip f s) ∧
        Step N (.loc t) (strip f s) (strip f' ⟨setProc s.proc t p, s.chan⟩) ∧
        ∀ a, Thin ((State.mk (setProc s.proc t p) s.chan).proc a).rest (f' a) := fun l h1 h2 =>
      ⟨put f t l, trivial, by rw [strip_put]; exact .loc ht h1, thin' _ _ _ _ h2⟩
    cases hl with
    | copy h1 h2 h3 h4 h5 =>
      rw [h1] at ht'
      obtain ⟨r, e1, e2⟩ := thin_cons ht' (by intro h; cases h)
      exact .inr (go r (.copy (p := (strip f s).proc t) e1 h2 h3 h4 h5) e2)
    | irecv h1 h2 h3 =>
      rw [h1] at ht'
      obtain ⟨r, e1, e2⟩ := thin_cons ht' (by intro h; cases h)
      exact .inr (go r (.irecv (p := (strip f s).proc t) e1 h2 h3) e2)
    | isend h1 h2 =>
      rw [h1] at ht'
      obtain ⟨r, e1, e2⟩ := thin_cons ht' (by intro h; cases h)
      exact .inr (go r (.isend (p := (strip f s).proc t) e1 h2) e2)
    | waitall h1 h2 =>
      rw [h1] at ht'
      obtain ⟨r, e1, e2⟩ := thin_cons ht' (by intro h; cases h)
      exact .inr (go r (.waitall (p := (strip f s).proc t) e1 h2) e2)
    | @barrier rest h1 =>
      rw [h1] at ht'
      generalize hft : f t = l' at ht'
      cases ht' with
      | cons h2 => exact .inr (go _ (.barrier (p := (strip f s).proc t) hft) h2)
      | skip h2 =>
        left
        have := strip_put f s.proc t { s.proc t with rest := rest } (f t) s.chan
        rw [put_self] at this
        refine ⟨?_, ?_⟩
        · rw [this]
          unfold strip
          congr 1
          funext a
          by_cases e : a = t
          · subst e; rw [setProc_same]
          · rw [setProc_ne _ _ _ _ e]
        · have := thin' t { s.proc t with rest := rest } (f t) s.chan (by rw [hft]; exact h2)
          rwa [put_self] at this
  | @depart _ q t a n r hq ht hne hs =>
    refine .inr ⟨put f q (f q), hu, ?_, thin' _ _ _ _ (hf q)⟩
    rw [strip_put]
    exact Step.depart (s := strip f s) hq ht hne hs
  | @arrive _ q t a n r msg ms hq ht hne hc hr hl =>
    refine .inr ⟨put f t (f t), trivial, ?_, thin' _ _ _ _ (hf t)⟩
    rw [strip_put]
    exact Step.arrive (s := strip f s) hq ht hne hc hr hl

theorem delayed_strip {f : Nat → List Instr} {l : Lab} {s : State X} (hf : ∀ t, Thin (s.proc t).rest (f t)) (h : Delayed l s) :
    Delayed l (strip f s) := by
  have key : ∀ t, (∃ r, (s.proc t).rest = .waitall :: r) → ∃ r, f t = .waitall :: r := by
    rintro t ⟨r, hr⟩
    have := hf t
    rw [hr] at this
    obtain ⟨r', e, _⟩ := thin_cons this (by intro h; cases h)
    exact ⟨r', e⟩
  cases l with
  | loc t => exact trivial
  | depart q t => exact key q h
  | arrive q t => exact key t h

theorem run_strip {N k : Nat} {s e : State X} (h : URun N k s e) : ∀ f : Nat → List Instr, (∀ t, Thin (s.proc t).rest (f t)) →
    ∃ k' f', URun N k' (strip f s) (strip f' e) ∧ ∀ t, Thin (e.proc t).rest (f' t) := by
  induction h with
  | refl => intro f hf; exact ⟨0, f, .refl, hf⟩
  | step hu hd hs _ ih =>
    intro f hf
    have hd' := delayed_strip hf hd
    rcases step_strip hf hu hs with ⟨h1, h2⟩ | ⟨f', h1, h2, h3⟩
    · obtain ⟨k', f2, g1, g2⟩ := ih f h2
      rw [h1] at g1
      exact ⟨k', f2, g1, g2⟩
    · obtain ⟨k', f2, g1, g2⟩ := ih f' h3
      exact ⟨_, f2, .step h1 hd' h2 g1, g2⟩

/-! ## The programs -/

theorem toC_local (part part' : Nat → Nat) (rank : Nat) (l : List Instr) : ∀ c c',
    (∀ j, j < l.count .barrier → part (c + j + 1) = part' (c' + j + 1)) → toC part rank c l = toC part' rank c' l := by
  induction l with
  | nil => intro c c' _; rfl
  | cons i l ih =>
    intro c c' h
    by_cases hi : i = .barrier
    · subst hi
      rw [List.count_cons_self] at h
      show CInstr.set _ :: .wait (part (c + 1) : Nat) :: toC part rank (c + 1) l = .set _ :: .wait (part' (c' + 1) : Nat) :: toC part' rank (c' + 1) l
      have h0 := h 0 (by omega)
      rw [Nat.add_zero, Nat.add_zero] at h0
      rw [h0, ih (c + 1) (c' + 1) fun j hj => by
        have := h (j + 1) (by omega)
        rwa [← Nat.add_assoc, ← Nat.add_assoc, Nat.add_right_comm c, Nat.add_right_comm c'] at this]
    · rw [List.count_cons_of_ne hi] at h
      rw [toC_op _ _ _ hi, toC_op _ _ _ hi, ih c c' h]

theorem codes_exist {ns r : Nat} {E : Master} {ws : List (Nat → Nat)} (h : (share ns r E).count .barrier = ws.length) : ∃ l, Codes ns E ws r l := by
  refine ⟨toC (fun k => (ws.getD (k - 1) id) r) r 0 (share ns r E), fun part c hp => toC_local _ _ _ _ _ _ fun j hj => ?_⟩
  rw [h] at hj
  have := hp j ws[j] (List.getElem?_eq_getElem hj)
  rw [this, show 0 + j + 1 - 1 = j by omega, List.getD_eq_getElem?_getD, List.getElem?_eq_getElem hj]
  rfl

/-- Other programs with the same instructions. -/
theorem Piece.recode {N ns : Nat} {E : Nat → Master} {ws : Nat → List (Nat → Nat)} {prog prog' : Nat → List CInstr} {m : Nat → Mem X}
    {post : (Nat → Mem X) → Prop} (h : Piece N ns E ws prog m post)
    (hc : ∀ p, p < N * ns → Codes ns (E (p / ns)) (ws (p / ns)) (p % ns) (prog' p)) : Piece N ns E ws prog' m post :=
  ⟨h.len, h.part, h.wf, h.ord, h.waits, h.tags, fun p hp part c hpart => hc p hp part c hpart, h.run⟩

theorem tags_bar (q ns : Nat) (B : Master) : sendTags q (nodeBar ns ++ B) = sendTags q B ∧ recvTags q (nodeBar ns ++ B) = recvTags q B := by
  have := tags_replicate q (K ns)
  rw [sendTags_append, recvTags_append]
  unfold nodeBar
  rw [this.1, this.2]
  exact ⟨rfl, rfl⟩

/-- Without the second of two consecutive barriers of node `a`. -/
theorem Piece.undouble {N ns a : Nat} (ha : a < N) {E : Nat → Master} {ws : Nat → List (Nat → Nat)} {prog : Nat → List CInstr} {m : Nat → Mem X}
    {post : (Nat → Mem X) → Prop} {A B : Master} {wa wb : List (Nat → Nat)} (hl : wa.length = bars A)
    (h : Piece N ns (put E a (A ++ (nodeBar ns ++ (nodeBar ns ++ B)))) (put ws a (wa ++ (nodeWs ns ++ (nodeWs ns ++ wb)))) prog m post) :
    ∃ prog', Piece N ns (put E a (A ++ (nodeBar ns ++ B))) (put ws a (wa ++ (nodeWs ns ++ wb))) prog' m post := by
  have hlen : ∀ b, b < N → (put ws a (wa ++ (nodeWs ns ++ wb)) b).length = bars (put E a (A ++ (nodeBar ns ++ B)) b) := fun b hb => by
    have := h.len b hb
    by_cases e : b = a
    · subst e
      rw [put_same, put_same] at this ⊢
      simp only [List.length_append, bars_append, nodeWs_length, bars_nodeBar] at this ⊢
      omega
    · rw [put_other _ _ e, put_other _ _ e] at this ⊢
      exact this
  have hwf : ∀ b, b < N → ∀ x, x ∈ put E a (A ++ (nodeBar ns ++ B)) b → WF N ns b x := fun b hb x hx => by
    apply h.wf b hb
    by_cases e : b = a
    · subst e
      rw [put_same] at hx ⊢
      rcases List.mem_append.1 hx with hx | hx
      · exact List.mem_append_left _ hx
      · exact List.mem_append_right _ (List.mem_append_right _ hx)
    · rw [put_other _ _ e] at hx ⊢
      exact hx
  have hcode : ∀ p, ∃ l, p < N * ns → Codes ns (put E a (A ++ (nodeBar ns ++ B)) (p / ns)) (put ws a (wa ++ (nodeWs ns ++ wb)) (p / ns)) (p % ns) l :=
    fun p => by
      by_cases hp : p < N * ns
      · obtain ⟨l, hl⟩ := codes_exist (ns := ns) (r := p % ns) (E := put E a (A ++ (nodeBar ns ++ B)) (p / ns))
          (ws := put ws a (wa ++ (nodeWs ns ++ wb)) (p / ns)) (by
            rw [share_count (hwf _ (div_lt hp)), hlen _ (div_lt hp)])
        exact ⟨l, fun _ => hl⟩
      · exact ⟨[], fun h => absurd h hp⟩
  choose prog' hprog' using hcode
  refine ⟨prog', hlen, ?_, hwf, ?_, ?_, ?_, fun p hp part c hpart => hprog' p hp part c hpart, ?_⟩
  · intro b hb w hw
    apply h.part b hb
    by_cases e : b = a
    · subst e
      rw [put_same] at hw ⊢
      rcases List.mem_append.1 hw with hw | hw
      · exact List.mem_append_left _ hw
      · exact List.mem_append_right _ (List.mem_append_right _ hw)
    · rw [put_other _ _ e] at hw ⊢
      exact hw
  · intro b hb V c hV
    have := h.ord b hb
    by_cases e : b = a
    · subst e
      rw [put_same] at hV ⊢
      rw [put_same, put_same] at this
      exact ordered_undouble hb hl this hV
    · rw [put_other _ _ e] at hV ⊢
      rw [put_other _ _ e, put_other _ _ e] at this
      exact this V c hV
  · intro b hb
    have := h.waits b hb
    by_cases e : b = a
    · subst e
      rw [put_same, put_same] at this ⊢
      exact sealed_undouble hl this
    · rw [put_other _ _ e, put_other _ _ e] at this ⊢
      exact this
  · intro b q hb hq hne
    have := h.tags b q hb hq hne
    have e1 : ∀ b q, sendTags q (put E a (A ++ (nodeBar ns ++ (nodeBar ns ++ B))) b) = sendTags q (put E a (A ++ (nodeBar ns ++ B)) b) := fun b q => by
      by_cases e : b = a
      · subst e
        rw [put_same, put_same, sendTags_append q A, sendTags_append q A, (tags_bar q ns (nodeBar ns ++ B)).1]
      · rw [put_other _ _ e, put_other _ _ e]
    have e2 : ∀ b q, recvTags q (put E a (A ++ (nodeBar ns ++ (nodeBar ns ++ B))) b) = recvTags q (put E a (A ++ (nodeBar ns ++ B)) b) := fun b q => by
      by_cases e : b = a
      · subst e
        rw [put_same, put_same, recvTags_append q A, recvTags_append q A, (tags_bar q ns (nodeBar ns ++ B)).2]
      · rw [put_other _ _ e, put_other _ _ e]
    rwa [e1, e2] at this
  · obtain ⟨k, e, h1, h2, h3⟩ := h.run
    obtain ⟨k', f', g1, g2⟩ := run_strip h1 (fun b => (put E a (A ++ (nodeBar ns ++ B)) b).map Prod.snd) fun b => by
      show Thin ((put E a _ b).map Prod.snd) _
      by_cases e : b = a
      · subst e
        rw [put_same, put_same, List.map_append, List.map_append (l₁ := A)]
        apply thin_left
        rw [List.map_append]
        have : (nodeBar ns).map Prod.snd = List.replicate (K ns) Instr.barrier := List.map_replicate ..
        rw [this]
        exact thin_bars _ (thin_refl _)
      · rw [put_other _ _ e, put_other _ _ e]
        exact thin_refl _
    refine ⟨k', _, g1, fun t ht => ?_, fun mem hm => h3 mem hm⟩
    obtain ⟨q1, q2⟩ := h2 t ht
    refine ⟨?_, q2⟩
    have := g2 t
    rw [q1] at this
    show f' t = []
    generalize f' t = l at this
    cases this
    rfl

end ExtMpi.Cluster
