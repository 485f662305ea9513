import Verif.Lemmas.RawCodeRun
import Mathlib.Data.List.Nodup
/-! # Building blocks of executions -/
namespace ExtMpi.RawCode

variable {X : Type} [Add X]

/-- Some execution without buffering. -/
def Reach (N : Nat) (s s' : State X) : Prop := ∃ n, URun N n s s'

theorem Reach.refl (N : Nat) (s : State X) : Reach N s s := ⟨0, .refl⟩

theorem Reach.trans {N : Nat} {s s1 s2 : State X} (h1 : Reach N s s1) (h2 : Reach N s1 s2) : Reach N s s2 := by
  obtain ⟨j, h1⟩ := h1
  obtain ⟨k, h2⟩ := h2
  exact ⟨j + k, h1.trans h2⟩

theorem Reach.single {N : Nat} {l : Lab} {s s' : State X} (hu : Unbuffered l s) (hl : Delayed l s) (h : Step N l s s') :
    Reach N s s' :=
  ⟨1, .step hu hl h .refl⟩

/-- Executions of one process on its own. -/
inductive LRun : Proc X → Proc X → Prop
  | refl {p} : LRun p p
  | step {p p1 p2} : LStep p p1 → LRun p1 p2 → LRun p p2

theorem LRun.trans {p p1 p2 : Proc X} (h1 : LRun p p1) (h2 : LRun p1 p2) : LRun p p2 := by
  induction h1 with
  | refl => exact h2
  | step h _ ih => exact .step h (ih h2)

theorem LRun.lift {N t : Nat} {p p' : Proc X} (h : LRun p p') (ht : t < N) :
    ∀ s : State X, s.proc t = p → Reach N s ⟨setProc s.proc t p', s.chan⟩ := by
  induction h with
  | @refl p =>
    intro s hs
    have : (⟨setProc s.proc t p, s.chan⟩ : State X) = s := by
      have : setProc s.proc t p = s.proc := by
        funext k
        unfold setProc
        split
        · next h => rw [h, hs]
        · rfl
      rw [this]
    rw [this]
    exact .refl N s
  | @step p p1 p2 h _ ih =>
    intro s hs
    have h1 := ih ⟨setProc s.proc t p1, s.chan⟩ (setProc_same _ _ _)
    dsimp only at h1
    rw [setProc_setProc] at h1
    refine Reach.trans (Reach.single (l := .loc t) trivial trivial (Step.loc ht ?_)) h1
    rw [hs]; exact h

theorem lift_all {N : Nat} (s : State X) (P : Nat → Proc X) (h : ∀ t, t < N → LRun (s.proc t) (P t)) :
    ∃ s', Reach N s s' ∧ s'.chan = s.chan ∧ ∀ t, t < N → s'.proc t = P t := by
  have key : ∀ K, K ≤ N → ∃ s', Reach N s s' ∧ s'.chan = s.chan ∧ (∀ t, t < K → s'.proc t = P t) ∧
      ∀ t, K ≤ t → s'.proc t = s.proc t := by
    intro K
    induction K with
    | zero => intro _; exact ⟨s, .refl N s, rfl, fun t h => absurd h (by omega), fun _ _ => rfl⟩
    | succ K ih =>
      intro hK
      obtain ⟨s1, h1, h2, h3, h4⟩ := ih (by omega)
      refine ⟨⟨setProc s1.proc K (P K), s1.chan⟩,
        h1.trans ((h K (by omega)).lift (by omega) s1 (h4 K (by omega))), h2, fun t ht => ?_, fun t ht => ?_⟩
      · dsimp only
        by_cases e : t = K
        · subst e; rw [setProc_same]
        · rw [setProc_ne _ _ _ _ e]; exact h3 t (by omega)
      · dsimp only
        rw [setProc_ne _ _ _ _ (by omega)]; exact h4 t (by omega)
  obtain ⟨s', h1, h2, h3, _⟩ := key N (Nat.le_refl N)
  exact ⟨s', h1, h2, h3⟩

/-! ## Exchange of the messages -/

/-- The address belongs to the interval. -/
def inside (r : Reg) (i : Nat) (a : Addr) (n : Nat) : Prop := r = a.reg ∧ a.off ≤ i ∧ i < a.off + n

theorem getElem_readMem (m : Mem X) (a : Addr) (n i : Nat) (h : i < (readMem m a n).length) :
    (readMem m a n)[i] = m a.reg (a.off + i) := by
  simp [readMem]

theorem length_readMem (m : Mem X) (a : Addr) (n : Nat) : (readMem m a n).length = n := by
  unfold readMem
  rw [List.length_map, List.length_range]

/-- State during the exchange: the messages of the pairs in `D` have been moved. -/
structure Moved (N : Nat) (s : State X) (D : Nat → Nat → Prop) (s' : State X) : Prop where
  chan : ∀ q t, s'.chan q t = []
  rest : ∀ t, t < N → (s'.proc t).rest = (s.proc t).rest
  own : ∀ t q, t < N → q = t ∨ N ≤ q →
    (s'.proc t).recvs q = (s.proc t).recvs q ∧ (s'.proc t).sends q = (s.proc t).sends q
  todo : ∀ q t, q < N → t < N → q ≠ t → ¬D q t →
    (s'.proc q).sends t = (s.proc q).sends t ∧ (s'.proc t).recvs q = (s.proc t).recvs q
  done : ∀ q t, q < N → t < N → q ≠ t → D q t → (s'.proc q).sends t = [] ∧ (s'.proc t).recvs q = []
  data : ∀ q t a b n, q < N → t < N → q ≠ t → D q t → (s.proc q).sends t = [(a, n)] → (s.proc t).recvs q = [(b, n)] →
    ∀ i, i < n → (s'.proc t).mem b.reg (b.off + i) = (s.proc q).mem a.reg (a.off + i)
  keep : ∀ t r i, t < N → (∀ q x, x ∈ (s.proc t).recvs q → ¬inside r i x.1 x.2) →
    (s'.proc t).mem r i = (s.proc t).mem r i

/-- Sends and receives match one to one. -/
def Paired (N : Nat) (s : State X) : Prop :=
  ∀ q t, q < N → t < N → q ≠ t →
    ((s.proc q).sends t = [] ∧ (s.proc t).recvs q = []) ∨
    ∃ a b n, (s.proc q).sends t = [(a, n)] ∧ (s.proc t).recvs q = [(b, n)]

theorem pop_singleton (f : Nat → List (Addr × Nat)) (q : Nat) (x : Addr × Nat) (h : f q = [x]) : pop f q q = [] := by
  simp [pop, h]

theorem Moved.move {N : Nat} {s s' : State X} {D : Nat → Nat → Prop} (h : Moved N s D s') (hp : Paired N s)
    (hs : ∀ t, t < N → Sep (s.proc t)) (hw : ∀ t, t < N → ∃ r, (s.proc t).rest = .waitall :: r) (q t : Nat) (hq : q < N) (ht : t < N) (hne : q ≠ t) (hD : ¬D q t) :
    ∃ s'', Reach N s' s'' ∧ Moved N s (fun q' t' => D q' t' ∨ q' = q ∧ t' = t) s'' := by
  rcases hp q t hq ht hne with ⟨e1, e2⟩ | ⟨a, b, n, e1, e2⟩
  · refine ⟨s', .refl N s', h.chan, h.rest, h.own, ?_, ?_, ?_, h.keep⟩
    · intro q' t' hq' ht' hne' hD'
      exact h.todo q' t' hq' ht' hne' fun g => hD' (.inl g)
    · intro q' t' hq' ht' hne' hD'
      rcases hD' with hD' | ⟨rfl, rfl⟩
      · exact h.done q' t' hq' ht' hne' hD'
      · rw [(h.todo q' t' hq' ht' hne' hD).1, (h.todo q' t' hq' ht' hne' hD).2]
        exact ⟨e1, e2⟩
    · intro q' t' a b n hq' ht' hne' hD' g1 g2
      rcases hD' with hD' | ⟨rfl, rfl⟩
      · exact h.data q' t' a b n hq' ht' hne' hD' g1 g2
      · rw [e1] at g1; exact absurd g1.symm (List.cons_ne_nil _ _)
  · obtain ⟨f1, f2⟩ := h.todo q t hq ht hne hD
    have g1 := f1.trans e1
    have g2 := f2.trans e2
    -- the data are those of the start
    have hmsg : readMem (s'.proc q).mem a n = readMem (s.proc q).mem a n := by
      unfold readMem
      apply List.map_congr_left
      intro i hi
      rw [List.mem_range] at hi
      apply h.keep q _ _ hq
      intro q' x hx hin
      exact (hs q hq).rs q' t x (a, n) hx (by rw [e1]; exact List.mem_cons_self) ⟨hin.1.symm, by
        have := hin.2; dsimp only at this ⊢; omega, by
        have := hin.2; dsimp only at this ⊢; omega⟩
    obtain ⟨p1, hp1⟩ : ∃ p1, p1 = { s'.proc q with sends := pop (s'.proc q).sends t } := ⟨_, rfl⟩
    obtain ⟨p2, hp2⟩ : ∃ p2, p2 = { s'.proc t with
      mem := writeMem (s'.proc t).mem b (readMem (s.proc q).mem a n), recvs := pop (s'.proc t).recvs q } := ⟨_, rfl⟩
    obtain ⟨s1, hs1⟩ : ∃ s1 : State X, s1 = ⟨setProc s'.proc q p1,
      setChan s'.chan q t [readMem (s.proc q).mem a n]⟩ := ⟨_, rfl⟩
    obtain ⟨s2, hs2⟩ : ∃ s2 : State X, s2 = ⟨setProc (setProc s'.proc q p1) t p2,
      setChan (setChan s'.chan q t [readMem (s.proc q).mem a n]) q t []⟩ := ⟨_, rfl⟩
    have st1 : Step N (.depart q t) s' s1 := by
      refine .depart' hq ht hne g1 ?_ ?_
      · rw [hs1, hp1]
      · rw [hs1, h.chan q t, hmsg]; rfl
    have st2 : Step N (.arrive q t) s1 s2 := by
      refine .arrive' (msg := readMem (s.proc q).mem a n) (ms := []) (a := b) (r := []) hq ht hne ?_ ?_ ?_ ?_
      · rw [hs1]; dsimp only; rw [setChan_same]
      · rw [hs1]; dsimp only; rw [setProc_ne _ _ _ _ hne.symm, g2, length_readMem]
      · rw [hs2, hs1]; dsimp only; rw [setProc_ne _ _ _ _ hne.symm, hp2]
      · rw [hs2, hs1]
    have hu1 : Unbuffered (.depart q t) s' := ⟨h.chan q t, by rw [g2]; exact List.cons_ne_nil _ _⟩
    have pt : s2.proc t = p2 := by rw [hs2]; exact setProc_same _ _ _
    have pq : s2.proc q = p1 := by
      rw [hs2]; dsimp only; rw [setProc_ne _ _ _ _ hne, setProc_same]
    have pk : ∀ k, k ≠ q → k ≠ t → s2.proc k = s'.proc k := by
      intro k k1 k2
      rw [hs2]; dsimp only; rw [setProc_ne _ _ _ _ k2, setProc_ne _ _ _ _ k1]
    -- the fields of the new state
    have hrest : ∀ k, (s2.proc k).rest = (s'.proc k).rest := by
      intro k
      by_cases k1 : k = t
      · subst k1; rw [pt, hp2]
      · by_cases k2 : k = q
        · subst k2; rw [pq, hp1]
        · rw [pk k k2 k1]
    have hsends : ∀ k l, ¬(k = q ∧ l = t) → (s2.proc k).sends l = (s'.proc k).sends l := by
      intro k l hkl
      by_cases k1 : k = t
      · subst k1; rw [pt, hp2]
      · by_cases k2 : k = q
        · subst k2; rw [pq, hp1]; dsimp only
          rw [pop_ne]; exact fun e => hkl ⟨rfl, e⟩
        · rw [pk k k2 k1]
    have hrecvs : ∀ k l, ¬(k = t ∧ l = q) → (s2.proc k).recvs l = (s'.proc k).recvs l := by
      intro k l hkl
      by_cases k1 : k = t
      · subst k1; rw [pt, hp2]; dsimp only
        rw [pop_ne]; exact fun e => hkl ⟨rfl, e⟩
      · by_cases k2 : k = q
        · subst k2; rw [pq, hp1]
        · rw [pk k k2 k1]
    have hmem : ∀ k, k ≠ t → (s2.proc k).mem = (s'.proc k).mem := by
      intro k k1
      by_cases k2 : k = q
      · subst k2; rw [pq, hp1]
      · rw [pk k k2 k1]
    have hw1 : Delayed (.depart q t) s' := by
      obtain ⟨r, hr⟩ := hw q hq
      exact ⟨r, (h.rest q hq).trans hr⟩
    have hw2 : Delayed (.arrive q t) s1 := by
      obtain ⟨r, hr⟩ := hw t ht
      refine ⟨r, ?_⟩
      rw [hs1]
      dsimp only
      rw [setProc_ne _ _ _ _ hne.symm]
      exact (h.rest t ht).trans hr
    refine ⟨s2, (Reach.single hu1 hw1 st1).trans (Reach.single (l := .arrive q t) trivial hw2 st2), ?_, ?_, ?_, ?_, ?_, ?_, ?_⟩
    · intro k l
      rw [hs2]; dsimp only; rw [setChan_setChan]
      by_cases e : k = q ∧ l = t
      · rw [e.1, e.2, setChan_same]
      · rw [setChan_ne _ _ _ _ _ _ e]; exact h.chan k l
    · intro k hk; rw [hrest]; exact h.rest k hk
    · intro k l hk hl
      rw [hrecvs k l (by rintro ⟨r1, r2⟩; omega), hsends k l (by rintro ⟨r1, r2⟩; omega)]
      exact h.own k l hk hl
    · intro q' t' hq' ht' hne' hD'
      have h1 : ¬(q' = q ∧ t' = t) := fun g => hD' (.inr g)
      rw [hsends q' t' h1, hrecvs t' q' fun g => h1 ⟨g.2, g.1⟩]
      exact h.todo q' t' hq' ht' hne' fun g => hD' (.inl g)
    · intro q' t' hq' ht' hne' hD'
      by_cases h1 : q' = q ∧ t' = t
      · obtain ⟨rfl, rfl⟩ := h1
        rw [pq, pt, hp1, hp2]
        exact ⟨pop_singleton _ _ _ g1, pop_singleton _ _ _ g2⟩
      · rw [hsends q' t' h1, hrecvs t' q' fun g => h1 ⟨g.2, g.1⟩]
        exact h.done q' t' hq' ht' hne' (hD'.resolve_right h1)
    · intro q' t' a' b' n' hq' ht' hne' hD' r1 r2 i hi
      by_cases h1 : q' = q ∧ t' = t
      · obtain ⟨rfl, rfl⟩ := h1
        rw [e1] at r1
        rw [e2] at r2
        simp only [List.cons.injEq, Prod.mk.injEq, and_true] at r1 r2
        obtain ⟨rfl, rfl⟩ := r1
        obtain ⟨rfl, _⟩ := r2
        rw [pt, hp2]
        dsimp only
        rw [writeMem_in _ _ _ _ _ ⟨rfl, by omega, by rw [length_readMem]; omega⟩, getElem_readMem]
        congr 1; omega
      · have hD'' := hD'.resolve_right h1
        by_cases k1 : t' = t
        · subst k1
          rw [pt, hp2]
          dsimp only
          rw [writeMem_out]
          · exact h.data q' t' a' b' n' hq' ht' hne' hD'' r1 r2 i hi
          · rintro ⟨w1, w2, w3⟩
            rw [length_readMem] at w3
            exact (hs t' ht).rr q q' (b, n) (b', n') (fun e => h1 ⟨e.symm, rfl⟩)
              (by rw [e2]; exact List.mem_cons_self) (by rw [r2]; exact List.mem_cons_self)
              ⟨w1.symm, by dsimp only; omega, by dsimp only; omega⟩
        · rw [hmem t' k1]
          exact h.data q' t' a' b' n' hq' ht' hne' hD'' r1 r2 i hi
    · intro k r i hk hr
      by_cases k1 : k = t
      · subst k1
        rw [pt, hp2]
        dsimp only
        rw [writeMem_out]
        · exact h.keep k r i hk hr
        · rw [length_readMem]
          exact hr q (b, n) (by rw [e2]; exact List.mem_cons_self)
      · rw [hmem k k1]; exact h.keep k r i hk hr

/-- All messages can be moved without buffering while all processes wait for them. -/
theorem exchange {N : Nat} (s : State X) (hp : Paired N s) (hs : ∀ t, t < N → Sep (s.proc t))
    (hw : ∀ t, t < N → ∃ r, (s.proc t).rest = .waitall :: r) (hc : ∀ q t, s.chan q t = []) :
    ∃ s', Reach N s s' ∧ Moved N s (fun _ _ => True) s' := by
  have start : Moved N s (fun _ _ => False) s :=
    ⟨hc, fun _ _ => rfl, fun _ _ _ _ => ⟨rfl, rfl⟩, fun _ _ _ _ _ _ => ⟨rfl, rfl⟩,
      fun _ _ _ _ _ h => h.elim, fun _ _ _ _ _ _ _ _ h => h.elim, fun _ _ _ _ _ => rfl⟩
  have weaken : ∀ {D D' : Nat → Nat → Prop} {s' : State X}, Moved N s D s' →
      (∀ q t, q < N → t < N → q ≠ t → (D q t ↔ D' q t)) → Moved N s D' s' := by
    intro D D' s' h hD
    exact ⟨h.chan, h.rest, h.own, fun q t hq ht hne g => h.todo q t hq ht hne fun g' => g ((hD q t hq ht hne).1 g'),
      fun q t hq ht hne g => h.done q t hq ht hne ((hD q t hq ht hne).2 g),
      fun q t a b n hq ht hne g => h.data q t a b n hq ht hne ((hD q t hq ht hne).2 g), h.keep⟩
  have key : ∀ L : List (Nat × Nat), ∃ s', Reach N s s' ∧ Moved N s (fun q t => (q, t) ∈ L) s' := by
    intro L
    induction L with
    | nil => exact ⟨s, .refl N s, weaken start fun _ _ _ _ _ => by simp⟩
    | cons x L ih =>
      obtain ⟨s1, h1, h2⟩ := ih
      obtain ⟨q, t⟩ := x
      by_cases hx : (q < N ∧ t < N ∧ q ≠ t) ∧ (q, t) ∉ L
      · obtain ⟨⟨hq, ht, hne⟩, hm⟩ := hx
        obtain ⟨s2, h3, h4⟩ := h2.move hp hs hw q t hq ht hne hm
        refine ⟨s2, h1.trans h3, weaken h4 fun q' t' _ _ _ => ?_⟩
        rw [List.mem_cons, Prod.mk.injEq, or_comm]
      · refine ⟨s1, h1, weaken h2 fun q' t' hq' ht' hne' => ?_⟩
        rw [List.mem_cons, Prod.mk.injEq]
        constructor
        · exact .inr
        · rintro (⟨rfl, rfl⟩ | h)
          · by_contra hm
            exact hx ⟨⟨hq', ht', hne'⟩, hm⟩
          · exact h
  obtain ⟨s', h1, h2⟩ := key ((List.range N).flatMap fun q => (List.range N).map fun t => (q, t))
  refine ⟨s', h1, weaken h2 fun q t hq ht _ => ?_⟩
  simp [hq, ht]

end ExtMpi.RawCode
