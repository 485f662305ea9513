import Verif.Lemmas.SocketsSkel
import Verif.Lemmas.RawCodeRun
import Verif.Lemmas.OnNodeTree
/-! Copies between segments do what messages do. -/
namespace ExtMpi.Sockets
open RawCode

variable {X : Type} [AddCommMonoid X]

/-! ### Memory -/

def okReg (r : Reg) : Prop := ∀ k, r = .shm k → k = 0

theorem own_inj {t t' : Nat} {r r' : Reg} {x x' : Nat} (hr : okReg r) (hr' : okReg r') (h : own t r x = own t' r' x') :
    t = t' ∧ r = r' ∧ x = x' := by
  cases r with
  | send => cases r' <;> simp_all [own]
  | recv => cases r' <;> simp_all [own]
  | shm k =>
    cases r' with
    | send => simp [own] at h
    | recv => simp [own] at h
    | shm k' =>
      simp only [own, OnNode.Cell.shm.injEq] at h
      rw [hr k rfl, hr' k' rfl]
      exact ⟨h.1, rfl, h.2⟩

theorem holds_iff {n : Nat} {mem : Nat → Mem X} {M : OnNode.Cell → X} :
    Holds n mem M ↔ ∀ t, t < n → ∀ r x, okReg r → M (own t r x) = mem t r x := by
  constructor
  · intro h t ht r x hr
    obtain ⟨h1, h2, h3⟩ := h t ht x
    cases r with
    | send => exact h2
    | recv => exact h3
    | shm k => rw [hr k rfl]; exact h1
  · intro h t ht x
    exact ⟨h t ht (.shm 0) x (by intro k hk; injection hk with hk; exact hk.symm), h t ht .send x (by intro k hk; cases hk),
      h t ht .recv x (by intro k hk; cases hk)⟩

theorem cell_own {n t : Nat} {a : Addr} (ht : t < n) (ha : okReg a.reg) (i : Nat) : cell n t a i = own t a.reg (a.off + i) := by
  obtain ⟨r, o⟩ := a
  cases r with
  | send => rfl
  | recv => rfl
  | shm k =>
    have : k = 0 := ha k rfl
    subst this
    show OnNode.Cell.shm ((t + n - 0) % n) (o + i) = .shm t (o + i)
    rw [Nat.sub_zero, Nat.add_mod_right, Nat.mod_eq_of_lt ht]

theorem cell_segment {n t q : Nat} {b : Addr} (ht : t < n) (hq : q < n) (hb : b.reg = .shm 0) (i : Nat) :
    cell n t (segment ((n + t - q) % n) b) i = own q b.reg (b.off + i) := by
  obtain ⟨r, o⟩ := b
  subst hb
  show OnNode.Cell.shm ((t + n - (n + t - q) % n) % n) (o + i) = .shm q (o + i)
  congr 1
  by_cases h : q ≤ t
  · rw [show n + t - q = n + (t - q) by omega, Nat.add_mod_left, Nat.mod_eq_of_lt (a := t - q) (by omega),
      show t + n - (t - q) = n + q by omega, Nat.add_mod_left, Nat.mod_eq_of_lt hq]
  · rw [Nat.mod_eq_of_lt (a := n + t - q) (by omega), show t + n - (n + t - q) = q by omega, Nat.mod_eq_of_lt hq]

def es (red : Bool) (D S : Nat → OnNode.Cell) (k : Nat) : List OnNode.Elem :=
  (List.range k).map fun i => ⟨red, D i, S i⟩

theorem run_es_out {red : Bool} {D S : Nat → OnNode.Cell} {k : Nat} {c : OnNode.Cell} (M : OnNode.Cell → X)
    (h : ∀ i, i < k → D i ≠ c) : OnNode.runElems (es red D S k) M c = M c := by
  apply OnNode.runElems_other
  intro e he
  obtain ⟨i, hi, rfl⟩ := List.mem_map.1 he
  exact h i (List.mem_range.1 hi)

theorem run_es_in {red : Bool} {D S : Nat → OnNode.Cell} {k i : Nat} (M : OnNode.Cell → X)
    (hD : ∀ i j, i < k → j < k → D i = D j → i = j) (hS : ∀ i j, i < k → j < k → D i ≠ S j) (hi : i < k) :
    OnNode.runElems (es red D S k) M (D i) = if red then M (D i) + M (S i) else M (S i) := by
  induction k with
  | zero => omega
  | succ k ih =>
    have he : es red D S (k + 1) = es red D S k ++ [⟨red, D k, S k⟩] := by simp [es, List.range_succ]
    rw [he, OnNode.runElems_append]
    show OnNode.accessed red (D k) (S k) _ (D i) = _
    unfold OnNode.accessed
    by_cases hik : i = k
    · subst hik
      rw [if_pos rfl, run_es_out M (fun j hj h => by have := hD j i (by omega) (by omega) h; omega),
        run_es_out M (fun j hj => hS j i (by omega) (by omega))]
    · rw [if_neg (fun h => hik (hD i k (by omega) (by omega) h))]
      exact ih (fun i j hi hj => hD i j (by omega) (by omega)) (fun i j hi hj => hS i j (by omega) (by omega)) (by omega)

def lineElems (n t : Nat) : Instr → List OnNode.Elem
  | .copy red d s k => es red (cell n t d) (cell n t s) k
  | _ => []

theorem holds_copy {n t : Nat} {mem : Nat → Mem X} {M : OnNode.Cell → X} (hh : Holds n mem M) (ht : t < n) {red : Bool}
    {d s : Addr} {k : Nat} (hd : okReg d.reg) (hs : okReg s.reg) (ho : ¬overlap d k s k) :
    Holds n (Function.update mem t (copyMem red d s k (mem t))) (OnNode.runElems (lineElems n t (.copy red d s k)) M) := by
  rw [holds_iff] at hh ⊢
  have he : lineElems n t (.copy red d s k) = es red (fun i => own t d.reg (d.off + i)) (fun i => own t s.reg (s.off + i)) k := by
    show es red (cell n t d) (cell n t s) k = _
    rw [show cell n t d = _ from funext fun i => cell_own ht hd i, show cell n t s = _ from funext fun i => cell_own ht hs i]
  rw [he]
  intro t' ht' r x hr
  by_cases hin : t' = t ∧ r = d.reg ∧ d.off ≤ x ∧ x < d.off + k
  · obtain ⟨rfl, rfl, h1, h2⟩ := hin
    obtain ⟨i, rfl⟩ : ∃ i, x = d.off + i := ⟨x - d.off, by omega⟩
    have := run_es_in (red := red) (D := fun i => own t' d.reg (d.off + i)) (S := fun i => own t' s.reg (s.off + i)) (k := k) (i := i) M
      (fun i j _ _ h => by have := (own_inj hd hd h).2.2; omega)
      (fun i j hi hj h => by
        obtain ⟨_, h3, h4⟩ := own_inj hd hs h
        exact ho ⟨h3, by omega, by omega⟩) (by omega)
    rw [this, Function.update_self]
    have hc : copyMem red d s k (mem t') d.reg (d.off + i) = if red then mem t' d.reg (d.off + i) +
        mem t' s.reg (s.off + (d.off + i - d.off)) else mem t' s.reg (s.off + (d.off + i - d.off)) := by
      unfold copyMem
      rw [if_pos ⟨rfl, h1, h2⟩]
    rw [hc, hh t' ht' d.reg _ hd, hh t' ht' s.reg _ hs, Nat.add_sub_cancel_left]
  · rw [run_es_out, hh t' ht' r x hr]
    · by_cases h : t' = t
      · subst h
        rw [Function.update_self, copyMem_out]
        exact fun h => hin ⟨rfl, h⟩
      · rw [Function.update_of_ne h]
    · intro i hi h
      obtain ⟨h1, h2, h3⟩ := own_inj hd hr h
      exact hin ⟨h1.symm, h2.symm, by omega, by omega⟩

/-- A message that becomes a copy. -/
structure Del where
  t : Nat
  a : Addr
  b : Addr
  k : Nat
  q : Nat

structure Del.Ok (n : Nat) (d : Del) : Prop where
  t : d.t < n
  q : d.q < n
  ne : d.q ≠ d.t
  a : d.a.reg = .shm 0
  b : d.b.reg = .shm 0

def Del.line (n : Nat) (d : Del) : Instr := .copy false d.a (segment ((n + d.t - d.q) % n) d.b) d.k

def Del.elems (n : Nat) (d : Del) : List OnNode.Elem := lineElems n d.t (d.line n)

theorem okReg_shm {a : Addr} (h : a.reg = .shm 0) : okReg a.reg := by
  intro k hk; rw [h] at hk; injection hk with hk; exact hk.symm

theorem Del.elems_eq {n : Nat} {d : Del} (h : d.Ok n) :
    d.elems n = es false (fun i => own d.t d.a.reg (d.a.off + i)) (fun i => own d.q d.b.reg (d.b.off + i)) d.k := by
  show es false (cell n d.t d.a) (cell n d.t (segment ((n + d.t - d.q) % n) d.b)) d.k = _
  rw [show cell n d.t d.a = _ from funext fun i => cell_own h.t (okReg_shm h.a) i,
    show cell n d.t (segment ((n + d.t - d.q) % n) d.b) = _ from funext fun i => cell_segment h.t h.q h.b i]

def exch : List Del → (Nat → Mem X) → Nat → Mem X
  | [], m => m
  | d :: ds, m => exch ds (Function.update m d.t (writeMem (m d.t) d.a (readMem (m d.q) d.b d.k)))

theorem holds_del {n : Nat} {d : Del} (h : d.Ok n) {mem : Nat → Mem X} {M : OnNode.Cell → X} (hh : Holds n mem M) :
    Holds n (Function.update mem d.t (writeMem (mem d.t) d.a (readMem (mem d.q) d.b d.k))) (OnNode.runElems (d.elems n) M) := by
  rw [holds_iff] at hh ⊢
  rw [d.elems_eq h]
  have ha := okReg_shm h.a
  have hb := okReg_shm h.b
  have hlen : (readMem (mem d.q) d.b d.k).length = d.k := by simp [readMem]
  intro t' ht' r x hr
  by_cases hin : t' = d.t ∧ r = d.a.reg ∧ d.a.off ≤ x ∧ x < d.a.off + d.k
  · obtain ⟨rfl, rfl, h1, h2⟩ := hin
    obtain ⟨i, rfl⟩ : ∃ i, x = d.a.off + i := ⟨x - d.a.off, by omega⟩
    have := run_es_in (red := false) (D := fun i => own d.t d.a.reg (d.a.off + i)) (S := fun i => own d.q d.b.reg (d.b.off + i)) (k := d.k)
      (i := i) M (fun i j _ _ h => by have := (own_inj ha ha h).2.2; omega)
      (fun i j hi hj e => h.ne (own_inj ha hb e).1.symm) (by omega)
    rw [this, Function.update_self, writeMem_in _ _ _ _ _ ⟨rfl, h1, by omega⟩]
    simp only [readMem, List.getElem_map, List.getElem_range, Nat.add_sub_cancel_left]
    exact hh d.q h.q d.b.reg _ hb
  · rw [run_es_out, hh t' ht' r x hr]
    · by_cases e : t' = d.t
      · subst e
        rw [Function.update_self, writeMem_out]
        rw [hlen]
        exact fun e => hin ⟨rfl, e⟩
      · rw [Function.update_of_ne e]
    · intro i hi e
      obtain ⟨h1, h2, h3⟩ := own_inj ha hr e
      exact hin ⟨h1.symm, h2.symm, by omega, by omega⟩

theorem holds_exch {n : Nat} (D : List Del) (h : ∀ d ∈ D, d.Ok n) {mem : Nat → Mem X} {M : OnNode.Cell → X} (hh : Holds n mem M) :
    Holds n (exch D mem) (OnNode.runElems (D.flatMap (Del.elems n)) M) := by
  induction D generalizing mem M with
  | nil => exact hh
  | cons d D ih =>
    rw [List.flatMap_cons, OnNode.runElems_append]
    exact ih (fun d hd => h d (by simp [hd])) (holds_del (h d (by simp)) hh)

def locMem : List Instr → Mem X → Mem X
  | [], m => m
  | .copy r d s k :: ls, m => locMem ls (copyMem r d s k m)
  | _ :: ls, m => locMem ls m

theorem holds_locals {n t : Nat} (ht : t < n) (ls : List Instr) (hok : ∀ i ∈ ls, LineOk n t i)
    (ho : ∀ r d s k, Instr.copy r d s k ∈ ls → ¬overlap d k s k) {mem : Nat → Mem X} {M : OnNode.Cell → X} (hh : Holds n mem M) :
    Holds n (Function.update mem t (locMem ls (mem t))) (OnNode.runElems (ls.flatMap (lineElems n t)) M) := by
  induction ls generalizing mem M with
  | nil => simpa [locMem, OnNode.runElems] using hh
  | cons i ls ih =>
    have ih := @ih (fun i hi => hok i (by simp [hi])) (fun r d s k h => ho r d s k (by simp [h]))
    cases i with
    | copy r d s k =>
      have hl := hok _ (List.mem_cons_self ..)
      have h1 := holds_copy hh ht hl.1 hl.2 (ho r d s k (by simp)) (red := r)
      have h2 := ih h1
      rw [Function.update_self, Function.update_idem] at h2
      rw [List.flatMap_cons, OnNode.runElems_append]
      exact h2
    | irecv a k q => exact ih hh
    | isend a k q => exact ih hh
    | waitall => exact ih hh
    | barrier => exact ih hh

theorem holds_all {n : Nat} (ls : Nat → List Instr) (hok : ∀ t, t < n → ∀ i ∈ ls t, LineOk n t i)
    (ho : ∀ t, t < n → ∀ r d s k, Instr.copy r d s k ∈ ls t → ¬overlap d k s k) {mem : Nat → Mem X} {M : OnNode.Cell → X}
    (hh : Holds n mem M) : Holds n (fun t => locMem (ls t) (mem t))
      (OnNode.runElems ((List.range n).flatMap fun t => (ls t).flatMap (lineElems n t)) M) := by
  suffices h : ∀ j, j ≤ n → Holds n (fun t => if t < j then locMem (ls t) (mem t) else mem t)
      (OnNode.runElems ((List.range j).flatMap fun t => (ls t).flatMap (lineElems n t)) M) by
    intro t ht x
    have := h n (Nat.le_refl _) t ht x
    simpa [ht] using this
  intro j hj
  induction j with
  | zero => simpa [OnNode.runElems] using hh
  | succ j ih =>
    have h1 := holds_locals (t := j) (by omega) (ls j) (hok j (by omega)) (ho j (by omega)) (ih (by omega))
    rw [List.range_succ, List.flatMap_append, OnNode.runElems_append, List.flatMap_singleton]
    convert h1 using 1
    funext t
    by_cases e : t = j
    · subst e
      simp
    · rw [Function.update_of_ne e]
      by_cases h : t < j
      · rw [if_pos h, if_pos (by omega)]
      · rw [if_neg h, if_neg (by omega)]

/-! ### Messages -/

theorem mem_recvsFrom {q : Nat} {ls : List Instr} {x : Addr × Nat} : x ∈ recvsFrom q ls ↔ Instr.irecv x.1 x.2 q ∈ ls := by
  induction ls with
  | nil => simp [recvsFrom]
  | cons i ls ih =>
    cases i with
    | irecv a k p =>
      unfold recvsFrom
      split
      · next h => subst h; simp [ih, Prod.ext_iff]
      · next h => simp [ih, Ne.symm h]
    | _ => simp [recvsFrom, ih]

theorem mem_sendsTo {q : Nat} {ls : List Instr} {x : Addr × Nat} : x ∈ sendsTo q ls ↔ Instr.isend x.1 x.2 q ∈ ls := by
  induction ls with
  | nil => simp [sendsTo]
  | cons i ls ih =>
    cases i with
    | isend a k p =>
      unfold sendsTo
      split
      · next h => subst h; simp [ih, Prod.ext_iff]
      · next h => simp [ih, Ne.symm h]
    | _ => simp [sendsTo, ih]

theorem steps_trans {N k l : Nat} {s1 s2 s3 : State X} (h : Steps N k s1 s2) (h' : Steps N l s2 s3) : Steps N (k + l) s1 s3 := by
  induction h with
  | refl => simpa using h'
  | step hs _ ih =>
    rw [Nat.add_right_comm]
    exact .step hs (ih h')

theorem setProc_id (f : Nat → Proc X) (t : Nat) : setProc f t (f t) = f := by
  funext k
  unfold setProc
  split
  · next h => rw [h]
  · rfl

/-- A process after lines without wait. -/
def after (p : Proc X) (ls R : List Instr) : Proc X :=
  ⟨R, locMem ls p.mem, fun q => p.recvs q ++ recvsFrom q ls, fun q => p.sends q ++ sendsTo q ls⟩

theorem run_part {N t : Nat} (ht : t < N) (ls R : List Instr) (s : State X) (hs : ∀ k s', Steps N k s s' → Safe N s')
    (hw : ∀ i ∈ ls, i ≠ .waitall) (hr : (s.proc t).rest = ls ++ R) :
    (∃ k, Steps N k s ⟨setProc s.proc t (after (s.proc t) ls R), s.chan⟩) ∧
      ∀ r d c k, Instr.copy r d c k ∈ ls → ¬overlap d k c k := by
  induction ls generalizing s with
  | nil =>
    refine ⟨⟨0, ?_⟩, fun _ _ _ _ h => by cases h⟩
    have : after (s.proc t) [] R = s.proc t := by
      simp only [after, locMem, recvsFrom, sendsTo, List.append_nil]
      rw [← show (s.proc t).rest = R by simpa using hr]
    rw [this, setProc_id]
    exact .refl
  | cons i ls ih =>
    have hal := hs 0 s .refl t ht i (ls ++ R) hr
    have key : ∃ p1, LStep (s.proc t) p1 ∧ p1.rest = ls ++ R ∧ after p1 ls R = after (s.proc t) (i :: ls) R := by
      cases i with
      | copy r d c k =>
        refine ⟨_, .copy hr hal.1 hal.2.1 hal.2.2.1 hal.2.2.2, rfl, rfl⟩
      | irecv a k q =>
        refine ⟨_, .irecv hr hal.1 hal.2, rfl, ?_⟩
        unfold after
        congr 1
        funext q'
        simp only [push, recvsFrom]
        by_cases e : q' = q
        · subst e; simp
        · rw [if_neg e, if_neg (Ne.symm e)]
      | isend a k q =>
        refine ⟨_, .isend hr hal, rfl, ?_⟩
        unfold after
        congr 1
        funext q'
        simp only [push, sendsTo]
        by_cases e : q' = q
        · subst e; simp
        · rw [if_neg e, if_neg (Ne.symm e)]
      | waitall => exact absurd rfl (hw _ (by simp))
      | barrier => exact ⟨_, .barrier hr, rfl, rfl⟩
    obtain ⟨p1, hl, hr1, he⟩ := key
    have hst : Step N (.loc t) s ⟨setProc s.proc t p1, s.chan⟩ := .loc ht hl
    obtain ⟨⟨k, hk⟩, ho⟩ := ih ⟨setProc s.proc t p1, s.chan⟩ (fun k s' h => hs (k + 1) s' (.step hst h))
      (fun i hi => hw i (by simp [hi])) (by show (setProc s.proc t p1 t).rest = _; rw [setProc_same]; exact hr1)
    refine ⟨⟨k + 1, .step hst ?_⟩, ?_⟩
    · dsimp only at hk
      rwa [setProc_same, setProc_setProc, he] at hk
    · intro r d c k h
      rcases List.mem_cons.1 h with h | h
      · subst h; exact hal.1
      · exact ho r d c k h

/-- All processes one after the other. -/
theorem run_each {N : Nat} {s : State X} (new : Nat → Proc X)
    (h : ∀ t, t < N → ∀ k s', Steps N k s s' → s'.proc t = s.proc t → s'.chan = s.chan →
      ∃ l, Steps N l s' ⟨setProc s'.proc t (new t), s'.chan⟩) :
    ∃ k s', Steps N k s s' ∧ s'.chan = s.chan ∧ ∀ t, t < N → s'.proc t = new t := by
  suffices g : ∀ j, j ≤ N → ∃ k s', Steps N k s s' ∧ s'.chan = s.chan ∧ (∀ t, t < j → s'.proc t = new t) ∧
      ∀ t, j ≤ t → s'.proc t = s.proc t by
    obtain ⟨k, s', h1, h2, h3, _⟩ := g N (Nat.le_refl _)
    exact ⟨k, s', h1, h2, h3⟩
  intro j hj
  induction j with
  | zero => exact ⟨0, s, .refl, rfl, fun _ h => absurd h (by omega), fun _ _ => rfl⟩
  | succ j ih =>
    obtain ⟨k, s', h1, h2, h3, h4⟩ := ih (by omega)
    obtain ⟨l, hl⟩ := h j (by omega) k s' h1 (h4 j (Nat.le_refl _)) h2
    refine ⟨k + l, _, steps_trans h1 hl, h2, fun t ht => ?_, fun t ht => ?_⟩
    · by_cases e : t = j
      · subst e; exact setProc_same _ _ _
      · show setProc _ _ _ _ = _
        rw [setProc_ne _ _ _ _ e]; exact h3 t (by omega)
    · show setProc _ _ _ _ = _
      rw [setProc_ne _ _ _ _ (by omega)]; exact h4 t (by omega)

/-- State of `N` processes with nothing under way. -/
def At (N : Nat) (s : State X) (rest : Nat → List Instr) (mem : Nat → Mem X) (R S : Nat → Nat → List (Addr × Nat)) : Prop :=
  (∀ t, t < N → s.proc t = ⟨rest t, mem t, R t, S t⟩) ∧ s.chan = fun _ _ => []

theorem run_exch {N : Nat} {rest : Nat → List Instr} (D : List Del) (hn : (D.map fun d => (d.q, d.t)).Nodup) (hok : ∀ d ∈ D, d.Ok N)
    {s : State X} {mem : Nat → Mem X} {R S : Nat → Nat → List (Addr × Nat)} (h : At N s rest mem R S)
    (hp : ∀ d ∈ D, S d.q d.t = [(d.b, d.k)] ∧ R d.t d.q = [(d.a, d.k)]) :
    ∃ k s' R' S', Steps N k s s' ∧ At N s' rest (exch D mem) R' S' ∧
      (∀ t q, (R' t q = [] ∨ R' t q = R t q) ∧ (S' t q = [] ∨ S' t q = S t q)) ∧
      ∀ d ∈ D, R' d.t d.q = [] ∧ S' d.q d.t = [] := by
  induction D generalizing s mem R S with
  | nil => exact ⟨0, s, R, S, .refl, h, fun _ _ => ⟨.inr rfl, .inr rfl⟩, fun d hd => by cases hd⟩
  | cons d D ih =>
    obtain ⟨hS, hR⟩ := hp d (by simp)
    have ok := hok d (by simp)
    rw [List.map_cons, List.nodup_cons] at hn
    have hq := h.1 d.q ok.q
    have ht := h.1 d.t ok.t
    have hsend : (s.proc d.q).sends d.t = (d.b, d.k) :: [] := by rw [hq]; exact hS
    let s1 : State X := ⟨setProc s.proc d.q { s.proc d.q with sends := pop (s.proc d.q).sends d.t },
      setChan s.chan d.q d.t (s.chan d.q d.t ++ [readMem (s.proc d.q).mem d.b d.k])⟩
    let s2 : State X := ⟨setProc s1.proc d.t
      { s1.proc d.t with
        mem := writeMem (s1.proc d.t).mem d.a (readMem (mem d.q) d.b d.k), recvs := pop (s1.proc d.t).recvs d.q },
      setChan s1.chan d.q d.t []⟩
    have st1 : Step N (.depart d.q d.t) s s1 := .depart ok.q ok.t ok.ne hsend
    have hlen : (readMem (mem d.q) d.b d.k).length = d.k := by simp [readMem]
    have st2 : Step N (.arrive d.q d.t) s1 s2 := .arrive ok.q ok.t ok.ne (n := d.k) (r := [])
      (by show setChan s.chan d.q d.t (s.chan d.q d.t ++ [readMem (s.proc d.q).mem d.b d.k]) d.q d.t = _
          rw [setChan_same, h.2, hq]; rfl)
      (by show (setProc s.proc d.q _ d.t).recvs d.q = _
          rw [setProc_ne _ _ _ _ ok.ne.symm, ht]; exact hR) hlen
    let R1 : Nat → Nat → List (Addr × Nat) := fun t q => if t = d.t ∧ q = d.q then [] else R t q
    let S1 : Nat → Nat → List (Addr × Nat) := fun q t => if t = d.t ∧ q = d.q then [] else S q t
    have hne : ∀ e ∈ D, ¬(e.t = d.t ∧ e.q = d.q) := by
      intro e he hc
      exact hn.1 (List.mem_map.2 ⟨e, he, by rw [hc.1, hc.2]⟩)
    obtain ⟨k, s', R', S', h1, h2, h3, h4⟩ := ih hn.2 (fun d hd => hok d (by simp [hd]))
      (s := s2) (R := R1) (S := S1) (mem := Function.update mem d.t (writeMem (mem d.t) d.a (readMem (mem d.q) d.b d.k)))
      (show At N s2 rest _ R1 S1 from ⟨fun t htN => by
        dsimp only [s2, s1]
        by_cases e1 : t = d.t
        · subst e1
          rw [setProc_same, setProc_ne _ _ _ _ ok.ne.symm, ht, Function.update_self]
          simp only [R1, S1, Proc.mk.injEq, true_and]
          refine ⟨?_, ?_⟩
          · funext q
            simp only [pop]
            by_cases e2 : q = d.q
            · subst e2; simp [hR]
            · simp [e2]
          · funext q
            simp [ok.ne.symm]
        · rw [setProc_ne _ _ _ _ e1, Function.update_of_ne e1]
          by_cases e2 : t = d.q
          · subst e2
            rw [setProc_same, hq]
            simp only [R1, S1, Proc.mk.injEq, true_and]
            refine ⟨?_, ?_⟩
            · funext q; simp [e1]
            · funext q
              simp only [pop]
              by_cases e3 : q = d.t
              · subst e3; simp [hS]
              · simp [e3]
          · rw [setProc_ne _ _ _ _ e2, h.1 t htN]
            simp only [R1, S1, Proc.mk.injEq, true_and]
            refine ⟨?_, ?_⟩
            · funext q; simp [e1]
            · funext q; simp [e2], by
        dsimp only [s2, s1]
        rw [setChan_setChan, h.2]
        funext q t
        unfold setChan
        split <;> rfl⟩)
      (fun e he => by
        have := hp e (by simp [he])
        have hne := hne e he
        simp only [R1, S1, if_neg hne]
        exact this)
    refine ⟨k + 1 + 1, s', R', S', .step st1 (.step st2 h1), h2, fun t q => ?_, fun e he => ?_⟩
    · obtain ⟨ha, hb⟩ := h3 t q
      constructor
      · rcases ha with ha | ha
        · exact .inl ha
        · rw [ha]
          simp only [R1]
          split
          · exact .inl rfl
          · exact .inr rfl
      · rcases hb with hb | hb
        · exact .inl hb
        · rw [hb]
          simp only [S1]
          split
          · exact .inl rfl
          · exact .inr rfl
    · rcases List.mem_cons.1 he with rfl | he
      · obtain ⟨ha, _⟩ := h3 e.t e.q
        obtain ⟨_, hb⟩ := h3 e.q e.t
        constructor
        · rcases ha with ha | ha
          · exact ha
          · rw [ha]; simp [R1]
        · rcases hb with hb | hb
          · exact hb
          · rw [hb]; simp [S1]
      · exact h4 e he

end ExtMpi.Sockets
