import Mathlib.Tactic.ByContra
import Verif.Spec.Handles

/-!
# Properties C05, C30, C39: handles of persistent collectives
-/
namespace ExtMpi.Handles
open Spec

/-- Relation between the tables and the user's knowledge. -/
structure Inv (s : State) (L : Live) : Prop where
  even : s.max % 2 = 0
  big : 2 ≤ s.max
  bound : ∀ h c, L h = some c → s.alloc = true ∧ h + 1 < s.max ∧ h % 2 = 0
  code : ∀ h c, L h = some c → s.code h = some c.current
  code1 : ∀ h c, L h = some c → (s.code (h + 1)).isSome = c.alt.isSome ∧
    ∀ b, c.alt = some b → s.code (h + 1) = some (if c.starts % 2 = 1 then c.prog else b)
  dead : s.alloc = true → ∀ h, h % 2 = 0 → h < s.max → L h = none →
    s.code h = none ∧ s.code (h + 1) = none
  exec : ∀ h c, L h = some c → s.exec h = if c.running then some c.current else none
  execDead : s.alloc = true → ∀ h, h % 2 = 0 → h < s.max → L h = none → s.exec h = none

theorem upd_same {α : Type} (f : Nat → α) (i : Nat) (v : α) : upd f i v i = v := by simp [upd]
theorem upd_other {α : Type} (f : Nat → α) {i j : Nat} (v : α) (h : j ≠ i) :
    upd f i v j = f j := by simp [upd, h]

theorem scan_spec (code : Nat → Option Nat) (max : Nat) (hmax : max % 2 = 0) (hbig : 2 ≤ max) :
    ∀ fuel h, h % 2 = 0 → h ≤ max - 2 → max - h ≤ 2 * fuel →
    let r := scan code max fuel h
    r % 2 = 0 ∧ r ≤ max - 2 ∧ (code r = none ∨ r = max - 2) := by
  intro fuel
  induction fuel with
  | zero => intro h h0 hle hf; omega
  | succ f ih =>
    intro h h0 hle hf
    simp only [scan]
    split
    · next hc => exact ih (h + 2) (by omega) (by omega) (by omega)
    · next hc =>
      refine ⟨h0, hle, ?_⟩
      by_cases hlt : h < max - 2
      · left
        simp only [hlt, and_true] at hc
        simpa using hc
      · right; omega

theorem allocate_inv {s : State} {L : Live} (hi : Inv s L) :
    Inv (allocate s) L ∧ (allocate s).alloc = true := by
  unfold allocate
  by_cases ha : s.alloc = true
  · simp only [ha, if_true]; exact ⟨hi, trivial⟩
  · simp only [ha]
    have hnone : ∀ h c, L h = some c → False := fun h c hl => ha (hi.bound h c hl).1
    refine ⟨⟨hi.even, hi.big, ?_, ?_, ?_, ?_, ?_, ?_⟩, by simp⟩
    · intro h c hl; exact (hnone h c hl).elim
    · intro h c hl; exact (hnone h c hl).elim
    · intro h c hl; exact (hnone h c hl).elim
    · intro _ h _ _ _; exact ⟨rfl, rfl⟩
    · intro h c hl; exact (hnone h c hl).elim
    · intro _ h _ _ _; rfl

theorem getHandle_inv {s : State} {L : Live} (hi : Inv s L) :
    Inv (getHandle s).1 L ∧ (getHandle s).1.alloc = true ∧ (getHandle s).2 % 2 = 0 ∧
    (getHandle s).2 + 1 < (getHandle s).1.max ∧ L (getHandle s).2 = none := by
  obtain ⟨hi1, ha⟩ := allocate_inv hi
  unfold getHandle
  simp only
  generalize hs1 : allocate s = s1 at *
  have hscan := scan_spec s1.code s1.max hi1.even hi1.big s1.max 0 (by omega) (by omega) (by omega)
  simp only at hscan
  generalize scan s1.code s1.max s1.max 0 = h at *
  obtain ⟨he, hle, hfree⟩ := hscan
  have hev := hi1.even
  have hbig := hi1.big
  have hdeadL : s1.code h = none → L h = none := by
    intro hn
    by_contra hl
    obtain ⟨c, hc⟩ := Option.ne_none_iff_exists'.1 hl
    rw [hi1.code h c hc] at hn; simp at hn
  by_cases hocc : s1.code h = none
  · have : (if h ≥ s1.max - 2 then
        if (s1.code h).isSome then
          (({ s1 with
            max := s1.max * 2
            code := fun i => if i < s1.max then s1.code i else none
            exec := fun i => if i < s1.max then s1.exec i else none
            wait := fun i => if i < s1.max then s1.wait i else 0 } : State), h + 2)
        else (s1, h)
      else (s1, h)) = (s1, h) := by
      simp [hocc]
    rw [this]
    exact ⟨hi1, ha, he, by simp only; omega, hdeadL hocc⟩
  · have hlast : h = s1.max - 2 := by rcases hfree with h1 | h1; exact absurd h1 hocc; exact h1
    have hsome : (s1.code h).isSome = true := by
      rw [Option.isSome_iff_ne_none]; exact hocc
    rw [if_pos (by omega), if_pos hsome]
    refine ⟨⟨?_, ?_, ?_, ?_, ?_, ?_, ?_, ?_⟩, ha, by simp only; omega, by simp only; omega, ?_⟩
    · simp only; omega
    · simp only; omega
    · intro g c hl
      obtain ⟨h1, h2, h3⟩ := hi1.bound g c hl
      exact ⟨ha, by simp only; omega, h3⟩
    · intro g c hl
      have := (hi1.bound g c hl).2.1
      simp only [if_pos (show g < s1.max by omega)]
      exact hi1.code g c hl
    · intro g c hl
      have := (hi1.bound g c hl).2.1
      simp only [if_pos this]
      exact hi1.code1 g c hl
    · intro _ g hg hgm hl
      simp only at hgm ⊢
      by_cases hlt : g < s1.max
      · have hlt1 : g + 1 < s1.max := by omega
        simp only [if_pos hlt, if_pos hlt1]
        exact hi1.dead ha g hg hlt hl
      · simp only [if_neg hlt, if_neg (show ¬ g + 1 < s1.max by omega)]
        exact ⟨trivial, trivial⟩
    · intro g c hl
      have := (hi1.bound g c hl).2.1
      simp only [if_pos (show g < s1.max by omega)]
      exact hi1.exec g c hl
    · intro _ g hg hgm hl
      simp only at hgm ⊢
      by_cases hlt : g < s1.max
      · simp only [if_pos hlt]; exact hi1.execDead ha g hg hlt hl
      · simp only [if_neg hlt]
    · simp only
      by_contra hl
      obtain ⟨c, hc⟩ := Option.ne_none_iff_exists'.1 hl
      have := (hi1.bound _ c hc).2.1
      omega

theorem newColl_inv {s : State} {L : Live} (hi : Inv s L) (a : Nat) (alt : Option Nat) :
    L (newColl s a alt).2 = none ∧ (newColl s a alt).2 % 2 = 0 ∧
    Inv (newColl s a alt).1 (upd L (newColl s a alt).2 (some ⟨a, alt, 0, false⟩)) := by
  obtain ⟨hg, ha, he, hb, hl⟩ := getHandle_inv hi
  unfold newColl
  simp only
  generalize getHandle s = g at *
  obtain ⟨s1, h⟩ := g
  simp only at *
  refine ⟨hl, he, ?_⟩
  constructor
  · exact hg.even
  · exact hg.big
  · intro k c hk
    by_cases e : k = h
    · subst e; exact ⟨ha, hb, he⟩
    · rw [upd_other _ _ e] at hk; exact hg.bound k c hk
  · intro k c hk
    by_cases e : k = h
    · subst e
      rw [upd_same] at hk; injection hk with hk; subst hk
      simp only [upd_other _ _ (show k ≠ k + 1 by omega), upd_same]
      cases alt <;> simp [Coll.current]
    · rw [upd_other _ _ e] at hk
      have := (hg.bound k c hk).2.2
      simp only [upd_other _ _ (show k ≠ h + 1 by omega), upd_other _ _ e]
      exact hg.code k c hk
  · intro k c hk
    by_cases e : k = h
    · subst e
      rw [upd_same] at hk; injection hk with hk; subst hk
      simp only [upd_same, true_and]
      intro b hb'
      rw [hb']; simp
    · rw [upd_other _ _ e] at hk
      have := (hg.bound k c hk).2.2
      simp only [upd_other _ _ (show k + 1 ≠ h + 1 by omega), upd_other _ _ (show k + 1 ≠ h by omega)]
      exact hg.code1 k c hk
  · intro _ k hk hkm hdead
    by_cases e : k = h
    · subst e; rw [upd_same] at hdead; simp at hdead
    · rw [upd_other _ _ e] at hdead
      simp only [upd_other _ _ (show k ≠ h + 1 by omega), upd_other _ _ e,
        upd_other _ _ (show k + 1 ≠ h + 1 by omega), upd_other _ _ (show k + 1 ≠ h by omega)]
      exact hg.dead ha k hk hkm hdead
  · intro k c hk
    by_cases e : k = h
    · subst e
      rw [upd_same] at hk; injection hk with hk; subst hk
      simp only [Bool.false_eq_true, if_false]
      exact hg.execDead ha k he (by omega) hl
    · rw [upd_other _ _ e] at hk; exact hg.exec k c hk
  · intro _ k hk hkm hdead
    by_cases e : k = h
    · subst e; rw [upd_same] at hdead; simp at hdead
    · rw [upd_other _ _ e] at hdead; exact hg.execDead ha k hk hkm hdead

theorem current_start_none (c : Coll) (h : c.alt = none) :
    ({ c with starts := c.starts + 1, running := true } : Coll).current = c.current := by
  simp [Coll.current, h]

theorem start_ok {s : State} {L : Live} (hi : Inv s L) {h : Nat} {c : Coll} (hl : L h = some c) :
    ∃ s', start s h = some s' ∧
      Inv s' (upd L h (some { c with starts := c.starts + 1, running := true })) := by
  obtain ⟨ha, hb, he⟩ := hi.bound h c hl
  have hc := hi.code h c hl
  have hc1 := hi.code1 h c hl
  unfold start
  rw [if_pos (show s.InRange h from ⟨ha, hb⟩)]
  rcases (show c.alt = none ∨ ∃ b, c.alt = some b by cases c.alt <;> simp) with halt | ⟨b, halt⟩
  · have hnone : s.code (h + 1) = none := by
      have := hc1.1; rw [halt] at this; simpa using this
    simp only [hnone, Option.isSome_none, Bool.false_eq_true, if_false, hc]
    refine ⟨_, rfl, ?_⟩
    have hcur := current_start_none c halt
    constructor
    · exact hi.even
    · exact hi.big
    · intro k d hk
      by_cases e : k = h
      · subst e; exact ⟨ha, hb, he⟩
      · rw [upd_other _ _ e] at hk; exact hi.bound k d hk
    · intro k d hk
      by_cases e : k = h
      · subst e; rw [upd_same] at hk; injection hk with hk; subst hk
        simp only [hc, hcur]
      · rw [upd_other _ _ e] at hk; exact hi.code k d hk
    · intro k d hk
      by_cases e : k = h
      · subst e; rw [upd_same] at hk; injection hk with hk; subst hk
        simp only [hnone, halt]
        exact ⟨by simp, fun b hb => by simp at hb⟩
      · rw [upd_other _ _ e] at hk; exact hi.code1 k d hk
    · intro h0 k hk hkm hd
      by_cases e : k = h
      · subst e; rw [upd_same] at hd; simp at hd
      · rw [upd_other _ _ e] at hd; exact hi.dead h0 k hk hkm hd
    · intro k d hk
      by_cases e : k = h
      · subst e; rw [upd_same] at hk; injection hk with hk; subst hk
        simp only [upd_same, if_true, hcur]
      · rw [upd_other _ _ e] at hk; simp only [upd_other _ _ e]; exact hi.exec k d hk
    · intro h0 k hk hkm hd
      by_cases e : k = h
      · subst e; rw [upd_same] at hd; simp at hd
      · rw [upd_other _ _ e] at hd; simp only [upd_other _ _ e]; exact hi.execDead h0 k hk hkm hd
  · have hsome := hc1.2 b halt
    simp only [hsome, Option.isSome_some, if_true]
    simp only [upd_other _ _ (show h ≠ h + 1 by omega), upd_same]
    refine ⟨_, rfl, ?_⟩
    have hcur : ({ c with starts := c.starts + 1, running := true } : Coll).current =
        (if c.starts % 2 = 1 then c.prog else b) := by
      simp only [Coll.current, halt]
      by_cases hp : c.starts % 2 = 1
      · rw [if_neg (show ¬ (c.starts + 1) % 2 = 1 by omega), if_pos hp]
      · rw [if_pos (show (c.starts + 1) % 2 = 1 by omega), if_neg hp]
    constructor
    · exact hi.even
    · exact hi.big
    · intro k d hk
      by_cases e : k = h
      · subst e; exact ⟨ha, hb, he⟩
      · rw [upd_other _ _ e] at hk; exact hi.bound k d hk
    · intro k d hk
      by_cases e : k = h
      · subst e; rw [upd_same] at hk; injection hk with hk; subst hk
        rw [hcur]; simp only [upd_other _ _ (show k ≠ k + 1 by omega), upd_same]
      · rw [upd_other _ _ e] at hk
        have := (hi.bound k d hk).2.2
        simp only [upd_other _ _ (show k ≠ h + 1 by omega), upd_other _ _ e]
        exact hi.code k d hk
    · intro k d hk
      by_cases e : k = h
      · subst e; rw [upd_same] at hk; injection hk with hk; subst hk
        simp only [upd_same, hc, halt, Option.isSome_some, true_and]
        intro b' hb'
        injection hb' with hb'; subst hb'
        simp only [Coll.current, halt]
        by_cases hp : c.starts % 2 = 1
        · rw [if_neg (show ¬ (c.starts + 1) % 2 = 1 by omega), if_pos hp]
        · rw [if_pos (show (c.starts + 1) % 2 = 1 by omega), if_neg hp]
      · rw [upd_other _ _ e] at hk
        have := (hi.bound k d hk).2.2
        simp only [upd_other _ _ (show k + 1 ≠ h + 1 by omega), upd_other _ _ (show k + 1 ≠ h by omega)]
        exact hi.code1 k d hk
    · intro h0 k hk hkm hd
      by_cases e : k = h
      · subst e; rw [upd_same] at hd; simp at hd
      · rw [upd_other _ _ e] at hd
        simp only [upd_other _ _ (show k ≠ h + 1 by omega), upd_other _ _ e,
          upd_other _ _ (show k + 1 ≠ h + 1 by omega), upd_other _ _ (show k + 1 ≠ h by omega)]
        exact hi.dead h0 k hk hkm hd
    · intro k d hk
      by_cases e : k = h
      · subst e; rw [upd_same] at hk; injection hk with hk; subst hk
        simp only [upd_same, if_true]; rw [hcur]
      · rw [upd_other _ _ e] at hk
        have := (hi.bound k d hk).2.2
        simp only [upd_other _ _ (show k ≠ h + 1 by omega), upd_other _ _ e]
        exact hi.exec k d hk
    · intro h0 k hk hkm hd
      by_cases e : k = h
      · subst e; rw [upd_same] at hd; simp at hd
      · rw [upd_other _ _ e] at hd
        simp only [upd_other _ _ (show k ≠ h + 1 by omega), upd_other _ _ e]
        exact hi.execDead h0 k hk hkm hd

/-- Changing only the `running` flag of one handle together with its execution pointer. -/
theorem running_inv {s : State} {L : Live} (hi : Inv s L) {h : Nat} {c : Coll} (hl : L h = some c)
    (r : Bool) (w : Nat → Nat) (exec : Nat → Option Nat)
    (hex : exec h = if r then some c.current else none) (hoth : ∀ k, k ≠ h → exec k = s.exec k) :
    Inv { s with wait := w, exec := exec } (upd L h (some { c with running := r })) := by
  obtain ⟨ha, hb, he⟩ := hi.bound h c hl
  constructor
  · exact hi.even
  · exact hi.big
  · intro k d hk
    by_cases e : k = h
    · subst e; exact ⟨ha, hb, he⟩
    · rw [upd_other _ _ e] at hk; exact hi.bound k d hk
  · intro k d hk
    by_cases e : k = h
    · subst e; rw [upd_same] at hk; injection hk with hk; subst hk; exact hi.code k c hl
    · rw [upd_other _ _ e] at hk; exact hi.code k d hk
  · intro k d hk
    by_cases e : k = h
    · subst e; rw [upd_same] at hk; injection hk with hk; subst hk; exact hi.code1 k c hl
    · rw [upd_other _ _ e] at hk; exact hi.code1 k d hk
  · intro h0 k hk hkm hd
    by_cases e : k = h
    · subst e; rw [upd_same] at hd; simp at hd
    · rw [upd_other _ _ e] at hd; exact hi.dead h0 k hk hkm hd
  · intro k d hk
    by_cases e : k = h
    · subst e; rw [upd_same] at hk; injection hk with hk; subst hk; exact hex
    · rw [upd_other _ _ e] at hk; simp only [hoth k e]; exact hi.exec k d hk
  · intro h0 k hk hkm hd
    by_cases e : k = h
    · subst e; rw [upd_same] at hd; simp at hd
    · rw [upd_other _ _ e] at hd; simp only [hoth k e]; exact hi.execDead h0 k hk hkm hd

theorem wait_ok {s : State} {L : Live} (hi : Inv s L) {h : Nat} {c : Coll} (hl : L h = some c) :
    ∃ s', waitH s h = some s' ∧ Inv s' (upd L h (some { c with running := false })) ∧
      s'.code = s.code ∧ s'.max = s.max ∧ s'.alloc = s.alloc := by
  obtain ⟨ha, hb, he⟩ := hi.bound h c hl
  unfold waitH
  rw [if_pos (show s.InRange h from ⟨ha, hb⟩)]
  exact ⟨_, rfl, running_inv hi hl false _ _ (by simp [upd_same]) (fun k e => upd_other _ _ e),
    rfl, rfl, rfl⟩

theorem test_ok {s : State} {L : Live} (hi : Inv s L) {h : Nat} {c : Coll} (hl : L h = some c)
    (fin : Bool) :
    ∃ s', test s h fin = some (s', !(c.running && !fin)) ∧
      Inv s' (upd L h (some { c with running := c.running && !fin })) := by
  obtain ⟨ha, hb, he⟩ := hi.bound h c hl
  have hx := hi.exec h c hl
  unfold test
  rw [if_pos (show s.InRange h from ⟨ha, hb⟩)]
  simp only
  refine ⟨{ s with wait := upd s.wait h 1,
                   exec := if (s.exec h).isSome && fin then upd s.exec h none else s.exec }, ?_,
    running_inv hi hl (c.running && !fin) _ _ ?_ ?_⟩
  · cases hr : c.running <;> cases fin <;> rw [hr] at hx <;> simp [hx, upd_same]
  · cases hr : c.running <;> cases fin <;> rw [hr] at hx <;> simp [hx, upd_same]
  · intro k e
    split
    · rw [upd_other _ _ e]
    · rfl

theorem done_ok {s : State} {L : Live} (hi : Inv s L) {h : Nat} {c : Coll} (hl : L h = some c) :
    ∃ s', done s h = some s' ∧ Inv s' (upd L h none) := by
  obtain ⟨ha, hb, he⟩ := hi.bound h c hl
  obtain ⟨s1, hw, hi1, hcode, hmax, halloc⟩ := wait_ok hi hl
  have hx1 : s1.exec h = none := by
    have := hi1.exec h _ (upd_same L h _); simpa using this
  unfold done
  rw [hw]
  simp only
  rw [hcode, hi.code h c hl]
  simp only
  have hinv : ∀ al : Bool, (al = false → ∀ k, k < s1.max →
      upd (upd s1.code h none) (h + 1) none k = none) → (al = true → s1.alloc = true) →
      Inv { s1 with code := upd (upd s1.code h none) (h + 1) none, alloc := al } (upd L h none) := by
    intro al hal hal2
    have hlive : ∀ k d, upd L h none k = some d → k ≠ h ∧ L k = some d := by
      intro k d hk
      by_cases e : k = h
      · subst e; rw [upd_same] at hk; simp at hk
      · rw [upd_other _ _ e] at hk; exact ⟨e, hk⟩
    have hcodek : ∀ k, k % 2 = 0 → k ≠ h →
        upd (upd s1.code h none) (h + 1) none k = s.code k ∧
        upd (upd s1.code h none) (h + 1) none (k + 1) = s.code (k + 1) := by
      intro k hk e
      rw [upd_other _ _ (show k ≠ h + 1 by omega), upd_other _ _ e,
        upd_other _ _ (show k + 1 ≠ h + 1 by omega), upd_other _ _ (show k + 1 ≠ h by omega), hcode]
      exact ⟨rfl, rfl⟩
    constructor
    · exact hi1.even
    · exact hi1.big
    · intro k d hk
      obtain ⟨e, hk⟩ := hlive k d hk
      obtain ⟨h1, h2, h3⟩ := hi.bound k d hk
      refine ⟨?_, by rw [hmax]; exact h2, h3⟩
      cases al with
      | true => rfl
      | false =>
        have h5 := hal rfl k (by rw [hmax]; omega)
        rw [(hcodek k h3 e).1, hi.code k d hk] at h5; simp at h5
    · intro k d hk
      obtain ⟨e, hk⟩ := hlive k d hk
      have h3 := (hi.bound k d hk).2.2
      simp only [(hcodek k h3 e).1]; exact hi.code k d hk
    · intro k d hk
      obtain ⟨e, hk⟩ := hlive k d hk
      have h3 := (hi.bound k d hk).2.2
      simp only [(hcodek k h3 e).2]; exact hi.code1 k d hk
    · intro _ k hk hkm hd
      by_cases e : k = h
      · subst e
        simp only [upd_other _ _ (show k ≠ k + 1 by omega), upd_same]
        exact ⟨trivial, trivial⟩
      · rw [upd_other _ _ e] at hd
        simp only [(hcodek k hk e).1, (hcodek k hk e).2]
        exact hi.dead ha k hk (by simp only at hkm; omega) hd
    · intro k d hk
      obtain ⟨e, hk⟩ := hlive k d hk
      exact hi1.exec k d (by rw [upd_other _ _ e]; exact hk)
    · intro h0 k hk hkm hd
      by_cases e : k = h
      · subst e; exact hx1
      · rw [upd_other _ _ e] at hd
        exact hi1.execDead (hal2 h0) k hk hkm (by rw [upd_other _ _ e]; exact hd)
  rw [← hcode]
  split
  · next hall =>
    refine ⟨_, rfl, hinv false ?_ (by simp)⟩
    intro _ k hk
    rw [List.all_eq_true] at hall
    have := hall k (by simpa using hk)
    simpa using this
  · refine ⟨_, rfl, ?_⟩
    have := hinv s1.alloc (by intro h0; rw [halloc, ha] at h0; simp at h0) (fun h => h)
    exact this

theorem progress_ok {s s' : State} {L : Live} (hi : Inv s L) (fin : Nat → Bool)
    (hp : progress s fin = some s') :
    Inv s' (fun h => (L h).map fun c => { c with running := c.running && !fin h }) := by
  unfold progress at hp
  split at hp
  · injection hp with hp
    subst hp
    have hlive : ∀ k d, ((L k).map fun c => { c with running := c.running && !fin k }) = some d →
        ∃ c, L k = some c ∧ d = { c with running := c.running && !fin k } := by
      intro k d hk
      cases hL : L k with
      | none => rw [hL] at hk; simp at hk
      | some c => rw [hL] at hk; simp at hk; exact ⟨c, rfl, hk.symm⟩
    constructor
    · exact hi.even
    · exact hi.big
    · intro k d hk
      obtain ⟨c, hc, _⟩ := hlive k d hk
      exact hi.bound k c hc
    · intro k d hk
      obtain ⟨c, hc, rfl⟩ := hlive k d hk
      exact hi.code k c hc
    · intro k d hk
      obtain ⟨c, hc, rfl⟩ := hlive k d hk
      exact hi.code1 k c hc
    · intro h0 k hk hkm hd
      exact hi.dead h0 k hk hkm (by simpa using hd)
    · intro k d hk
      obtain ⟨c, hc, rfl⟩ := hlive k d hk
      obtain ⟨_, hb, he⟩ := hi.bound k c hc
      have hx := hi.exec k c hc
      have hcur : Coll.current { c with running := c.running && !fin k } = c.current := rfl
      simp only [hcur]
      cases hf : fin k
      · simp [hx]
      · simp [he, show k < s.max by omega]
    · intro h0 k hk hkm hd
      have := hi.execDead h0 k hk hkm (by simpa using hd)
      simp only [this, ite_self]
  · simp at hp

theorem reach_inv {s : State} {L : Live} (h : Reach s L) : Inv s L := by
  induction h with
  | init =>
    constructor <;> intros <;> simp_all [init]
  | create a alt _ ih => exact (newColl_inv ih a alt).2.2
  | start _ hl hs ih =>
    obtain ⟨s', h1, h2⟩ := start_ok ih hl
    rw [h1] at hs; injection hs with hs; subst hs; exact h2
  | @test s L s' h c fin flag _ hl hs ih =>
    obtain ⟨s1, h1, h2⟩ := test_ok ih hl fin
    rw [h1] at hs; injection hs with hs; injection hs with hs hf
    subst hs; subst hf
    simpa using h2
  | wait _ hl hs ih =>
    obtain ⟨s', h1, h2, _⟩ := wait_ok ih hl
    rw [h1] at hs; injection hs with hs; subst hs; exact h2
  | done _ hl hs ih =>
    obtain ⟨s', h1, h2⟩ := done_ok ih hl
    rw [h1] at hs; injection hs with hs; subst hs; exact h2
  | progress fin _ hp ih => exact progress_ok ih fin hp

/-! ### Property theorems -/

/-- **C05 (fresh handles).** After every history, creating a collective returns a handle that no
live collective uses. -/
theorem create_fresh {s : State} {L : Live} (h : Reach s L) (a : Nat) (alt : Option Nat) :
    L (newColl s a alt).2 = none :=
  (newColl_inv (reach_inv h) a alt).1

/-- **C05 (no undefined behaviour on live handles).** -/
theorem live_ops_defined {s : State} {L : Live} (h : Reach s L) {k : Nat} {c : Coll}
    (hl : L k = some c) : (start s k).isSome ∧ (∀ fin, (test s k fin).isSome) ∧
      (waitH s k).isSome ∧ (done s k).isSome := by
  have hi := reach_inv h
  obtain ⟨_, h1, _⟩ := start_ok hi hl
  obtain ⟨_, h2, _⟩ := wait_ok hi hl
  obtain ⟨_, h3, _⟩ := done_ok hi hl
  refine ⟨by rw [h1]; rfl, fun fin => ?_, by rw [h2]; rfl, by rw [h3]; rfl⟩
  obtain ⟨_, h4, _⟩ := test_ok hi hl fin
  rw [h4]; rfl

/-- **C05 (isolation).** After every history every live handle refers to its own program, and if
it is running, the interpreter runs exactly that program; if not, it runs nothing. What happens
to other handles is irrelevant: the right-hand sides mention only the history of this handle. -/
theorem live_program {s : State} {L : Live} (h : Reach s L) {k : Nat} {c : Coll}
    (hl : L k = some c) : s.code k = some c.current ∧
      s.exec k = (if c.running then some c.current else none) :=
  ⟨(reach_inv h).code k c hl, (reach_inv h).exec k c hl⟩

/-- **C05 (test).** The flag returned by test is true iff the collective is not running any more. -/
theorem test_flag {s : State} {L : Live} (h : Reach s L) {k : Nat} {c : Coll}
    (hl : L k = some c) (fin : Bool) {s' : State} {flag : Bool} (ht : test s k fin = some (s', flag)) :
    (flag = true ↔ c.running = false ∨ fin = true) := by
  obtain ⟨s1, h1, _⟩ := test_ok (reach_inv h) hl fin
  rw [h1] at ht; injection ht with ht; injection ht with _ ht
  subst ht
  cases c.running <;> cases fin <;> simp

/-- **C30.** With alternating buffers, two consecutive starts of a live handle run different
programs (hence use different internal memory), and every second start the same, whatever was
done in between with other handles. Stated for the collective's own history `c`. -/
theorem alternate {s : State} {L : Live} (h : Reach s L) {k : Nat} {c : Coll} {b : Nat}
    (hl : L k = some c) (hb : c.alt = some b) (hne : c.prog ≠ b) :
    ∃ s', start s k = some s' ∧ s'.exec k ≠ some c.current ∧
      s'.exec k = some (if c.starts % 2 = 1 then c.prog else b) := by
  obtain ⟨s', h1, _⟩ := start_ok (reach_inv h) hl
  have hr := Reach.start h hl h1
  have hp := (live_program hr (upd_same L k _)).2
  refine ⟨s', h1, ?_, ?_⟩
  · rw [hp]
    simp only [Coll.current, hb, if_true, ne_eq, Option.some.injEq]
    by_cases hs : c.starts % 2 = 1
    · rw [if_neg (show ¬ (c.starts + 1) % 2 = 1 by omega), if_pos hs]; exact hne
    · rw [if_pos (show (c.starts + 1) % 2 = 1 by omega), if_neg hs]; exact fun e => hne e.symm
  · rw [hp]
    simp only [Coll.current, hb, if_true, Option.some.injEq]
    by_cases hs : c.starts % 2 = 1
    · rw [if_neg (show ¬ (c.starts + 1) % 2 = 1 by omega), if_pos hs]
    · rw [if_pos (show (c.starts + 1) % 2 = 1 by omega), if_neg hs]

/-- non-vacuity: three collectives, one with alternating buffers started twice, one released and
its handle reused -/
example : ∃ s L, Reach s L ∧ L 0 = some ⟨7, some 8, 2, true⟩ ∧ L 2 = some ⟨11, none, 0, false⟩ ∧
    s.exec 0 = some 7 := by
  have r1 := Reach.create 7 (some 8) Reach.init
  have r2 := Reach.create 9 none r1
  have h0 : (newColl init 7 (some 8)).2 = 0 := by decide
  have h2 : (newColl (newColl init 7 (some 8)).1 9 none).2 = 2 := by decide
  rw [h0] at r2
  rw [h2] at r2
  obtain ⟨s3, e3, _⟩ := start_ok (h := 0) (reach_inv r2) (by rfl)
  have r3 := Reach.start r2 (by rfl) e3
  obtain ⟨s4, e4, _, _⟩ := wait_ok (h := 0) (reach_inv r3) (by rfl)
  have r4 := Reach.wait r3 (by rfl) e4
  obtain ⟨s5, e5, _⟩ := start_ok (h := 0) (reach_inv r4) (by rfl)
  have r5 := Reach.start r4 (by rfl) e5
  obtain ⟨s6, e6, _⟩ := done_ok (h := 2) (reach_inv r5) (by rfl)
  have r6 := Reach.done r5 (by rfl) e6
  have r7 := Reach.create 11 none r6
  have h7 : (newColl s6 11 none).2 = 2 := by
    injection e3 with e3; subst e3
    injection e4 with e4; subst e4
    injection e5 with e5; subst e5
    have : done _ 2 = some s6 := e6
    revert this
    intro h; injection h with h; subst h; decide
  rw [h7] at r7
  exact ⟨_, _, r7, by rfl, by rfl, by
    have := (live_program r7 (k := 0) (by rfl)).2; simpa [Coll.current] using this⟩

/-- **C39, negation.** `EXT_MPI_Progress` may not be called at any time: before the first
collective is created, and again after the last one is released, it dereferences NULL. -/
theorem progress_undefined_without_handles (fin : Nat → Bool) :
    progress init fin = none ∧
    ∀ s L s' k c, Reach s L → L k = some c → (∀ j, j ≠ k → L j = none) → done s k = some s' →
      progress s' fin = none := by
  refine ⟨rfl, ?_⟩
  intro s L s' k c h hl hall hd
  have hi := reach_inv h
  obtain ⟨ha, hb, he⟩ := hi.bound k c hl
  obtain ⟨s1, hw, hi1, hcode, hmax, halloc⟩ := wait_ok hi hl
  unfold done at hd
  rw [hw] at hd
  simp only [hcode, hi.code k c hl] at hd
  rw [if_pos] at hd
  · injection hd with hd; subst hd; rfl
  · rw [List.all_eq_true]
    intro i hi'
    have him : i < s.max := by simpa [hmax] using hi'
    by_cases e1 : i = k + 1
    · subst e1; simp [upd_same]
    by_cases e : i = k
    · subst e; simp [upd_other _ _ e1, upd_same]
    rw [upd_other _ _ e1, upd_other _ _ e]
    by_cases hev : i % 2 = 0
    · rw [(hi.dead ha i hev him (hall i e)).1]; rfl
    · have hd2 := (hi.dead ha (i - 1) (by omega) (by omega) (hall (i - 1) (by omega))).2
      rw [show i - 1 + 1 = i by omega] at hd2
      rw [hd2]; rfl

/-- **C39, the part that holds.** While at least one collective is live, progress is defined, keeps
both programs of every handle, ends exactly the running programs that can finish and leaves everything else alone.
Histories (`Reach`) contain calls of progress, so the other properties of handles hold with them as well.
Missing: the state without live handles. -/
theorem progress_partial {s : State} {L : Live} (h : Reach s L) {k : Nat} {c : Coll}
    (hl : L k = some c) (fin : Nat → Bool) :
    ∃ s', progress s fin = some s' ∧ s'.code = s.code ∧ s'.wait = s.wait ∧ s'.max = s.max ∧
      ∀ j d, L j = some d →
        s'.exec j = (if d.running && !fin j then some d.current else none) ∧ s'.exec (j + 1) = s.exec (j + 1) := by
  have hi := reach_inv h
  have ha := (hi.bound k c hl).1
  unfold progress
  rw [if_pos ha]
  refine ⟨_, rfl, rfl, rfl, rfl, ?_⟩
  intro j d hj
  obtain ⟨_, hb, he⟩ := hi.bound j d hj
  have hx := hi.exec j d hj
  refine ⟨?_, ?_⟩
  · simp only
    cases hf : fin j
    · simp [hx]
    · simp [he, show j < s.max by omega]
  · simp only
    rw [if_neg (by omega)]

end ExtMpi.Handles
