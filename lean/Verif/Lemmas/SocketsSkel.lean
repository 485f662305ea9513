import Verif.Spec.Sockets
import Verif.Lemmas.OnNodeProg
/-! The programs of several sockets on one node have the same shape and no races. -/
namespace ExtMpi.Sockets
open RawCode

/-! ### Barrier -/

def downW (n k p : Nat) : Nat := (p + n - 2 ^ k) % n

def barrierSk (n : Nat) : OnNode.Skel := OnNode.dis 0 (Nat.clog 2 n) (downW n)

theorem pow_lt_of_lt_clog {n k : Nat} (h : k < Nat.clog 2 n) : 2 ^ k < n := by
  by_contra hc
  have := Nat.clog_le_of_le_pow (b := 2) (Nat.le_of_not_lt hc)
  omega

theorem R_barrier {n : Nat} (A : OnNode.Skel) {r p : Nat} (hr : r < n) (hp : p < n) :
    OnNode.R n (A ++ barrierSk n) r A.length p (A.length + Nat.clog 2 n) := by
  apply OnNode.R_dis A 0 _ (downW n) (List.range n).reverse (by simp) (by simp)
  · intro k i hk hi
    rw [List.length_reverse, List.length_range] at hk hi ⊢
    have h2 := pow_lt_of_lt_clog hk
    have hm : (i + 2 ^ k) % n < n := Nat.mod_lt _ (by omega)
    rw [List.getElem?_reverse (by simpa using hm), List.length_range, List.getElem?_range (by omega),
      List.getElem_reverse, List.getElem_range, List.length_range]
    congr 1
    unfold downW
    generalize 2 ^ k = w at *
    by_cases hlt : i + w < n
    · rw [Nat.mod_eq_of_lt hlt, Nat.mod_eq_sub_mod (a := n - 1 - i + n - w) (by omega), Nat.mod_eq_of_lt (by omega)]
      omega
    · rw [Nat.mod_eq_sub_mod (a := i + w) (by omega), Nat.mod_eq_of_lt (a := i + w - n) (by omega),
        Nat.mod_eq_of_lt (by omega)]
      omega
  · simpa using hr
  · simpa using hp

theorem quiet_barrier (n : Nat) : OnNode.Quiet (barrierSk n) := OnNode.quiet_dis _ _ _

theorem barrier_length (n : Nat) : (barrierSk n).length = Nat.clog 2 n := OnNode.dis_length _ _ _

theorem partners_barrier {n : Nat} (hn : 0 < n) : OnNode.Partners n (barrierSk n) :=
  OnNode.partners_dis fun _ _ _ => Nat.mod_lt _ hn

/-! ### Races -/

def own (t : Nat) (r : Reg) (x : Nat) : OnNode.Cell :=
  match r with
  | .send => .send t 0 x
  | .recv => .recv t 0 x
  | .shm _ => .shm t x

/-- Both operands belong to the process. -/
def Private (t : Nat) (e : OnNode.Elem) : Prop := (∃ r x, e.dst = own t r x) ∧ ∃ r x, e.src = own t r x

theorem own_ne {t t' : Nat} (h : t ≠ t') (r r' : Reg) (x x' : Nat) : own t r x ≠ own t' r' x' := by
  cases r <;> cases r' <;> simp [own, h]

theorem private_conflict {p q : Nat} (h : p ≠ q) {e f : OnNode.Elem} (he : Private p e) (hf : Private q f) :
    ¬OnNode.Conflict e f := by
  obtain ⟨⟨r1, x1, h1⟩, r2, x2, h2⟩ := he
  obtain ⟨⟨r3, x3, h3⟩, r4, x4, h4⟩ := hf
  unfold OnNode.Conflict
  rw [h1, h2, h3, h4]
  simp [own_ne h]

/-- Accesses to the memory of other processes come after a barrier. -/
def Guarded (n : Nat) (sk : OnNode.Skel) : Prop :=
  ∀ j J q f, sk[j]? = some J → q < n → f ∈ J.elems q → Private q f ∨ ∀ p, p < n → OnNode.R n sk p 0 q j

theorem raceFree_barrier {n : Nat} {A B : OnNode.Skel} (hA : OnNode.RaceFree n A) (hB : OnNode.RaceFree n B) :
    OnNode.RaceFree n (A ++ barrierSk n ++ B) := by
  have hcross : ∀ p q i j, p < n → q < n → i < A.length → A.length + Nat.clog 2 n ≤ j →
      OnNode.R n (A ++ barrierSk n ++ B) p (i + 1) q j := by
    intro p q i j hp hq hi hj
    exact ((R_barrier A hp hq).append B).mono (by omega) hj
  have hlen : (A ++ barrierSk n).length = A.length + Nat.clog 2 n := by simp [barrier_length]
  have hwhere : ∀ (i : Nat) (I : OnNode.Item) (p : Nat) (e : OnNode.Elem), (A ++ barrierSk n ++ B)[i]? = some I → e ∈ I.elems p →
      (i < A.length ∧ A[i]? = some I) ∨ (A.length + Nat.clog 2 n ≤ i ∧ B[i - (A.length + Nat.clog 2 n)]? = some I) := by
    intro i I p e hI he
    by_cases h1 : i < A.length
    · rw [List.append_assoc, List.getElem?_append_left h1] at hI
      exact .inl ⟨h1, hI⟩
    · by_cases h2 : i < A.length + Nat.clog 2 n
      · rw [List.getElem?_append_left (by omega), List.getElem?_append_right (by omega)] at hI
        have := quiet_barrier n I (List.mem_of_getElem? hI) p
        rw [this] at he
        cases he
      · rw [List.getElem?_append_right (by omega), hlen] at hI
        exact .inr ⟨by omega, hI⟩
  intro p q i j I J e f hp hq hpq hI hJ he hf hc
  rcases hwhere i I p e hI he with ⟨hi, hI'⟩ | ⟨hi, hI'⟩ <;> rcases hwhere j J q f hJ hf with ⟨hj, hJ'⟩ | ⟨hj, hJ'⟩
  · rw [List.append_assoc]
    exact (hA p q i j I J e f hp hq hpq hI' hJ' he hf hc).imp (fun h => h.append _) fun h => h.append _
  · exact .inl (hcross p q i j hp hq hi hj)
  · exact .inr (hcross q p j i hq hp hj hi)
  · rcases hB p q _ _ I J e f hp hq hpq hI' hJ' he hf hc with h | h
    · left
      have := h.prepend (A ++ barrierSk n)
      rw [hlen] at this
      exact this.mono (by omega) (by omega)
    · right
      have := h.prepend (A ++ barrierSk n)
      rw [hlen] at this
      exact this.mono (by omega) (by omega)

theorem raceFree_private {n : Nat} {L : Nat → List OnNode.Elem} (hL : ∀ p, p < n → ∀ e ∈ L p, Private p e)
    {B : OnNode.Skel} (hB : OnNode.RaceFree n B) (hg : Guarded n B) : OnNode.RaceFree n (.ops L :: B) := by
  have hsh : ∀ p i q j, OnNode.R n B p i q j → OnNode.R n (.ops L :: B) p (i + 1) q (j + 1) := by
    intro p i q j h
    have := h.prepend [.ops L]
    simp only [List.length_singleton, List.singleton_append] at this
    exact this.mono (by omega) (by omega)
  intro p q i j I J e f hp hq hpq hI hJ he hf hc
  cases i with
  | zero =>
    simp at hI; subst hI
    have he : Private p e := hL p hp e he
    cases j with
    | zero =>
      simp at hJ; subst hJ
      exact absurd hc (private_conflict hpq he (hL q hq f hf))
    | succ j =>
      rw [List.getElem?_cons_succ] at hJ
      rcases hg j J q f hJ hq hf with h | h
      · exact absurd hc (private_conflict hpq he h)
      · exact .inl (hsh _ _ _ _ (h p hp))
  | succ i =>
    rw [List.getElem?_cons_succ] at hI
    cases j with
    | zero =>
      simp at hJ; subst hJ
      rcases hg i I p e hI hp he with h | h
      · exact absurd hc (private_conflict hpq h (hL q hq f hf))
      · exact .inr (hsh _ _ _ _ (h q hq))
    | succ j =>
      rw [List.getElem?_cons_succ] at hJ
      exact (hB p q i j I J e f hp hq hpq hI hJ he hf hc).imp (hsh _ _ _ _) (hsh _ _ _ _)

theorem guarded_private {n : Nat} {L : Nat → List OnNode.Elem} (hL : ∀ p, p < n → ∀ e ∈ L p, Private p e)
    {B : OnNode.Skel} (hg : Guarded n B) : Guarded n (.ops L :: B) := by
  intro j J q f hJ hq hf
  cases j with
  | zero =>
    simp at hJ; subst hJ
    exact .inl (hL q hq f hf)
  | succ j =>
    rw [List.getElem?_cons_succ] at hJ
    refine (hg j J q f hJ hq hf).imp id fun h p hp => ?_
    have := (h p hp).prepend [.ops L]
    simp only [List.length_singleton, List.singleton_append] at this
    exact this.mono (by omega) (by omega)

theorem guarded_barrier {n : Nat} (B : OnNode.Skel) : Guarded n (barrierSk n ++ B) := by
  intro j J q f hJ hq hf
  by_cases h : j < Nat.clog 2 n
  · rw [List.getElem?_append_left (by rw [barrier_length]; exact h)] at hJ
    rw [quiet_barrier n J (List.mem_of_getElem? hJ) q] at hf
    cases hf
  · right
    intro p hp
    have := (R_barrier [] hp hq).append B
    simp only [List.nil_append, List.length_nil, Nat.zero_add] at this
    exact this.mono (Nat.le_refl _) (by omega)

/-! ### The skeleton of the rounds -/

/-- Rounds: whether there are copies between segments, private accesses, copies between segments. -/
abbrev Rnd := Bool × (Nat → List OnNode.Elem) × (Nat → List OnNode.Elem)

def roundsSk (n : Nat) (T : Nat → List OnNode.Elem) : List Rnd → OnNode.Skel
  | [] => [.ops T]
  | (b, L, E) :: rs => .ops L :: if b then barrierSk n ++ (.ops E :: (barrierSk n ++ roundsSk n T rs)) else roundsSk n T rs

theorem partners_cons {n : Nat} {f : Nat → List OnNode.Elem} {B : OnNode.Skel} (h : OnNode.Partners n B) :
    OnNode.Partners n (.ops f :: B) := OnNode.Partners.append (OnNode.partners_ops f) h

theorem partners_rounds {n : Nat} (hn : 0 < n) (T : Nat → List OnNode.Elem) (rs : List Rnd) :
    OnNode.Partners n (roundsSk n T rs) := by
  induction rs with
  | nil => exact OnNode.partners_ops T
  | cons x rs ih =>
    obtain ⟨b, L, E⟩ := x
    refine partners_cons ?_
    split
    · exact (partners_barrier hn).append (partners_cons ((partners_barrier hn).append ih))
    · exact ih

theorem races_rounds {n : Nat} (T : Nat → List OnNode.Elem) (hT : ∀ p, p < n → ∀ e ∈ T p, Private p e) (rs : List Rnd)
    (hL : ∀ x ∈ rs, ∀ p, p < n → ∀ e ∈ x.2.1 p, Private p e)
    (hE : ∀ x ∈ rs, ∀ p q, p < n → q < n → p ≠ q → ∀ e ∈ x.2.2 p, ∀ f ∈ x.2.2 q, ¬OnNode.Conflict e f) :
    OnNode.RaceFree n (roundsSk n T rs) ∧ Guarded n (roundsSk n T rs) := by
  induction rs with
  | nil =>
    have h0 : OnNode.RaceFree n [] := by intro p q i j I J e f _ _ _ hI; simp at hI
    have h1 : Guarded n [] := by intro j J q f hJ; simp at hJ
    exact ⟨raceFree_private hT h0 h1, guarded_private hT h1⟩
  | cons x rs ih =>
    obtain ⟨b, L, E⟩ := x
    have hL0 := hL (b, L, E) (by simp)
    obtain ⟨i1, i2⟩ := ih (fun x hx => hL x (by simp [hx])) (fun x hx => hE x (by simp [hx]))
    show OnNode.RaceFree n (.ops L :: if b = true then _ else _) ∧ Guarded n (.ops L :: if b = true then _ else _)
    split
    · have hE0 : OnNode.RaceFree n [.ops E] := by
        intro p q i j I J e f hp hq hpq hI hJ he hf hc
        obtain ⟨rfl⟩ : i = 0 := by have := (List.getElem?_eq_some_iff.1 hI).1; simpa using this
        obtain ⟨rfl⟩ : j = 0 := by have := (List.getElem?_eq_some_iff.1 hJ).1; simpa using this
        simp at hI hJ
        subst hI; subst hJ
        exact absurd hc (hE (b, L, E) (by simp) p q hp hq hpq e he f hf)
      have hL1 : OnNode.RaceFree n [.ops L] := by
        have h1 : Guarded n [] := by intro j J q f hJ; simp at hJ
        exact raceFree_private hL0 (by intro p q i j I J e f _ _ _ hI; simp at hI) h1
      have hg := guarded_private hL0 (guarded_barrier (n := n) (.ops E :: (barrierSk n ++ roundsSk n T rs)))
      refine ⟨?_, hg⟩
      have := raceFree_barrier hL1 (raceFree_barrier hE0 i1)
      simpa using this
    · exact ⟨raceFree_private hL0 i1 i2, guarded_private hL0 i2⟩

/-- Programs with these actions are correct if the execution in lockstep is. -/
theorem correct_of_rounds {X : Type} [Add X] {n : Nat} (hn : 0 < n) {prog : Nat → Option (List SInstr)} {m : OnNode.Cell → X}
    {post : (OnNode.Cell → X) → Prop} {T : Nat → List OnNode.Elem} {rs : List Rnd}
    (hprog : ∀ t, t < n → (prog t).bind (allActs n t) = some (OnNode.code (roundsSk n T rs) t))
    (hT : ∀ p, p < n → ∀ e ∈ T p, Private p e) (hL : ∀ x ∈ rs, ∀ p, p < n → ∀ e ∈ x.2.1 p, Private p e)
    (hE : ∀ x ∈ rs, ∀ p q, p < n → q < n → p ≠ q → ∀ e ∈ x.2.2 p, ∀ f ∈ x.2.2 q, ¬OnNode.Conflict e f)
    (hpost : post (OnNode.lockstep n (roundsSk n T rs) m)) : NodeCorrect n prog m post := by
  have hpart := partners_rounds hn T rs
  have hrace := (races_rounds T hT rs hL hE).1
  refine ⟨fun t ht => by rw [hprog t ht]; rfl, ∑ p ∈ Finset.range n, (OnNode.code (roundsSk n T rs) p).length, fun k s hs => ?_⟩
  have h0 : OnNode.Inv n (roundsSk n T rs) m (fun _ => 0) (start (actions n prog) m) :=
    OnNode.inv_start n _ m _ (fun p hp => by show actions n prog p = _; rw [actions, hprog p hp]; rfl) rfl (fun _ _ => rfl) (fun _ _ => rfl)
  obtain ⟨t, hi, hsum⟩ := OnNode.inv_steps hpart hrace h0 hs
  have hle : ∀ p ∈ Finset.range n, t p ≤ (OnNode.code (roundsSk n T rs) p).length :=
    fun p hp => (hi.rest p (Finset.mem_range.1 hp)).2
  have := Finset.sum_le_sum hle
  simp only [Finset.sum_const_zero, Nat.zero_add] at hsum
  refine ⟨by omega, ?_⟩
  by_cases hall : ∀ p, p < n → t p = (OnNode.code (roundsSk n T rs) p).length
  · left
    refine ⟨fun p hp => ?_, ?_⟩
    · rw [(hi.rest p hp).1, hall p hp, List.drop_length]
    · rw [hi.mem, OnNode.done_all n _ t hall]
      exact hpost
  · right
    push Not at hall
    obtain ⟨p, hp, hne⟩ := hall
    have := (hi.rest p hp).2
    exact OnNode.progress hpart hi _ p hp (by rw [OnNode.at_all]; omega)

end ExtMpi.Sockets
