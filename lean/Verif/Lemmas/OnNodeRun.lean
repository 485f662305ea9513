import Verif.Spec.OnNode
import Mathlib.Tactic.Ring
import Mathlib.Tactic.ByContra
import Mathlib.Algebra.Order.BigOperators.Group.Finset
/-! Programs of the same shape in all processes: if conflicting accesses are ordered by the waiting for flags, then every
interleaving ends with the result of the execution in lockstep. -/
namespace ExtMpi.OnNode

structure Elem where
  red : Bool
  dst : Cell
  src : Cell

def Elem.act (e : Elem) : Act := .elem e.red e.dst e.src

def Elem.run {X : Type} [Add X] (e : Elem) (m : Cell → X) : Cell → X := accessed e.red e.dst e.src m

/-- The two accesses do not commute. -/
def Conflict (e f : Elem) : Prop := e.dst = f.dst ∨ e.dst = f.src ∨ e.src = f.dst

inductive Item where
  | ops (f : Nat → List Elem)
  | sync (b : Nat) (w : Nat → Nat)

def Item.acts (p : Nat) : Item → List Act
  | .ops f => (f p).map Elem.act
  | .sync b w => [.set b p, .wait b (w p : Nat)]

def Item.elems (p : Nat) : Item → List Elem
  | .ops f => f p
  | .sync _ _ => []

abbrev Skel := List Item

def code (sk : Skel) (p : Nat) : List Act := sk.flatMap (Item.acts p)

/-- Number of actions of `p` in the first `i` items. -/
def at_ (sk : Skel) (p i : Nat) : Nat := (code (sk.take i) p).length

/-- `q` being at item `j` implies `p` being at item `i`. -/
inductive R (n : Nat) (sk : Skel) : Nat → Nat → Nat → Nat → Prop
  | own {q i j} : i ≤ j → R n sk q i q j
  | sync {q k b w} : sk[k]? = some (.sync b w) → q < n → R n sk (w q) k q (k + 1)
  | trans {p i r k q j} : R n sk p i r k → R n sk r k q j → R n sk p i q j

theorem R.le {n sk p i q j} (h : R n sk p i q j) : i ≤ j := by
  induction h with
  | own h => exact h
  | sync _ => omega
  | trans _ _ h1 h2 => omega

theorem R.mono {n sk p i q j i' j'} (h : R n sk p i q j) (hi : i' ≤ i) (hj : j ≤ j') : R n sk p i' q j' :=
  .trans (.own hi) (.trans h (.own hj))

theorem R.mono_n {n n' sk p i q j} (h : R n sk p i q j) (hn : n ≤ n') : R n' sk p i q j := by
  induction h with
  | own h => exact .own h
  | @sync _ _ b _ h hq => exact .sync (b := b) h (by omega)
  | trans _ _ h1 h2 => exact .trans h1 h2

theorem R.append {n A p i q j} (h : R n A p i q j) (B : Skel) : R n (A ++ B) p i q j := by
  induction h with
  | own h => exact .own h
  | @sync _ _ b _ h hq =>
    refine .sync (b := b) ?_ hq
    rw [List.getElem?_append_left]; exact h
    exact (List.getElem?_eq_some_iff.1 h).1
  | trans _ _ h1 h2 => exact .trans h1 h2

theorem R.prepend {n A p i q j} (h : R n A p i q j) (B : Skel) :
    R n (B ++ A) p (B.length + i) q (B.length + j) := by
  induction h with
  | own h => exact .own (by omega)
  | @sync _ _ b _ h hq =>
    refine .sync (k := B.length + _) (b := b) ?_ hq
    rw [List.getElem?_append_right (by omega), Nat.add_sub_cancel_left]; exact h
  | trans _ _ h1 h2 => exact .trans h1 h2

/-- Conflicting accesses of different processes are ordered. -/
def RaceFree (n : Nat) (sk : Skel) : Prop :=
  ∀ p q i j I J e f, p < n → q < n → p ≠ q → sk[i]? = some I → sk[j]? = some J → e ∈ I.elems p → f ∈ J.elems q →
    Conflict e f → R n sk p (i + 1) q j ∨ R n sk q (j + 1) p i

/-- The partners of all synchronisations exist. -/
def Partners (n : Nat) (sk : Skel) : Prop :=
  ∀ b w, Item.sync b w ∈ sk → ∀ p, p < n → w p < n

def runElems {X : Type} [Add X] (es : List Elem) (m : Cell → X) : Cell → X := es.foldl (fun m e => e.run m) m

/-- Accesses of all processes in the canonical order, `t p` actions of process `p`. -/
def done (n : Nat) (sk : Skel) (t : Nat → Nat) : List Elem :=
  (List.range sk.length).flatMap fun i => (List.range n).flatMap fun p =>
    match sk[i]? with
    | some I => (I.elems p).take (t p - at_ sk p i)
    | none => []

/-- Result of the execution in lockstep. -/
def lockstep {X : Type} [Add X] (n : Nat) (sk : Skel) (m : Cell → X) : Cell → X :=
  runElems (sk.flatMap fun I => (List.range n).flatMap fun p => I.elems p) m

/-! ### Accesses -/

theorem Elem.run_comm {X : Type} [Add X] {e f : Elem} (h : ¬ Conflict e f) (m : Cell → X) :
    e.run (f.run m) = f.run (e.run m) := by
  unfold Conflict at h
  push Not at h
  obtain ⟨h1, h2, h3⟩ := h
  funext c
  simp only [Elem.run, accessed]
  have h2' := Ne.symm h2
  by_cases hc : c = e.dst
  · subst hc
    simp [h1, h3, Ne.symm h1, h2']
  · by_cases hc' : c = f.dst
    · subst hc'
      simp [h1, h3, Ne.symm h1, h2', h2]
    · simp [hc, hc']

theorem runElems_append {X : Type} [Add X] (a b : List Elem) (m : Cell → X) :
    runElems (a ++ b) m = runElems b (runElems a m) := by
  simp [runElems]

theorem runElems_comm {X : Type} [Add X] {e : Elem} {B : List Elem} (h : ∀ f ∈ B, ¬ Conflict e f) (m : Cell → X) :
    runElems B (e.run m) = e.run (runElems B m) := by
  induction B generalizing m with
  | nil => rfl
  | cons f B ih =>
    have hf := h f (by simp)
    have := ih (fun g hg => h g (by simp [hg]))
    show runElems B (f.run (e.run m)) = e.run (runElems B (f.run m))
    rw [← Elem.run_comm hf, this]

/-! ### Positions -/

theorem at_zero (sk : Skel) (p : Nat) : at_ sk p 0 = 0 := by simp [at_, code]

theorem at_succ {sk : Skel} {i : Nat} {I : Item} (h : sk[i]? = some I) (p : Nat) :
    at_ sk p (i + 1) = at_ sk p i + (I.acts p).length := by
  unfold at_ code
  rw [List.take_add_one, h]
  simp

theorem at_mono (sk : Skel) (p : Nat) {i j : Nat} (h : i ≤ j) : at_ sk p i ≤ at_ sk p j := by
  unfold at_ code
  obtain ⟨d, rfl⟩ := Nat.exists_eq_add_of_le h
  rw [List.take_add]
  simp

theorem at_all (sk : Skel) (p : Nat) : at_ sk p sk.length = (code sk p).length := by
  simp [at_]

theorem at_ge (sk : Skel) (p i : Nat) (h : sk.length ≤ i) : at_ sk p i = (code sk p).length := by
  simp [at_, List.take_of_length_le h]

theorem code_take (sk : Skel) (p i : Nat) : (code sk p).take (at_ sk p i) = code (sk.take i) p := by
  have h : code sk p = code (sk.take i) p ++ code (sk.drop i) p := by
    unfold code; rw [← List.flatMap_append, List.take_append_drop]
  rw [h, at_, List.take_left']
  rfl

theorem code_drop (sk : Skel) (p i : Nat) : (code sk p).drop (at_ sk p i) = code (sk.drop i) p := by
  have h : code sk p = code (sk.take i) p ++ code (sk.drop i) p := by
    unfold code; rw [← List.flatMap_append, List.take_append_drop]
  rw [h, at_, List.drop_left']
  rfl

theorem drop_item {sk : Skel} {i : Nat} {I : Item} (h : sk[i]? = some I) (p a : Nat) (ha : a ≤ (I.acts p).length) :
    (code sk p).drop (at_ sk p i + a) = (I.acts p).drop a ++ code (sk.drop (i + 1)) p := by
  rw [← List.drop_drop, code_drop]
  have hlt : i < sk.length := (List.getElem?_eq_some_iff.1 h).1
  have : sk.drop i = I :: sk.drop (i + 1) := by
    rw [List.drop_eq_getElem_cons hlt]
    rw [(List.getElem?_eq_some_iff.1 h).2]
  rw [this]
  simp only [code, List.flatMap_cons]
  rw [List.drop_append_of_le_length ha]

/-- The item of a position. -/
theorem item_of {sk : Skel} {p t : Nat} (h : t < (code sk p).length) :
    ∃ i I, sk[i]? = some I ∧ at_ sk p i ≤ t ∧ t < at_ sk p (i + 1) := by
  have key : ∀ i, t < at_ sk p i → ∃ i I, sk[i]? = some I ∧ at_ sk p i ≤ t ∧ t < at_ sk p (i + 1) := by
    intro i
    induction i with
    | zero => intro h; rw [at_zero] at h; omega
    | succ i ih =>
      intro h
      by_cases h' : t < at_ sk p i
      · exact ih h'
      · by_cases hi : i < sk.length
        · exact ⟨i, sk[i], List.getElem?_eq_getElem hi, by omega, h⟩
        · exact absurd h (by rw [at_ge _ _ _ (by omega)]; rw [at_ge _ _ _ (by omega)] at h'; exact h')
  exact key sk.length (by rw [at_all]; exact h)

/-! ### Counting sets and waits -/

def isSync (b : Nat) : Item → Bool
  | .sync b' _ => b' == b
  | _ => false

def isSet (b : Nat) : Act → Bool
  | .set b' _ => b' == b
  | _ => false

def isWait (b : Nat) : Act → Bool
  | .wait b' _ => b' == b
  | _ => false

theorem countP_sets (sk : Skel) (b p : Nat) : (code sk p).countP (isSet b) = sk.countP (isSync b) := by
  induction sk with
  | nil => rfl
  | cons I sk ih =>
    simp only [code, List.flatMap_cons, List.countP_append] at ih ⊢
    rw [ih, List.countP_cons]
    cases I with
    | ops f =>
      have : ((Item.ops f).acts p).countP (isSet b) = 0 := by
        rw [List.countP_eq_zero]
        intro a ha
        simp only [Item.acts, List.mem_map] at ha
        obtain ⟨e, _, rfl⟩ := ha
        simp [Elem.act, isSet]
      rw [this]; simp [isSync]
    | sync b' w =>
      simp only [Item.acts, List.countP_cons, List.countP_nil, isSet, isSync]
      by_cases hb : b' = b <;> simp [hb] <;> omega

theorem countP_waits (sk : Skel) (b p : Nat) : (code sk p).countP (isWait b) = sk.countP (isSync b) := by
  induction sk with
  | nil => rfl
  | cons I sk ih =>
    simp only [code, List.flatMap_cons, List.countP_append] at ih ⊢
    rw [ih, List.countP_cons]
    cases I with
    | ops f =>
      have : ((Item.ops f).acts p).countP (isWait b) = 0 := by
        rw [List.countP_eq_zero]
        intro a ha
        simp only [Item.acts, List.mem_map] at ha
        obtain ⟨e, _, rfl⟩ := ha
        simp [Elem.act, isWait]
      rw [this]; simp [isSync]
    | sync b' w =>
      simp only [Item.acts, List.countP_cons, List.countP_nil, isWait, isSync]
      by_cases hb : b' = b <;> simp [hb] <;> omega

theorem countP_take_mono {α : Type} (f : α → Bool) (l : List α) {a b : Nat} (h : a ≤ b) :
    (l.take a).countP f ≤ (l.take b).countP f := by
  obtain ⟨d, rfl⟩ := Nat.exists_eq_add_of_le h
  rw [List.take_add, List.countP_append]
  omega

/-! ### The invariant -/

structure Inv {X : Type} [Add X] (n : Nat) (sk : Skel) (m : Cell → X) (t : Nat → Nat) (s : State X) : Prop where
  rest : ∀ p, p < n → s.rest p = (code sk p).drop (t p) ∧ t p ≤ (code sk p).length
  mem : s.mem = runElems (done n sk t) m
  flag : ∀ b p, p < n → s.flag b p = ((code sk p).take (t p)).countP (isSet b)
  cnt : ∀ b p, p < n → s.cnt p b = 1 + ((code sk p).take (t p)).countP (isWait b)
  ord : ∀ q k b w, q < n → sk[k]? = some (.sync b w) → at_ sk q (k + 1) ≤ t q → at_ sk (w q) k ≤ t (w q)

theorem Inv.order {X : Type} [Add X] {n sk} {m : Cell → X} {t s} (h : Inv n sk m t s) {p i q j}
    (hr : R n sk p i q j) (hq : at_ sk q j ≤ t q) : at_ sk p i ≤ t p := by
  induction hr with
  | own h => exact Nat.le_trans (at_mono sk _ h) hq
  | sync hk hlt => exact h.ord _ _ _ _ hlt hk hq
  | trans _ _ h1 h2 => exact h1 (h2 hq)

theorem inv_start {X : Type} [Add X] (n : Nat) (sk : Skel) (m : Cell → X) (s : State X)
    (hrest : ∀ p, p < n → s.rest p = code sk p) (hmem : s.mem = m)
    (hflag : ∀ b p, s.flag b p = 0) (hcnt : ∀ p b, s.cnt p b = 1) : Inv n sk m (fun _ => 0) s where
  rest := fun p hp => ⟨by simp [hrest p hp], by omega⟩
  mem := by
    have : done n sk (fun _ => 0) = [] := by
      unfold done
      rw [List.flatMap_eq_nil_iff]
      intro i _
      rw [List.flatMap_eq_nil_iff]
      intro p _
      split <;> simp
    rw [this, hmem]; rfl
  flag := by simp [hflag]
  cnt := by simp [hcnt]
  ord := by
    intro q k b w _ hk h
    rw [at_succ hk] at h
    simp [Item.acts] at h

/-- An action does not change the number of sets of `b` unless it is one. -/
theorem take_succ_countP {α : Type} (f : α → Bool) {l : List α} {t : Nat} {a : α} {as : List α}
    (h : l.drop t = a :: as) : (l.take (t + 1)).countP f = (l.take t).countP f + (if f a then 1 else 0) := by
  have hlt : t < l.length := by
    by_contra hc
    rw [List.drop_eq_nil_of_le (by omega)] at h
    cases h
  have ha : l[t] = a := by
    have := List.drop_eq_getElem_cons hlt
    rw [h] at this
    injection this with h1 _
    exact h1.symm
  rw [List.take_add_one, List.getElem?_eq_getElem hlt, List.countP_append, ha]
  simp [List.countP_cons]

theorem drop_succ_of_cons {α : Type} {l : List α} {t : Nat} {a : α} {as : List α} (h : l.drop t = a :: as) :
    l.drop (t + 1) = as ∧ t + 1 ≤ l.length := by
  have hlt : t < l.length := by
    by_contra hc
    rw [List.drop_eq_nil_of_le (by omega)] at h
    cases h
  refine ⟨?_, hlt⟩
  rw [← List.drop_drop, h]; rfl

/-! ### One step -/

def cellOps (sk : Skel) (t : Nat → Nat) (x : Nat × Nat) : List Elem :=
  match sk[x.1]? with
  | some I => (I.elems x.2).take (t x.2 - at_ sk x.2 x.1)
  | none => []

def grid (n N : Nat) : List (Nat × Nat) := (List.range N).flatMap fun i => (List.range n).map fun p => (i, p)

theorem done_eq (n : Nat) (sk : Skel) (t : Nat → Nat) : done n sk t = (grid n sk.length).flatMap (cellOps sk t) := by
  unfold done grid
  rw [List.flatMap_assoc]
  congr 1
  funext i
  rw [List.flatMap_map]
  rfl

theorem range_split {N i : Nat} (h : i < N) : ∃ r, List.range N = List.range i ++ i :: r ∧ ∀ x ∈ r, i < x := by
  obtain ⟨d, rfl⟩ := Nat.exists_eq_add_of_le (show i + 1 ≤ N from h)
  refine ⟨(List.range d).map (i + 1 + ·), ?_, ?_⟩
  · rw [List.range_add, List.range_succ, List.append_assoc]; rfl
  · intro x hx
    simp only [List.mem_map] at hx
    obtain ⟨y, _, rfl⟩ := hx
    omega

theorem grid_split {n N i p : Nat} (hi : i < N) (hp : p < n) :
    ∃ A B, grid n N = A ++ (i, p) :: B ∧ (∀ x ∈ A, x ≠ (i, p)) ∧ (∀ x ∈ B, x ≠ (i, p) ∧ i ≤ x.1) := by
  obtain ⟨r, hr, hr'⟩ := range_split hi
  obtain ⟨c, hc, hc'⟩ := range_split hp
  refine ⟨((List.range i).flatMap fun i => (List.range n).map fun p => (i, p)) ++ (List.range p).map fun p => (i, p),
    (c.map fun p => (i, p)) ++ r.flatMap fun i => (List.range n).map fun p => (i, p), ?_, ?_, ?_⟩
  · unfold grid
    rw [hr, List.flatMap_append, List.flatMap_cons, hc]
    simp
  · intro x hx
    simp only [List.mem_append, List.mem_flatMap, List.mem_map, List.mem_range] at hx
    rintro rfl
    simp only [Prod.mk.injEq] at hx
    rcases hx with ⟨a, ha, _, _, rfl, rfl⟩ | ⟨a, ha, _, rfl⟩ <;> omega
  · intro x hx
    simp only [List.mem_append, List.mem_flatMap, List.mem_map, List.mem_range] at hx
    rcases hx with ⟨a, ha, rfl⟩ | ⟨a, ha, b, _, rfl⟩
    · have := hc' a ha
      simp; omega
    · have := hr' a ha
      simp; omega

theorem acts_length_ops (f : Nat → List Elem) (p : Nat) : ((Item.ops f).acts p).length = (f p).length := by
  simp [Item.acts]

theorem acts_length_ge (I : Item) (p : Nat) : (I.elems p).length ≤ (I.acts p).length := by
  cases I <;> simp [Item.acts, Item.elems]

theorem acts_length_sync (b : Nat) (w : Nat → Nat) (p : Nat) : ((Item.sync b w).acts p).length = 2 := by
  simp [Item.acts]

/-- Progress of `p` inside of item `i` does not change what is done of the other items. -/
theorem cellOps_other {sk : Skel} {t : Nat → Nat} {i p : Nat} (h1 : at_ sk p i ≤ t p) (h2 : t p < at_ sk p (i + 1))
    {x : Nat × Nat} (hx : x ≠ (i, p)) : cellOps sk (Function.update t p (t p + 1)) x = cellOps sk t x := by
  obtain ⟨j, q⟩ := x
  unfold cellOps
  by_cases hq : q = p
  · subst hq
    have hj : j ≠ i := fun h => hx (by rw [h])
    simp only [Function.update_self]
    cases hI : sk[j]? with
    | none => rfl
    | some J =>
      simp only
      rcases Nat.lt_or_gt_of_ne hj with hlt | hgt
      · have ha := at_mono sk q (show j + 1 ≤ i from hlt)
        rw [at_succ hI] at ha
        have := acts_length_ge J q
        rw [List.take_of_length_le (by omega), List.take_of_length_le (by omega)]
      · have ha := at_mono sk q (show i + 1 ≤ j from hgt)
        rw [show t q + 1 - at_ sk q j = 0 by omega, show t q - at_ sk q j = 0 by omega]
  · simp only [Function.update_of_ne hq]

theorem done_elem {n : Nat} {sk : Skel} {t : Nat → Nat} {i p : Nat} {I : Item} {e : Elem} (hI : sk[i]? = some I)
    (hp : p < n) (h1 : at_ sk p i ≤ t p) (h2 : t p < at_ sk p (i + 1))
    (he : (I.elems p)[t p - at_ sk p i]? = some e) :
    ∃ A B, done n sk t = A ++ B ∧ done n sk (Function.update t p (t p + 1)) = A ++ e :: B ∧
      ∀ f ∈ B, ∃ q j J, q < n ∧ sk[j]? = some J ∧ f ∈ J.elems q ∧ q ≠ p ∧ i ≤ j ∧ at_ sk q j < t q := by
  have hi : i < sk.length := (List.getElem?_eq_some_iff.1 hI).1
  obtain ⟨A, B, hg, hA, hB⟩ := grid_split (n := n) hi hp
  have hB' : ∀ x ∈ B, x.2 < n := by
    intro x hx
    have : x ∈ grid n sk.length := by rw [hg]; simp [hx]
    simp only [grid, List.mem_flatMap, List.mem_map, List.mem_range] at this
    obtain ⟨_, _, _, h, rfl⟩ := this
    exact h
  refine ⟨A.flatMap (cellOps sk t) ++ cellOps sk t (i, p), B.flatMap (cellOps sk t), ?_, ?_, ?_⟩
  · rw [done_eq, hg, List.flatMap_append, List.flatMap_cons, List.append_assoc]
  · rw [done_eq, hg, List.flatMap_append, List.flatMap_cons]
    rw [List.flatMap_congr fun x hx => cellOps_other h1 h2 (hA x hx),
      List.flatMap_congr fun x hx => cellOps_other h1 h2 (hB x hx).1]
    have : cellOps sk (Function.update t p (t p + 1)) (i, p) = cellOps sk t (i, p) ++ [e] := by
      unfold cellOps
      simp only [hI, Function.update_self]
      rw [show t p + 1 - at_ sk p i = (t p - at_ sk p i) + 1 by omega, List.take_add_one, he]
      rfl
    rw [this]
    simp
  · intro f hf
    simp only [List.mem_flatMap] at hf
    obtain ⟨⟨j, q⟩, hx, hf⟩ := hf
    obtain ⟨hne, hle⟩ := hB _ hx
    unfold cellOps at hf
    cases hJ : sk[j]? with
    | none => simp [hJ] at hf
    | some J =>
      simp only [hJ] at hf
      have hlt : at_ sk q j < t q := by
        by_contra hc
        rw [show t q - at_ sk q j = 0 by omega] at hf
        simp at hf
      refine ⟨q, j, J, hB' _ hx, hJ, List.mem_of_mem_take hf, ?_, hle, hlt⟩
      rintro rfl
      have hj : j ≠ i := fun h => hne (by rw [h])
      simp only at hle
      have ha := at_mono sk q (show i + 1 ≤ j by omega)
      omega

theorem done_other {n : Nat} {sk : Skel} {t : Nat → Nat} {i p b : Nat} {w : Nat → Nat}
    (hI : sk[i]? = some (.sync b w)) (h1 : at_ sk p i ≤ t p) (h2 : t p < at_ sk p (i + 1)) :
    done n sk (Function.update t p (t p + 1)) = done n sk t := by
  rw [done_eq, done_eq]
  apply List.flatMap_congr
  intro x _
  by_cases hx : x = (i, p)
  · subst hx
    simp [cellOps, hI, Item.elems]
  · exact cellOps_other h1 h2 hx

/-- The next action of `p`. -/
theorem next_act {sk : Skel} {p t : Nat} (h : t < (code sk p).length) :
    ∃ i I, sk[i]? = some I ∧ at_ sk p i ≤ t ∧ t < at_ sk p (i + 1) ∧
      ∃ a as, (I.acts p)[t - at_ sk p i]? = some a ∧ (code sk p).drop t = a :: as := by
  obtain ⟨i, I, hI, h1, h2⟩ := item_of h
  refine ⟨i, I, hI, h1, h2, ?_⟩
  rw [at_succ hI] at h2
  have hd := drop_item hI p (t - at_ sk p i) (by omega)
  rw [show at_ sk p i + (t - at_ sk p i) = t by omega] at hd
  have hlt : t - at_ sk p i < (I.acts p).length := by omega
  rw [List.drop_eq_getElem_cons hlt] at hd
  exact ⟨_, _, List.getElem?_eq_getElem hlt, by rw [hd]; rfl⟩

theorem sync_flag {X : Type} [Add X] {n sk} {m : Cell → X} {t s} (h : Inv n sk m t s) {q k b w}
    (hq : q < n) (hw : w q < n) (hk : sk[k]? = some (.sync b w)) (ht : t q = at_ sk q k + 1) :
    s.cnt q b ≤ s.flag b (w q) ↔ at_ sk (w q) k < t (w q) := by
  have hact : ∀ p, (Item.sync b w).acts p = [.set b p, .wait b (w p : Nat)] := fun _ => rfl
  have hc : s.cnt q b = 1 + (sk.take k).countP (isSync b) := by
    rw [h.cnt b q hq, ht]
    have hd := drop_item hk q 0 (by simp)
    rw [take_succ_countP (a := .set b q) (as := _) (isWait b) (by rw [Nat.add_zero] at hd; rw [hd]; rfl)]
    rw [code_take, countP_waits]
    simp [isWait]
  rw [hc, h.flag b _ hw]
  constructor
  · intro hle
    by_contra hcon
    have := countP_take_mono (isSet b) (code sk (w q)) (show t (w q) ≤ at_ sk (w q) k by omega)
    rw [code_take, countP_sets] at this
    omega
  · intro hlt
    have := countP_take_mono (isSet b) (code sk (w q)) (show at_ sk (w q) k + 1 ≤ t (w q) from hlt)
    have hd := drop_item hk (w q) 0 (by simp)
    rw [take_succ_countP (a := .set b (w q)) (as := _) (isSet b) (by rw [Nat.add_zero] at hd; rw [hd]; rfl),
      code_take, countP_sets] at this
    simp only [isSet, beq_self_eq_true, if_true] at this
    omega

theorem inv_step {X : Type} [Add X] {n sk} {m : Cell → X} {t s s'} (hpart : Partners n sk) (hrace : RaceFree n sk)
    (h : Inv n sk m t s) {p : Nat} (hp : p < n) (hs : Step p s s') :
    Inv n sk m (Function.update t p (t p + 1)) s' := by
  have hrp := h.rest p hp
  have hne : s.rest p ≠ [] := by cases hs with
    | elem h => simp [h]
    | set h => simp [h]
    | wait h _ => simp [h]
  have hlt : t p < (code sk p).length := by
    by_contra hc
    rw [hrp.1, List.drop_eq_nil_of_le (by omega)] at hne
    exact hne rfl
  obtain ⟨i, I, hI, h1, h2, a, as, ha, hda⟩ := next_act hlt
  have hrest : ∀ as', s.rest p = a :: as' → ∀ q, q < n → Function.update s.rest p as' q =
      (code sk q).drop (Function.update t p (t p + 1) q) ∧ Function.update t p (t p + 1) q ≤ (code sk q).length := by
    intro as' has' q hq
    by_cases hqp : q = p
    · subst hqp
      have hh : (code sk q).drop (t q) = a :: as' := by rw [← hrp.1, has']
      have := drop_succ_of_cons hh
      simp only [Function.update_self]
      exact ⟨this.1.symm, this.2⟩
    · simp only [Function.update_of_ne hqp]
      exact h.rest q hq
  have hcount : ∀ (f : Act → Bool) q, f a = false ∨ q ≠ p →
      ((code sk q).take (Function.update t p (t p + 1) q)).countP f = ((code sk q).take (t q)).countP f := by
    intro f q hfq
    by_cases hqp : q = p
    · subst hqp
      have hfa : f a = false := by simpa using hfq
      rw [Function.update_self, take_succ_countP f hda, hfa]; simp
    · rw [Function.update_of_ne hqp]
  have hord : (∀ b w, I = .sync b w → t p = at_ sk p i + 1 → at_ sk (w p) i < t (w p)) →
      ∀ q k b w, q < n → sk[k]? = some (.sync b w) → at_ sk q (k + 1) ≤ Function.update t p (t p + 1) q →
        at_ sk (w q) k ≤ Function.update t p (t p + 1) (w q) := by
    intro hnew q k b w hq hk hle
    have hup : ∀ r, t r ≤ Function.update t p (t p + 1) r := by
      intro r
      by_cases hr : r = p
      · subst hr; simp
      · rw [Function.update_of_ne hr]
    by_cases hqp : q = p
    · subst hqp
      rw [Function.update_self] at hle
      by_cases hle' : at_ sk q (k + 1) ≤ t q
      · exact Nat.le_trans (h.ord q k b w hq hk hle') (hup _)
      · have hki : k = i := by
          rcases Nat.lt_trichotomy k i with hk1 | hk1 | hk1
          · have := at_mono sk q (show k + 1 ≤ i from hk1); omega
          · exact hk1
          · have := at_mono sk q (show i + 1 ≤ k from hk1)
            have := at_succ hk q
            rw [acts_length_sync] at this
            omega
        subst hki
        have hI' : I = .sync b w := by rw [hk] at hI; injection hI with hI; exact hI.symm
        have hs2 := at_succ hk q
        rw [acts_length_sync] at hs2
        exact Nat.le_trans (Nat.le_of_lt (hnew b w hI' (by omega))) (hup _)
    · rw [Function.update_of_ne hqp] at hle
      exact Nat.le_trans (h.ord q k b w hq hk hle) (hup _)
  cases hs with
  | @elem red d c as' hr =>
    have hae : a = .elem red d c := by
      have := hrp.1; rw [hr, hda] at this; injection this with h _; exact h.symm
    subst hae
    cases hIc : I with
    | sync b w =>
      rw [hIc] at ha
      have h3 := at_succ hI p
      rw [hIc, acts_length_sync] at h3
      have : t p - at_ sk p i = 0 ∨ t p - at_ sk p i = 1 := by omega
      rcases this with h | h <;> rw [h] at ha <;> simp [Item.acts] at ha
    | ops f =>
      have he : (I.elems p)[t p - at_ sk p i]? = some ⟨red, d, c⟩ := by
        rw [hIc] at ha
        rw [hIc]
        simp only [Item.acts, List.getElem?_map, Option.map_eq_some_iff] at ha
        obtain ⟨e, he, hee⟩ := ha
        obtain ⟨r', d', c'⟩ := e
        simp only [Elem.act, Act.elem.injEq] at hee
        obtain ⟨rfl, rfl, rfl⟩ := hee
        exact he
      obtain ⟨A, B, hd1, hd2, hB⟩ := done_elem hI hp h1 h2 he
      refine ⟨hrest as' hr, ?_, ?_, ?_, hord ?_⟩
      · show accessed red d c s.mem = _
        rw [hd2, h.mem, hd1, runElems_append, runElems_append]
        show Elem.run ⟨red, d, c⟩ _ = runElems B (Elem.run ⟨red, d, c⟩ _)
        rw [runElems_comm]
        intro f hf hconf
        obtain ⟨q, j, J, hq, hJ, hfm, hqp, hij, htq⟩ := hB f hf
        rcases hrace p q i j I J _ f hp hq (Ne.symm hqp) hI hJ (List.mem_of_getElem? he) hfm hconf with hR | hR
        · have := h.order hR (by omega); omega
        · have := hR.le; omega
      · intro b q hq
        rw [hcount _ _ (Or.inl rfl)]
        exact h.flag b q hq
      · intro b q hq
        rw [hcount _ _ (Or.inl rfl)]
        exact h.cnt b q hq
      · intro b w hI'
        rw [hIc] at hI'
        cases hI'
  | @set b as' r hr =>
    have hae : a = .set b r := by
      have := hrp.1; rw [hr, hda] at this; injection this with h _; exact h.symm
    subst hae
    cases hIc : I with
    | ops f =>
      rw [hIc] at ha
      simp [Item.acts, Elem.act] at ha
    | sync b' w =>
      subst hIc
      have h3 := at_succ hI p
      rw [acts_length_sync] at h3
      have h4 : t p = at_ sk p i ∧ b = b' ∧ r = p := by
        have : t p - at_ sk p i = 0 ∨ t p - at_ sk p i = 1 := by omega
        rcases this with h | h <;> rw [h] at ha <;> simp [Item.acts] at ha
        exact ⟨by omega, ha.1.symm, ha.2.symm⟩
      obtain ⟨h4, rfl, rfl⟩ := h4
      refine ⟨hrest as' hr, ?_, ?_, ?_, hord ?_⟩
      · show s.mem = _
        rw [h.mem, done_other hI h1 h2]
      · intro b' q hq
        show Function.update s.flag b (Function.update (s.flag b) r (s.cnt r b)) b' q = _
        by_cases hb : b' = b
        · subst hb
          rw [Function.update_self]
          by_cases hqr : q = r
          · subst hqr
            rw [Function.update_self, Function.update_self, take_succ_countP _ hda, h.cnt b' q hq, h4, code_take,
              countP_sets, countP_waits]
            simp [isSet]; omega
          · rw [Function.update_of_ne hqr, hcount _ _ (Or.inr hqr)]
            exact h.flag b' q hq
        · rw [Function.update_of_ne hb, hcount]
          · exact h.flag b' q hq
          · left; simp [isSet, Ne.symm hb]
      · intro b q hq
        rw [hcount _ _ (Or.inl rfl)]
        exact h.cnt b q hq
      · intro b w _ h5
        omega
  | @wait b as' r hr hcond =>
    have hae : a = .wait b r := by
      have := hrp.1; rw [hr, hda] at this; injection this with h _; exact h.symm
    subst hae
    cases hIc : I with
    | ops f =>
      rw [hIc] at ha
      simp [Item.acts, Elem.act] at ha
    | sync b' w =>
      subst hIc
      have h3 := at_succ hI p
      rw [acts_length_sync] at h3
      have h4 : t p = at_ sk p i + 1 ∧ b = b' ∧ r = w p := by
        have : t p - at_ sk p i = 0 ∨ t p - at_ sk p i = 1 := by omega
        rcases this with h | h <;> rw [h] at ha <;> simp [Item.acts] at ha
        exact ⟨by omega, ha.1.symm, ha.2.symm⟩
      obtain ⟨h4, rfl, rfl⟩ := h4
      have hwn : w p < n := hpart b w (List.mem_of_getElem? hI) p hp
      refine ⟨hrest as' hr, ?_, ?_, ?_, hord ?_⟩
      · show s.mem = _
        rw [h.mem, done_other hI h1 h2]
      · intro b q hq
        rw [hcount _ _ (Or.inl rfl)]
        exact h.flag b q hq
      · intro b' q hq
        show Function.update s.cnt p (Function.update (s.cnt p) b (s.cnt p b + 1)) q b' = _
        by_cases hqp : q = p
        · subst hqp
          rw [Function.update_self, Function.update_self, take_succ_countP _ hda]
          by_cases hb : b' = b
          · subst hb
            rw [Function.update_self, h.cnt b' q hq]
            simp [isWait]; omega
          · rw [Function.update_of_ne hb, h.cnt b' q hq]
            simp [isWait, Ne.symm hb]
        · rw [Function.update_of_ne hqp, hcount _ _ (Or.inr hqp)]
          exact h.cnt b' q hq
      · intro b' w' hI' _
        injection hI' with hb hw
        subst hb hw
        exact (sync_flag h hp hwn hI h4).1 hcond

/-! ### Progress -/

theorem progress {X : Type} [Add X] {n sk} {m : Cell → X} {t s} (hpart : Partners n sk)
    (h : Inv n sk m t s) : ∀ i p, p < n → t p < at_ sk p i → ∃ q s', q < n ∧ Step q s s' := by
  intro i
  induction i with
  | zero => intro p _ hlt; rw [at_zero] at hlt; omega
  | succ i ih =>
    intro p hp hlt
    by_cases hlt' : t p < at_ sk p i
    · exact ih p hp hlt'
    by_cases hi : sk.length ≤ i
    · rw [at_ge _ _ _ (by omega)] at hlt hlt'; omega
    obtain ⟨I, hI⟩ : ∃ I, sk[i]? = some I := ⟨_, List.getElem?_eq_getElem (by omega)⟩
    have hsucc := at_succ hI p
    have hd := drop_item hI p (t p - at_ sk p i) (by omega)
    rw [show at_ sk p i + (t p - at_ sk p i) = t p by omega, ← (h.rest p hp).1] at hd
    cases I with
    | ops f =>
      have hl : t p - at_ sk p i < ((Item.ops f).acts p).length := by omega
      rw [List.drop_eq_getElem_cons hl] at hd
      simp only [Item.acts, List.getElem_map, Elem.act, List.cons_append] at hd
      exact ⟨p, _, hp, .elem hd⟩
    | sync b w =>
      rw [acts_length_sync] at hsucc
      have : t p - at_ sk p i = 0 ∨ t p - at_ sk p i = 1 := by omega
      rcases this with h0 | h1
      · rw [h0] at hd
        simp only [Item.acts, List.drop_zero, List.cons_append] at hd
        exact ⟨p, _, hp, .set hd⟩
      · rw [h1] at hd
        simp only [Item.acts, List.drop_one, List.tail_cons, List.cons_append] at hd
        have hwn := hpart b w (List.mem_of_getElem? hI) p hp
        by_cases hc : s.cnt p b ≤ s.flag b (w p)
        · exact ⟨p, _, hp, .wait hd hc⟩
        · rw [sync_flag h hp hwn hI (by omega)] at hc
          by_cases hlt2 : t (w p) < at_ sk (w p) i
          · exact ih (w p) hwn hlt2
          · have hd2 := drop_item hI (w p) 0 (by simp)
            rw [show at_ sk (w p) i + 0 = t (w p) by omega, ← (h.rest _ hwn).1] at hd2
            simp only [Item.acts, List.drop_zero, List.cons_append] at hd2
            exact ⟨w p, _, hwn, .set hd2⟩

theorem flatMap_range {α β : Type} (g : α → List β) (l : List α) :
    ((List.range l.length).flatMap fun i => match l[i]? with | some a => g a | none => []) = l.flatMap g := by
  induction l with
  | nil => rfl
  | cons a l ih =>
    rw [List.length_cons, List.range_succ_eq_map, List.flatMap_cons, List.flatMap_cons, List.flatMap_map, ← ih]
    rfl

theorem done_all (n : Nat) (sk : Skel) (t : Nat → Nat) (h : ∀ p, p < n → t p = (code sk p).length) :
    done n sk t = sk.flatMap fun I => (List.range n).flatMap fun p => I.elems p := by
  rw [← flatMap_range]
  unfold done
  apply List.flatMap_congr
  intro i hi
  rw [List.mem_range] at hi
  obtain ⟨I, hI⟩ : ∃ I, sk[i]? = some I := ⟨_, List.getElem?_eq_getElem hi⟩
  simp only [hI]
  apply List.flatMap_congr
  intro p hp
  rw [List.mem_range] at hp
  have h1 := at_mono sk p (show i + 1 ≤ sk.length from hi)
  rw [at_all, at_succ hI] at h1
  have := acts_length_ge I p
  rw [h p hp, List.take_of_length_le (by omega)]

theorem inv_steps {X : Type} [Add X] {n sk} {m : Cell → X} {t s s' k} (hpart : Partners n sk) (hrace : RaceFree n sk)
    (h : Inv n sk m t s) (hs : Steps n k s s') :
    ∃ t', Inv n sk m t' s' ∧ (∑ p ∈ Finset.range n, t' p) = (∑ p ∈ Finset.range n, t p) + k := by
  induction hs with
  | nil => exact ⟨t, h, rfl⟩
  | snoc _ hp hst ih =>
    rename_i p _
    obtain ⟨t', hi, hsum⟩ := ih h
    refine ⟨_, inv_step hpart hrace hi hp hst, ?_⟩
    rw [← Nat.add_assoc, ← hsum, ← Finset.add_sum_erase _ _ (Finset.mem_range.2 hp),
      ← Finset.add_sum_erase _ t' (Finset.mem_range.2 hp), Function.update_self]
    have : ∑ x ∈ (Finset.range n).erase p, Function.update t' p (t' p + 1) x = ∑ x ∈ (Finset.range n).erase p, t' x := by
      apply Finset.sum_congr rfl
      intro x hx
      rw [Function.update_of_ne (Finset.ne_of_mem_erase hx)]
    omega

/-- Programs of the same shape without races: every interleaving ends with the result of the execution in lockstep. -/
theorem correct_of_raceFree {X : Type} [Add X] {n : Nat} {prog : Nat → List Instr} {sk : Skel} {m : Cell → X}
    (hprog : ∀ p, p < n → (prog p).flatMap (Instr.acts n p) = code sk p) (hpart : Partners n sk)
    (hrace : RaceFree n sk) (post : (Cell → X) → Prop) (hpost : post (lockstep n sk m)) : Correct n prog m post := by
  refine ⟨∑ p ∈ Finset.range n, (code sk p).length, fun k s hs => ?_⟩
  have h0 : Inv n sk m (fun _ => 0) (start n prog m) := inv_start n sk m _ hprog rfl (fun _ _ => rfl) (fun _ _ => rfl)
  obtain ⟨t, hi, hsum⟩ := inv_steps hpart hrace h0 hs
  have hle : ∀ p ∈ Finset.range n, t p ≤ (code sk p).length := fun p hp => (hi.rest p (Finset.mem_range.1 hp)).2
  have := Finset.sum_le_sum hle
  simp only [Finset.sum_const_zero, Nat.zero_add] at hsum
  refine ⟨by omega, ?_⟩
  by_cases hall : ∀ p, p < n → t p = (code sk p).length
  · left
    refine ⟨fun p hp => ?_, ?_⟩
    · rw [(hi.rest p hp).1, hall p hp, List.drop_length]
    · rw [hi.mem, done_all n sk t hall]
      exact hpost
  · right
    push Not at hall
    obtain ⟨p, hp, hne⟩ := hall
    have := (hi.rest p hp).2
    exact progress hpart hi sk.length p hp (by rw [at_all]; omega)

end ExtMpi.OnNode
