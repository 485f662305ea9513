import Mathlib.Data.List.Sort
import Verif.Lemmas.ScheduleLists
import Verif.Model.Groups
/-! Simulation of the schedule of a group by the schedule of all nodes. Every line of the group becomes `fac`
lines, `pre` lines are put before them, and the nodes of the group become nodes of the class. -/
namespace ExtMpi.Groups
open Schedule

/-- The `N` nodes are split into classes of `g` nodes: `gl c j` is the node `j` of the class `c`. -/
structure Split (N g : Nat) (cls loc : Nat → Nat) (gl : Nat → Nat → Nat) : Prop where
  locLt : ∀ t, t < N → loc t < g
  back : ∀ t, t < N → gl (cls t) (loc t) = t
  lt : ∀ t j, t < N → j < g → gl (cls t) j < N
  locEq : ∀ t j, t < N → j < g → loc (gl (cls t) j) = j
  clsEq : ∀ t j, t < N → j < g → cls (gl (cls t) j) = cls t
  mono : ∀ t i j, t < N → i < j → j < g → gl (cls t) i < gl (cls t) j

theorem Split.inj {N g : Nat} {cls loc : Nat → Nat} {gl : Nat → Nat → Nat} (h : Split N g cls loc gl) (t i j : Nat)
    (ht : t < N) (hi : i < g) (hj : j < g) (e : gl (cls t) i = gl (cls t) j) : i = j := by
  rcases Nat.lt_trichotomy i j with c | c | c
  · have := h.mono t i j ht c hj; omega
  · exact c
  · have := h.mono t j i ht c hi; omega

theorem Split.le_iff {N g : Nat} {cls loc : Nat → Nat} {gl : Nat → Nat → Nat} (h : Split N g cls loc gl) (t i j : Nat)
    (ht : t < N) (hi : i < g) (hj : j < g) : gl (cls t) i ≤ gl (cls t) j ↔ i ≤ j := by
  rcases Nat.lt_trichotomy i j with c | c | c
  · have := h.mono t i j ht c hj; omega
  · subst c; simp
  · have := h.mono t j i ht c hi; omega

/-- The order in which messages are unpacked. -/
theorem order_eq (N t : Nat) (ht : t < N) : (List.range N).map (fun o => (N + t - o) % N) =
    (List.range (t + 1)).reverse ++ (List.range' (t + 1) (N - (t + 1))).reverse := by
  apply List.ext_getElem
  · simp; omega
  · intro i h1 h2
    have hi : i < N := by simpa using h1
    rw [List.getElem_map, List.getElem_range]
    by_cases c : i < t + 1
    · rw [List.getElem_append_left (by simpa using c), List.getElem_reverse, List.getElem_range]
      have : N + t - i = t - i + N := by omega
      rw [this, Nat.add_mod_right, Nat.mod_eq_of_lt (by omega)]
      simp
    · rw [List.getElem_append_right (by simp; omega), List.getElem_reverse, List.getElem_range']
      simp only [List.length_reverse, List.length_range, List.length_range']
      rw [Nat.mod_eq_of_lt (by omega)]
      omega

theorem filter_mono (l m : List Nat) (P : Nat → Bool) (hl : l.Pairwise (· < ·)) (hm : m.Pairwise (· < ·))
    (h : ∀ x, x ∈ m ↔ x ∈ l ∧ P x = true) : l.filter P = m := by
  apply List.Pairwise.eq_of_mem_iff (r := (· < ·)) (hl.filter _) hm
  intro x
  rw [List.mem_filter, h x]

theorem order_filter {N g : Nat} {cls loc : Nat → Nat} {gl : Nat → Nat → Nat} (h : Split N g cls loc gl) (t : Nat)
    (ht : t < N) :
    ((List.range N).map fun o => (N + t - o) % N).filter (fun q => cls q == cls t) =
      ((List.range g).map fun o => (g + loc t - o) % g).map (gl (cls t)) := by
  have hl := h.locLt t ht
  have hpw : ∀ l : List Nat, l.Pairwise (· < ·) → (∀ x, x ∈ l → x < g) →
      (l.map (gl (cls t))).Pairwise (· < ·) := by
    intro l hp hb
    rw [List.pairwise_map]
    exact hp.imp_of_mem fun {a b} _ hbm hab => h.mono t a b ht hab (hb b hbm)
  rw [order_eq N t ht, order_eq g _ hl, List.filter_append, List.filter_reverse, List.filter_reverse,
    List.map_append, List.map_reverse, List.map_reverse]
  have key : ∀ x, x < N → cls x = cls t → x = gl (cls t) (loc x) ∧ loc x < g := by
    intro x hx hc
    exact ⟨by rw [← hc]; exact (h.back x hx).symm, h.locLt x hx⟩
  have htt : gl (cls t) (loc t) = t := h.back t ht
  congr 2
  · apply filter_mono
    · exact List.pairwise_lt_range
    · apply hpw
      · exact List.pairwise_lt_range
      · intro x hx; have := List.mem_range.1 hx; omega
    · intro x
      simp only [List.mem_map, List.mem_range, beq_iff_eq]
      constructor
      · rintro ⟨j, hj, rfl⟩
        refine ⟨?_, h.clsEq t j ht (by omega)⟩
        have := (h.le_iff t j (loc t) ht (by omega) hl).2 (by omega)
        omega
      · rintro ⟨h1, h2⟩
        obtain ⟨e1, e2⟩ := key x (by omega) h2
        refine ⟨loc x, ?_, e1.symm⟩
        have := (h.le_iff t (loc x) (loc t) ht e2 hl).1 (by rw [← e1, htt]; omega)
        omega
  · apply filter_mono
    · exact List.pairwise_lt_range'
    · apply hpw
      · exact List.pairwise_lt_range'
      · intro x hx; have := List.mem_range'_1.1 hx; omega
    · intro x
      simp only [List.mem_map, List.mem_range'_1, beq_iff_eq]
      constructor
      · rintro ⟨j, hj, rfl⟩
        refine ⟨?_, h.clsEq t j ht (by omega)⟩
        have h1 := (h.le_iff t j (loc t) ht (by omega) hl).1
        have h2 := h.lt t j ht (by omega)
        rw [htt] at h1
        by_cases c : gl (cls t) j ≤ t
        · have := h1 c; omega
        · omega
      · rintro ⟨h1, h2⟩
        obtain ⟨e1, e2⟩ := key x (by omega) h2
        refine ⟨loc x, ?_, e1.symm⟩
        by_cases c : loc x ≤ loc t
        · have := (h.le_iff t (loc x) (loc t) ht e2 hl).2 c
          rw [← e1, htt] at this
          omega
        · omega

/-! ## Lines -/

/-- A node of the group as a node of the class; -1 stays. -/
def glInt (m : Nat → Nat) (x : Int) : Int := if 0 ≤ x then (m x.toNat : Int) else x

/-- The line `k` of the lines for one line of the group. -/
structure LineSim (F : Nat → Nat → Nat) (m : Nat → Nat) (fac L k : Nat) (l l' : LineD) : Prop where
  frac : l'.frac = F l.frac k
  send : l'.sendto.map Prod.fst = l.sendto.map fun e => glInt m e.1
  recv : l'.recvfrom.map Prod.fst = l.recvfrom.map fun e => glInt m e.1
  red : l'.reducefrom = l.reducefrom.map fun r => L + (r * fac + k)
  copy : l'.copyreducefrom = []

/-- A line that does nothing. -/
structure Inert (l : LineD) : Prop where
  send : ∀ e, e ∈ l.sendto → e.1 < 0
  recv : ∀ e, e ∈ l.recvfrom → e.1 < 0
  red : l.reducefrom = []
  copy : l.copyreducefrom = []

/-- The lines for one line of the group. -/
structure PartSim (F : Nat → Nat → Nat) (m : Nat → Nat) (fac L : Nat) (l : LineD) (part : List LineD) : Prop where
  len : part.length = fac
  line : ∀ k l', part[k]? = some l' → LineSim F m fac L k l l'

/-- The block for a block of the group. -/
structure BlockSim (F : Nat → Nat → Nat) (m : Nat → Nat) (fac L : Nat) (b B : Block) : Prop where
  ex : ∃ (pre : Block) (parts : List (List LineD)), B = pre ++ parts.flatten ∧ pre.length = L ∧
    (∀ l, l ∈ pre → Inert l) ∧ List.Forall₂ (PartSim F m fac L) b parts

/-- A line of a schedule for `g` nodes. -/
structure LineOf (g : Nat) (l : LineD) : Prop where
  send : ∀ e, e ∈ l.sendto → e.1 < g
  recv : ∀ e, e ∈ l.recvfrom → e.1 < g
  copy : l.copyreducefrom = []

theorem glInt_eq (g : Nat) (m : Nat → Nat) (q : Nat) (hinj : ∀ j, j < g → m j = m q → j = q) (x : Int) (hx : x < g) :
    (glInt m x == (m q : Int)) = (x == (q : Int)) := by
  unfold glInt
  rw [Bool.eq_iff_iff, beq_iff_eq, beq_iff_eq]
  split
  · constructor
    · intro h
      have := hinj x.toNat (by omega) (by omega)
      omega
    · rintro rfl; simp
  · omega

theorem glInt_ne (g : Nat) (m : Nat → Nat) (t : Nat) (hne : ∀ j, j < g → m j ≠ t) (x : Int) (hx : x < g) :
    (glInt m x == (t : Int)) = false := by
  unfold glInt
  rw [beq_eq_false_iff_ne]
  split
  · have := hne x.toNat (by omega)
    omega
  · omega

theorem filter_fst (es es' : List (Int × Int)) (f : Int → Int) (h : es'.map Prod.fst = es.map fun e => f e.1)
    (y x : Int) (hf : ∀ e, e ∈ es → (f e.1 == y) = (e.1 == x)) :
    (es'.filter fun e => e.1 == y).length = (es.filter fun e => e.1 == x).length := by
  rw [← List.countP_eq_length_filter, ← List.countP_eq_length_filter]
  have e1 : es'.countP (fun e => e.1 == y) = (es'.map Prod.fst).countP (fun e => e == y) := by
    rw [List.countP_map]; rfl
  rw [e1, h, List.countP_map]
  apply List.countP_congr
  intro e he
  simpa using hf e he

theorem any_fst (es es' : List (Int × Int)) (f : Int → Int) (h : es'.map Prod.fst = es.map fun e => f e.1)
    (y : Int) : (es'.any fun e => e.1 == y) = es.any fun e => f e.1 == y := by
  have e1 : (es'.any fun e => e.1 == y) = (es'.map Prod.fst).any (fun e => e == y) := by
    rw [List.any_map]; rfl
  rw [e1, h, List.any_map]
  rfl

theorem any_congr (es : List (Int × Int)) (p q : Int × Int → Bool) (h : ∀ e, e ∈ es → p e = q e) : es.any p = es.any q := by
  induction es with
  | nil => rfl
  | cons e es ih =>
    rw [List.any_cons, List.any_cons, h e List.mem_cons_self, ih fun e he => h e (List.mem_cons_of_mem _ he)]

/-! ## Indices -/

variable {F : Nat → Nat → Nat} {m : Nat → Nat} {fac L : Nat}

theorem map_const_replicate {α : Type} (l : List α) (n : Nat) : l.map (fun _ => n) = List.replicate l.length n := by
  simp

theorem part_send (a : Nat) (part : List LineD) (y : Int) (c : Nat)
    (h : ∀ l', l' ∈ part → (l'.sendto.filter fun e => e.1 == y).length = c) (hc : c ≤ 1 ∨ part.length = 1) :
    (part.zipIdx a).flatMap (fun x => (x.1.sendto.filter fun e => e.1 == y).map fun _ => x.2) =
      (List.replicate c a).flatMap fun i => List.range' i part.length := by
  rcases hc with hc | hc
  · induction part generalizing a with
    | nil =>
      symm
      simp
    | cons l ls ih =>
      rw [List.zipIdx_cons, List.flatMap_cons, ih (a + 1) (fun l' hl' => h l' (List.mem_cons_of_mem _ hl')),
        map_const_replicate, h l List.mem_cons_self]
      have : c = 0 ∨ c = 1 := by omega
      rcases this with rfl | rfl
      · simp
      · simp [List.range'_succ]
  · obtain ⟨l, rfl⟩ := List.length_eq_one_iff.1 hc
    simp only [List.zipIdx_cons, List.zipIdx_nil, List.flatMap_cons, List.flatMap_nil, List.append_nil,
      map_const_replicate, h l List.mem_cons_self, List.length_singleton, List.range'_one]
    symm
    rw [List.flatMap_singleton']

theorem body_send (b : Block) (parts : List (List LineD)) (h : List.Forall₂ (PartSim F m fac L) b parts) (y x : Int)
    (hf : ∀ l, l ∈ b → ∀ e, e ∈ l.sendto → (glInt m e.1 == y) = (e.1 == x))
    (hc : ∀ l, l ∈ b → (l.sendto.filter fun e => e.1 == x).length ≤ 1 ∨ fac = 1) (i : Nat) :
    (parts.flatten.zipIdx (L + i * fac)).flatMap (fun x => (x.1.sendto.filter fun e => e.1 == y).map fun _ => x.2) =
      ((b.zipIdx i).flatMap fun z => (z.1.sendto.filter fun e => e.1 == x).map fun _ => z.2).flatMap
        fun i => List.range' (L + i * fac) fac := by
  induction h generalizing i with
  | nil => rfl
  | @cons l part ls parts hp hps ih =>
    rw [List.flatten_cons, List.zipIdx_append, List.flatMap_append, List.zipIdx_cons, List.flatMap_cons,
      List.flatMap_append, hp.len]
    have e : L + i * fac + fac = L + (i + 1) * fac := by rw [Nat.add_mul]; omega
    rw [e, ih (fun l hl => hf l (List.mem_cons_of_mem _ hl)) (fun l hl => hc l (List.mem_cons_of_mem _ hl)) (i + 1)]
    congr 1
    rw [part_send (L + i * fac) part y (l.sendto.filter fun e => e.1 == x).length, hp.len]
    · rw [map_const_replicate]
      generalize (l.sendto.filter fun e => e.1 == x).length = n
      induction n with
      | zero => rfl
      | succ n ih => rw [List.replicate_succ, List.replicate_succ, List.flatMap_cons, List.flatMap_cons, ih]
    · intro l' hl'
      obtain ⟨k, hk⟩ := List.mem_iff_getElem?.1 hl'
      exact filter_fst _ _ _ (hp.line k l' hk).send _ _ (hf l List.mem_cons_self)
    · rw [hp.len]
      exact hc l List.mem_cons_self

theorem pre_send (pre : Block) (hpre : ∀ l, l ∈ pre → Inert l) (t a : Nat) :
    (pre.zipIdx a).flatMap (fun x => (x.1.sendto.filter fun e => e.1 == (t : Int)).map fun _ => x.2) = [] := by
  rw [List.flatMap_eq_nil_iff]
  intro x hx
  rw [List.map_eq_nil_iff, List.filter_eq_nil_iff]
  intro e he
  have := (hpre x.1 (by have := (List.mem_zipIdx hx).2.2; rw [this]; exact List.getElem_mem _)).send e he
  simp only [beq_iff_eq]
  omega

theorem sendIdx_sim {b B : Block} (h : BlockSim F m fac L b B) (g q : Nat) (hb : ∀ l, l ∈ b → LineOf g l)
    (hinj : ∀ j, j < g → m j = m q → j = q)
    (hc : ∀ l, l ∈ b → (l.sendto.filter fun e => e.1 == (q : Int)).length ≤ 1 ∨ fac = 1) :
    sendIdx B (m q) = (sendIdx b q).flatMap fun i => List.range' (L + i * fac) fac := by
  obtain ⟨pre, parts, rfl, hL, hpre, hp⟩ := h.ex
  unfold sendIdx
  rw [List.zipIdx_append, List.flatMap_append, pre_send pre hpre, List.nil_append, hL]
  have := body_send b parts hp (m q : Int) (q : Int) (fun l hl e he => glInt_eq g m q hinj e.1 ((hb l hl).send e he)) hc 0
  simpa using this

theorem BlockSim.mem {b B : Block} (h : BlockSim F m fac L b B) {l' : LineD} (hl : l' ∈ B) :
    Inert l' ∨ ∃ l k, l ∈ b ∧ LineSim F m fac L k l l' := by
  obtain ⟨pre, parts, rfl, hL, hpre, hp⟩ := h.ex
  rcases List.mem_append.1 hl with hl | hl
  · exact .inl (hpre l' hl)
  · right
    obtain ⟨part, h1, h2⟩ := List.mem_flatten.1 hl
    obtain ⟨i, hi, rfl⟩ := List.mem_iff_getElem.1 h1
    have hib : i < b.length := by rw [hp.length_eq]; exact hi
    obtain ⟨k, hk⟩ := List.mem_iff_getElem?.1 h2
    exact ⟨b[i], k, List.getElem_mem hib, ((List.forall₂_iff_get.1 hp).2 i hib hi).line k l' hk⟩

theorem sendIdx_other {b B : Block} (h : BlockSim F m fac L b B) (g t : Nat) (hb : ∀ l, l ∈ b → LineOf g l)
    (hne : ∀ j, j < g → m j ≠ t) : sendIdx B t = [] := by
  unfold sendIdx
  rw [List.flatMap_eq_nil_iff]
  intro x hx
  rw [List.map_eq_nil_iff, List.filter_eq_nil_iff]
  intro e he
  rcases h.mem (mem_of_zipIdx hx) with hi | ⟨l, k, hl, hs⟩
  · have := hi.send e he
    simp only [beq_iff_eq]
    omega
  · have : e.1 ∈ x.1.sendto.map Prod.fst := List.mem_map.2 ⟨e, he, rfl⟩
    rw [hs.send] at this
    obtain ⟨e', he', h2⟩ := List.mem_map.1 this
    have := glInt_ne g m t hne e'.1 ((hb l hl).send e' he')
    rw [← h2, this]
    simp

theorem part_recv (a : Nat) (part : List LineD) (y : Int) (c : Bool)
    (h : ∀ l', l' ∈ part → (l'.recvfrom.any fun e => e.1 == y) = c) :
    ((part.zipIdx a).filter fun x => x.1.recvfrom.any fun e => e.1 == y).map (fun x => x.2) =
      if c then List.range' a part.length else [] := by
  induction part generalizing a with
  | nil => simp
  | cons l ls ih =>
    have := ih (a + 1) (fun l' hl' => h l' (List.mem_cons_of_mem _ hl'))
    rw [List.zipIdx_cons]
    cases c with
    | false =>
      rw [List.filter_cons_of_neg (by rw [h l List.mem_cons_self]; simp), this]
      rfl
    | true =>
      rw [List.filter_cons_of_pos (by exact h l List.mem_cons_self), List.map_cons, this]
      simp [List.range'_succ]

theorem body_recv (b : Block) (parts : List (List LineD)) (h : List.Forall₂ (PartSim F m fac L) b parts) (y x : Int)
    (hf : ∀ l, l ∈ b → ∀ e, e ∈ l.recvfrom → (glInt m e.1 == y) = (e.1 == x)) (i : Nat) :
    ((parts.flatten.zipIdx (L + i * fac)).filter fun x => x.1.recvfrom.any fun e => e.1 == y).map (fun x => x.2) =
      (((b.zipIdx i).filter fun z => z.1.recvfrom.any fun e => e.1 == x).map fun z => z.2).flatMap
        fun i => List.range' (L + i * fac) fac := by
  induction h generalizing i with
  | nil => rfl
  | @cons l part ls parts hp hps ih =>
    have e : L + i * fac + fac = L + (i + 1) * fac := by rw [Nat.add_mul]; omega
    rw [List.flatten_cons, List.zipIdx_append, List.filter_append, List.map_append, List.zipIdx_cons, hp.len, e,
      ih (fun l hl => hf l (List.mem_cons_of_mem _ hl)) (i + 1),
      part_recv (L + i * fac) part y (l.recvfrom.any fun e => e.1 == x), hp.len]
    · cases hc : (l.recvfrom.any fun e => e.1 == x) with
      | true => rw [List.filter_cons_of_pos (by exact hc), List.map_cons, List.flatMap_cons]; rfl
      | false => rw [List.filter_cons_of_neg (by rw [hc]; simp)]; rfl
    · intro l' hl'
      obtain ⟨k, hk⟩ := List.mem_iff_getElem?.1 hl'
      rw [any_fst _ _ _ (hp.line k l' hk).recv]
      exact any_congr _ _ _ (hf l List.mem_cons_self)

theorem recvIdx_sim {b B : Block} (h : BlockSim F m fac L b B) (g q : Nat) (hb : ∀ l, l ∈ b → LineOf g l)
    (hinj : ∀ j, j < g → m j = m q → j = q) :
    recvIdx B (m q) = (recvIdx b q).flatMap fun i => List.range' (L + i * fac) fac := by
  obtain ⟨pre, parts, rfl, hL, hpre, hp⟩ := h.ex
  unfold recvIdx
  rw [List.zipIdx_append, List.filter_append, List.map_append, hL]
  have h1 : ((pre.zipIdx).filter fun x => x.1.recvfrom.any fun e => e.1 == ((m q : Nat) : Int)) = [] := by
    rw [List.filter_eq_nil_iff]
    intro x hx
    rw [List.any_eq_true]
    rintro ⟨e, he, h2⟩
    have := (hpre x.1 (mem_of_zipIdx hx)).recv e he
    rw [beq_iff_eq] at h2
    omega
  have := body_recv b parts hp (m q : Int) (q : Int) (fun l hl e he => glInt_eq g m q hinj e.1 ((hb l hl).recv e he)) 0
  rw [h1]
  simpa using this

theorem recvIdx_other {b B : Block} (h : BlockSim F m fac L b B) (g t : Nat) (hb : ∀ l, l ∈ b → LineOf g l)
    (hne : ∀ j, j < g → m j ≠ t) : recvIdx B t = [] := by
  unfold recvIdx
  rw [List.map_eq_nil_iff, List.filter_eq_nil_iff]
  intro x hx
  rw [List.any_eq_true]
  rintro ⟨e, he, h2⟩
  rcases h.mem (mem_of_zipIdx hx) with hi | ⟨l, k, hl, hs⟩
  · have := hi.recv e he
    rw [beq_iff_eq] at h2
    omega
  · have : e.1 ∈ x.1.recvfrom.map Prod.fst := List.mem_map.2 ⟨e, he, rfl⟩
    rw [hs.recv] at this
    obtain ⟨e', he', h3⟩ := List.mem_map.1 this
    have := glInt_ne g m t hne e'.1 ((hb l hl).recv e' he')
    rw [← h3, this] at h2
    cases h2

/-- Line `k` of the lines for line `i`. -/
theorem BlockSim.get {b B : Block} (h : BlockSim F m fac L b B) (i k : Nat) (hk : k < fac) :
    (b[i]? = none ∧ B[L + (i * fac + k)]? = none) ∨
      ∃ l l', b[i]? = some l ∧ B[L + (i * fac + k)]? = some l' ∧ LineSim F m fac L k l l' := by
  obtain ⟨pre, parts, rfl, hL, hpre, hp⟩ := h.ex
  have e : (pre ++ parts.flatten)[L + (i * fac + k)]? = parts.flatten[i * fac + k]? := by
    rw [List.getElem?_append_right (by omega), hL]
    congr 1
    omega
  rw [e]
  clear e h
  induction hp generalizing i with
  | nil => left; simp
  | @cons l part ls parts hp hps ih =>
    rw [List.flatten_cons]
    cases i with
    | zero =>
      right
      have hk' : k < part.length := by rw [hp.len]; exact hk
      refine ⟨l, part[k], rfl, ?_, hp.line k _ (List.getElem?_eq_getElem hk')⟩
      rw [Nat.zero_mul, Nat.zero_add, List.getElem?_append_left hk', List.getElem?_eq_getElem hk']
    | succ i =>
      have : (part ++ parts.flatten)[(i + 1) * fac + k]? = parts.flatten[i * fac + k]? := by
        have : (i + 1) * fac = i * fac + fac := by rw [Nat.add_mul, Nat.one_mul]
        rw [List.getElem?_append_right (by rw [hp.len]; omega), hp.len]
        congr 1
        omega
      rw [this, List.getElem?_cons_succ]
      exact ih i

theorem fracOf_sim {b B : Block} (h : BlockSim F m fac L b B) (i k : Nat) (hk : k < fac) :
    fracOf B (L + (i * fac + k)) = (fracOf b i).map fun f => F f k := by
  unfold fracOf
  rcases h.get i k hk with ⟨h1, h2⟩ | ⟨l, l', h1, h2, h3⟩
  · rw [h1, h2]; rfl
  · rw [h1, h2, Option.map_some, Option.map_some, Option.map_some, h3.frac]

theorem fracOf_range {b B : Block} (h : BlockSim F m fac L b B) (i : Nat) :
    (List.range' (L + i * fac) fac).map (fracOf B) = (List.range fac).map fun k => (fracOf b i).map fun f => F f k := by
  rw [List.range'_eq_map_range, List.map_map]
  apply List.map_congr_left
  intro k hk
  have := fracOf_sim h i k (List.mem_range.1 hk)
  rw [← this, Function.comp_apply, Nat.add_assoc]

theorem reduces_sim {b B : Block} (h : BlockSim F m fac L b B) (g l q : Nat) (hb : ∀ l, l ∈ b → LineOf g l)
    (hfac : 0 < fac) (hinj : ∀ i j, i < g → j < g → m i = m j → i = j) (hl : l < g) (hq : q < g) :
    reduces B (m l) (m q) = reduces b l q := by
  unfold reduces
  rw [recvIdx_sim h g q hb fun j hj => hinj j q hj hq]
  have e : ((recvIdx b q).flatMap fun i => List.range' (L + i * fac) fac).getLast? =
      (recvIdx b q).getLast?.map fun i => L + (i * fac + (fac - 1)) := by
    generalize recvIdx b q = xs
    induction xs using List.reverseRecOn with
    | nil => rfl
    | append_singleton xs x _ =>
      rw [List.flatMap_append, List.flatMap_singleton, List.getLast?_append, List.getLast?_range', if_neg (by omega)]
      simp
      omega
  rw [e]
  cases hr : (recvIdx b q).getLast? with
  | none => rfl
  | some i =>
    simp only [Option.map_some]
    rcases h.get i (fac - 1) (by omega) with ⟨h1, h2⟩ | ⟨x, x', h1, h2, h3⟩
    · rw [h1, h2]; rfl
    · rw [h1, h2]
      simp only [Option.bind_some]
      have h4 := congrArg List.head? h3.recv
      rw [List.head?_map, List.head?_map] at h4
      rw [h4]
      cases hx : x.recvfrom with
      | nil => rfl
      | cons e es =>
        have he := (hb x (List.mem_of_getElem? h1)).recv e (by rw [hx]; exact List.mem_cons_self)
        have := glInt_eq g m l (fun j hj => hinj j l hj hl) e.1 he
        simpa using this

end ExtMpi.Groups
