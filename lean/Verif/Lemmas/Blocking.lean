import Verif.Spec.Blocking
import Mathlib.Data.List.Perm.Basic
import Mathlib.Algebra.BigOperators.Group.List.Lemmas
/-!
# Data flow of an execution, and its dependence on the unit
-/
namespace ExtMpi.Blocking

/-! ### Backward data flow -/

/-- Elements before an update whose sum is the sum of `W` after it. -/
def pull (add : Bool) (u : Loc → Option Loc) (W : List Loc) : List Loc :=
  W.flatMap fun d => match u d with
    | none => [d]
    | some s => if add then [d, s] else [s]

theorem pull_sum {α : Type} [AddCommMonoid α] (add : Bool) (u : Loc → Option Loc) (m : Loc → α) (W : List Loc) :
    (W.map (apply add u m)).sum = ((pull add u W).map m).sum := by
  induction W with
  | nil => rfl
  | cons d W ih =>
    rw [List.map_cons, List.sum_cons, ih]
    unfold pull
    rw [List.flatMap_cons, List.map_append, List.sum_append]
    congr 1
    unfold apply
    cases u d with
    | none => simp
    | some s => cases add <;> simp

theorem pull_congr (add : Bool) (u v : Loc → Option Loc) (W : List Loc) (h : ∀ d ∈ W, u d = v d) :
    pull add u W = pull add v W := by
  unfold pull
  induction W with
  | nil => rfl
  | cons d W ih =>
    rw [List.flatMap_cons, List.flatMap_cons, h d (by simp), ih fun d hd => h d (by simp [hd])]

theorem mem_pull_of_none (add : Bool) (u : Loc → Option Loc) (W : List Loc) (l : Loc) (h : u l = none)
    (hl : l ∈ W) : l ∈ pull add u W := by
  unfold pull
  rw [List.mem_flatMap]
  exact ⟨l, hl, by rw [h]; simp⟩

theorem mem_pull_src (add : Bool) (u : Loc → Option Loc) (W : List Loc) (d s : Loc) (h : u d = some s)
    (hd : d ∈ W) : s ∈ pull add u W := by
  unfold pull
  rw [List.mem_flatMap]
  exact ⟨d, hd, by rw [h]; cases add <;> simp⟩

theorem pull_map (add : Bool) (u v : Loc → Option Loc) (φ : Loc → Loc) (h : ∀ l, v (φ l) = (u l).map φ)
    (W : List Loc) : pull add v (W.map φ) = (pull add u W).map φ := by
  unfold pull
  induction W with
  | nil => rfl
  | cons d W ih =>
    rw [List.map_cons, List.flatMap_cons, List.flatMap_cons, List.map_append, ih, h]
    congr 1
    cases u d with
    | none => rfl
    | some s => cases add <;> rfl

/-- Backward data flow through a sequence of updates. -/
def pulls : List (Bool × (Loc → Option Loc)) → List Loc → List Loc
  | [], W => W
  | x :: xs, W => pull x.1 x.2 (pulls xs W)

def updates (ts : Nat) (as : List Act) : List (Bool × (Loc → Option Loc)) := as.map fun a => (a.add, a.upd ts)

/-- Result of an execution in terms of the memory at its beginning. -/
theorem exec_some {α : Type} [AddCommMonoid α] (ts : Nat) (as : List Act) (m : Loc → α) :
    (∀ a ∈ as, a.Ok ts) → ∃ m', exec ts (as.map some) m = some m' ∧
      ∀ W : List Loc, (W.map m').sum = ((pulls (updates ts as) W).map m).sum := by
  induction as generalizing m with
  | nil => intro _; exact ⟨m, rfl, fun W => rfl⟩
  | cons a as ih =>
    intro h
    obtain ⟨m', h1, h2⟩ := ih (apply a.add (a.upd ts) m) fun x hx => h x (by simp [hx])
    refine ⟨m', ?_, ?_⟩
    · rw [List.map_cons, exec, if_pos (h a (by simp)), h1]
    · intro W
      rw [h2 W, pull_sum]
      rfl

theorem exec_ok {α : Type} [Add α] (ts : Nat) (as : List (Option Act)) (m m' : Loc → α)
    (h : exec ts as m = some m') : ∃ bs : List Act, as = bs.map some ∧ ∀ a ∈ bs, a.Ok ts := by
  induction as generalizing m with
  | nil => exact ⟨[], rfl, by simp⟩
  | cons a as ih =>
    cases a with
    | none => cases h
    | some a =>
      rw [exec] at h
      split at h
      · rename_i ho
        obtain ⟨bs, rfl, hb⟩ := ih _ h
        exact ⟨a :: bs, rfl, by simpa using ⟨ho, hb⟩⟩
      · cases h

/-! ### Change of the unit -/

/-- Element `r` of unit `b`, with `k` elements per unit. -/
def emb (k r : Nat) (l : Loc) : Loc := (l.1, l.2.1, l.2.2 * k + r)

theorem emb_inj (k r : Nat) (hk : 0 < k) : Function.Injective (emb k r) := by
  rintro ⟨p, R, b⟩ ⟨p', R', b'⟩ h
  simp only [emb, Prod.mk.injEq] at h
  obtain ⟨h1, h2, h3⟩ := h
  have : b = b' := Nat.eq_of_mul_eq_mul_right hk (by omega)
  rw [h1, h2, this]

def isIo : Region → Bool
  | .shm _ => false
  | _ => true

/-- Elements that do not exist in the vector of `c` elements. -/
def beyond (q r c : Nat) (l : Loc) : Prop := isIo l.2.1 = true ∧ c ≤ l.2.2 * q + r

instance (q r c : Nat) (l : Loc) : Decidable (beyond q r c l) := by unfold beyond; infer_instance

/-- Updates between existing elements only. -/
def clip (bad : Loc → Prop) [DecidablePred bad] (u : Loc → Option Loc) (l : Loc) : Option Loc :=
  if bad l then none else (u l).filter fun s => ¬ bad s

/-- The step in units: offsets and sizes divided by `D` bytes. -/
def unitAct (D : Nat) : Item → Act
  | .copy p d s n => ⟨false, p, regionOf (d / seg), d % seg / D, p, regionOf (s / seg), s % seg / D, n / D⟩
  | .reduce p d s n => ⟨true, p, regionOf (d / seg), d % seg / D, p, regionOf (s / seg), s % seg / D, n / (D / 8)⟩
  | .message p d _ q s sn _ => ⟨false, p, regionOf (d / seg), d % seg / D, q, regionOf (s / seg), s % seg / D, sn / D⟩

theorem unit_lt (o b k r n : Nat) (hr : r < k) : (o * k ≤ b * k + r ∧ b * k + r < o * k + n * k) ↔ (o ≤ b ∧ b < o + n) := by
  constructor
  · rintro ⟨h1, h2⟩
    constructor
    · by_contra h
      have : (b + 1) * k ≤ o * k := Nat.mul_le_mul_right k (by omega)
      rw [Nat.add_mul] at this; omega
    · by_contra h
      have : (o + n) * k ≤ b * k := Nat.mul_le_mul_right k (by omega)
      rw [Nat.add_mul] at this; omega
  · rintro ⟨h1, h2⟩
    have a1 : o * k ≤ b * k := Nat.mul_le_mul_right k h1
    have a2 : (b + 1) * k ≤ (o + n) * k := Nat.mul_le_mul_right k (by omega)
    rw [Nat.add_mul, Nat.add_mul] at a2
    omega

/-- A step whose number of elements is the number of units times `k`, cut at the end of the vector, acts on
the elements `r` of the units as the step in units does. -/
theorem upd_emb (ts k r c : Nat) (hts : 0 < ts) (hr : r < k) (a b : Act) (h1 : a.dp = b.dp) (h2 : a.dr = b.dr)
    (h3 : a.doff = b.doff * k * ts) (h4 : a.sp = b.sp) (h5 : a.sr = b.sr) (h6 : a.soff = b.soff * k * ts)
    (n : Nat) (h7 : a.n = n * ts)
    (h8 : ∀ x, x < n ↔ x < b.n * k ∧ (isIo b.dr = true → b.doff * k + x < c) ∧ (isIo b.sr = true → b.soff * k + x < c))
    (l : Loc) : a.upd ts (emb k r l) = (clip (beyond k r c) (b.upd 1) l).map (emb k r) := by
  obtain ⟨p, R, e⟩ := l
  unfold Act.upd clip
  simp only [emb, Nat.div_one, h1, h2, h3, h4, h5, h6, h7, Nat.mul_div_cancel _ hts]
  by_cases hp : p = b.dp ∧ R = b.dr ∧ b.doff ≤ e ∧ e < b.doff + b.n
  · obtain ⟨rfl, rfl, h9, h10⟩ := hp
    have hu := (unit_lt b.doff e k r b.n hr).mpr ⟨h9, h10⟩
    have he : e * k + r - b.doff * k + b.soff * k = (e - b.doff + b.soff) * k + r := by
      rw [Nat.add_mul, Nat.sub_mul]
      have : b.doff * k ≤ e * k := Nat.mul_le_mul_right k h9
      omega
    have hx := h8 (e * k + r - b.doff * k)
    have hif : (if b.dp = b.dp ∧ b.dr = b.dr ∧ b.doff ≤ e ∧ e < b.doff + b.n then
        some (b.sp, b.sr, e - b.doff + b.soff) else none) = some (b.sp, b.sr, e - b.doff + b.soff) :=
      if_pos ⟨rfl, rfl, h9, h10⟩
    rw [hif]
    by_cases hb : beyond k r c (b.dp, b.dr, e)
    · rw [if_pos hb, if_neg]
      · rfl
      · rintro ⟨_, _, h11, h12⟩
        have := (hx.mp (by omega)).2.1 hb.1
        have := hb.2
        simp only at this
        omega
    · rw [if_neg hb]
      by_cases hs : beyond k r c (b.sp, b.sr, e - b.doff + b.soff)
      · rw [if_neg, Option.filter_some, if_neg (by simpa using hs)]
        · rfl
        · rintro ⟨_, _, h11, h12⟩
          have := (hx.mp (by omega)).2.2 hs.1
          have := hs.2
          simp only at this
          omega
      · rw [if_pos, Option.filter_some, if_pos (by simpa using hs)]
        · simp only [Option.map_some, he]; rfl
        · refine ⟨rfl, rfl, hu.1, ?_⟩
          have : e * k + r - b.doff * k < n := by
            rw [hx]
            refine ⟨by omega, ?_, ?_⟩
            · intro hio
              by_contra hc
              exact hb ⟨hio, by simp only; omega⟩
            · intro hio
              by_contra hc
              exact hs ⟨hio, by simp only; omega⟩
          omega
  · rw [if_neg hp, if_neg]
    · split <;> rfl
    · rintro ⟨g1, g2, g3, g4⟩
      apply hp
      have : e * k + r - b.doff * k < n := by omega
      have := ((h8 _).mp this).1
      exact ⟨g1, g2, (unit_lt b.doff e k r b.n hr).mp ⟨g3, by omega⟩⟩

/-! ### Steps of prepared programs -/

/-- All offsets and sizes of a step are multiples of `D` bytes. -/
def Aligned (D : Nat) : Item → Prop
  | .copy _ d s n => D ∣ d % seg ∧ D ∣ s % seg ∧ D ∣ n
  | .reduce _ d s n => D ∣ d % seg ∧ D ∣ s % seg ∧ D / 8 ∣ n
  | .message _ d rn _ s sn _ => D ∣ d % seg ∧ D ∣ s % seg ∧ D ∣ rn ∧ D ∣ sn

instance (D : Nat) (i : Item) : Decidable (Aligned D i) := by cases i <;> unfold Aligned <;> infer_instance

theorem normAddr_off (D p : Nat) : normAddr D p % seg = p % seg / D := by
  unfold normAddr
  rw [Nat.add_mul_mod_self_right, Nat.mod_eq_of_lt]
  exact Nat.lt_of_le_of_lt (Nat.div_le_self _ _) (Nat.mod_lt _ (by decide))

theorem normAddr_tag (D p : Nat) : normAddr D p / seg = p / seg := by
  unfold normAddr
  rw [Nat.add_mul_div_right _ _ (by decide : 0 < seg), Nat.div_eq_of_lt, Nat.zero_add]
  exact Nat.lt_of_le_of_lt (Nat.div_le_self _ _) (Nat.mod_lt _ (by decide))

/-- Size after relocation. -/
def clipSize (io : Bool) (sizeIo off size : Nat) : Nat :=
  if io then (if off + size > sizeIo then sizeIo - off else size) else size

theorem recalc_norm (D count sizeIo p size : Nat) :
    recalc count sizeIo (normAddr D p) size =
      (regionOf (p / seg), p % seg / D * count, clipSize (isIo (regionOf (p / seg))) sizeIo (p % seg / D * count) size) := by
  unfold recalc
  simp only [normAddr_off, normAddr_tag]
  cases regionOf (p / seg) <;> rfl

theorem clipSize_mul (io : Bool) (c off size ts : Nat) (hts : 0 < ts) :
    clipSize io (c * ts) (off * ts) (size * ts) = clipSize io c off size * ts := by
  unfold clipSize
  cases io
  · rfl
  · simp only [if_true]
    have : (off * ts + size * ts > c * ts) ↔ (off + size > c) := by
      rw [← Nat.add_mul]
      exact Nat.mul_lt_mul_right hts
    split <;> rename_i h
    · rw [if_pos (this.mp h), Nat.sub_mul]
    · rw [if_neg fun h' => h (this.mpr h')]

theorem lt_clipSize (io : Bool) (c off size x : Nat) :
    x < clipSize io c off size ↔ x < size ∧ (io = true → off + x < c) := by
  unfold clipSize
  cases io
  · simp
  · simp only [if_true, true_implies]
    split <;> omega

theorem clipSize_le (io : Bool) (c off size : Nat) : clipSize io c off size ≤ size := by
  unfold clipSize
  cases io
  · simp
  · simp only [if_true]; split <;> omega

theorem clipSize_mono (io : Bool) (c off s s' : Nat) (h : s ≤ s') : clipSize io c off s ≤ clipSize io c off s' := by
  unfold clipSize
  cases io
  · simpa
  · simp only [if_true]; split <;> split <;> omega

/-- The same without an end of the vector. -/
theorem upd_emb_full (ts k r : Nat) (hts : 0 < ts) (hr : r < k) (a b : Act) (h1 : a.dp = b.dp) (h2 : a.dr = b.dr)
    (h3 : a.doff = b.doff * k * ts) (h4 : a.sp = b.sp) (h5 : a.sr = b.sr) (h6 : a.soff = b.soff * k * ts)
    (h7 : a.n = b.n * k * ts) (l : Loc) : a.upd ts (emb k r l) = (b.upd 1 l).map (emb k r) := by
  obtain ⟨c, hc⟩ : ∃ c, c = (b.doff + b.soff + b.n + l.2.2) * k + r + 1 := ⟨_, rfl⟩
  simp only [Nat.add_mul] at hc
  rw [upd_emb ts k r c hts hr a b h1 h2 h3 h4 h5 h6 (b.n * k) h7 ?_ l]
  · congr 1
    unfold clip
    rw [if_neg]
    · unfold Act.upd
      split
      · rename_i h
        rw [Option.filter_some, if_pos]
        simp only [Nat.div_one, decide_not, Bool.not_eq_eq_eq_not, Bool.not_true, decide_eq_false_iff_not]
        rintro ⟨_, hx⟩
        simp only [Nat.add_mul, Nat.sub_mul] at hx
        omega
      · rfl
    · rintro ⟨_, hx⟩
      omega
  · intro x
    constructor
    · intro hx
      exact ⟨hx, fun _ => by omega, fun _ => by omega⟩
    · exact fun h => h.1

theorem dvd_mul_eq (D x k : Nat) (hD : D = 8 * k) (h : D ∣ x) : x = x / D * k * 8 := by
  obtain ⟨y, rfl⟩ := h
  rcases Nat.eq_zero_or_pos D with h0 | h0
  · subst h0; simp
  · rw [Nat.mul_div_cancel_left _ h0, hD, Nat.mul_comm (8 * k), Nat.mul_assoc, Nat.mul_comm k 8]

/-- A prepared step against the step in units. -/
theorem prep_unit (pf D : Nat) (hD : D = 8 * pf) (it : Item) (hal : Aligned D it) (a : Act) (ha : prepAct it = some a) :
    a.add = (unitAct D it).add ∧ a.dp = (unitAct D it).dp ∧ a.dr = (unitAct D it).dr ∧
      a.doff = (unitAct D it).doff * pf * 8 ∧ a.sp = (unitAct D it).sp ∧ a.sr = (unitAct D it).sr ∧
      a.soff = (unitAct D it).soff * pf * 8 ∧ a.n = (unitAct D it).n * pf * 8 := by
  cases it with
  | copy p d s n =>
    simp only [prepAct, Option.some.injEq] at ha
    subst ha
    exact ⟨rfl, rfl, rfl, dvd_mul_eq D _ pf hD hal.1, rfl, rfl, dvd_mul_eq D _ pf hD hal.2.1, dvd_mul_eq D _ pf hD hal.2.2⟩
  | reduce p d s n =>
    simp only [prepAct, Option.some.injEq] at ha
    subst ha
    refine ⟨rfl, rfl, rfl, dvd_mul_eq D _ pf hD hal.1, rfl, rfl, dvd_mul_eq D _ pf hD hal.2.1, ?_⟩
    have h8 : D / 8 = pf := by omega
    have := hal.2.2
    show n * 8 = n / (D / 8) * pf * 8
    rw [h8] at this ⊢
    rw [Nat.div_mul_cancel this]
  | message p d rn q s sn seen =>
    simp only [prepAct] at ha
    split at ha
    · cases ha
    · simp only [Option.some.injEq] at ha
      subst ha
      exact ⟨rfl, rfl, rfl, dvd_mul_eq D _ pf hD hal.1, rfl, rfl, dvd_mul_eq D _ pf hD hal.2.1,
        dvd_mul_eq D _ pf hD hal.2.2.2⟩

/-- The sender of a message knows the receive buffer. -/
def Seen : Item → Prop
  | .message _ _ _ _ _ _ b => b = true
  | _ => True

instance (i : Item) : Decidable (Seen i) := by cases i <;> unfold Seen <;> infer_instance

/-- A relocated step against the step in units. -/
theorem block_unit (ts q c D : Nat) (hts : 0 < ts) (it : Item) (hseen : Seen it) (hp : prepAct it ≠ none) :
    ∃ a n, blockAct ts (q * ts) (c * ts) (normItem D it) = some a ∧
      a.add = (unitAct D it).add ∧ a.dp = (unitAct D it).dp ∧ a.dr = (unitAct D it).dr ∧
      a.doff = (unitAct D it).doff * q * ts ∧ a.sp = (unitAct D it).sp ∧ a.sr = (unitAct D it).sr ∧
      a.soff = (unitAct D it).soff * q * ts ∧ a.n = n * ts ∧
      ∀ x, x < n ↔ x < (unitAct D it).n * q ∧ (isIo (unitAct D it).dr = true → (unitAct D it).doff * q + x < c) ∧
        (isIo (unitAct D it).sr = true → (unitAct D it).soff * q + x < c) := by
  cases it with
  | copy p d s n =>
    simp only [normItem, blockAct, recalc_norm, ← Nat.mul_assoc, clipSize_mul _ _ _ _ _ hts]
    refine ⟨_, _, rfl, rfl, rfl, rfl, rfl, rfl, rfl, rfl, rfl, ?_⟩
    intro x
    rw [lt_clipSize, lt_clipSize]
    simp only [unitAct]
    tauto
  | reduce p d s n =>
    simp only [normItem, blockAct, recalc_norm, ← Nat.mul_assoc, clipSize_mul _ _ _ _ _ hts, Nat.mul_div_cancel _ hts]
    refine ⟨_, _, rfl, rfl, rfl, rfl, rfl, rfl, rfl, rfl, rfl, ?_⟩
    intro x
    rw [lt_clipSize, lt_clipSize]
    simp only [unitAct]
    tauto
  | message p d rn r s sn seen =>
    have hs : seen = true := hseen
    subst hs
    have hle : sn ≤ rn := by
      by_contra h
      exact hp (if_pos (by omega))
    have hle' : sn / D ≤ rn / D := Nat.div_le_div_right hle
    simp only [normItem, blockAct, if_true, recalc_norm, ← Nat.mul_assoc, clipSize_mul _ _ _ _ _ hts]
    rw [if_neg]
    · refine ⟨_, _, rfl, rfl, rfl, rfl, rfl, rfl, rfl, rfl, rfl, ?_⟩
      intro x
      rw [lt_clipSize, lt_clipSize]
      simp only [unitAct]
      tauto
    · refine Nat.not_lt.mpr (Nat.mul_le_mul_right ts ?_)
      apply clipSize_mono
      exact Nat.le_trans (clipSize_le _ _ _ _) (Nat.mul_le_mul_right q hle')

theorem ok_of_unit (ts q n : Nat) (a b : Act) (h1 : a.dp = b.dp) (h2 : a.dr = b.dr)
    (h3 : a.doff = b.doff * q * ts) (h4 : a.sp = b.sp) (h5 : a.sr = b.sr) (h6 : a.soff = b.soff * q * ts)
    (h7 : a.n = n * ts) (h8 : n ≤ b.n * q) (hb : b.Ok 1) : a.Ok ts := by
  refine ⟨⟨_, by rw [h3, Nat.mul_comm]⟩, ⟨_, by rw [h6, Nat.mul_comm]⟩, ⟨_, by rw [h7, Nat.mul_comm]⟩, ?_⟩
  have key : ∀ x y : Nat, x + b.n ≤ y → x * q * ts + n * ts ≤ y * q * ts := by
    intro x y hxy
    rw [← Nat.add_mul]
    apply Nat.mul_le_mul_right
    have := Nat.mul_le_mul_right q hxy
    rw [Nat.add_mul] at this
    omega
  rcases hb.2.2.2 with h | h | h | h | h
  · left; rw [h, Nat.zero_mul, Nat.le_zero] at h8; rw [h7, h8, Nat.zero_mul]
  · right; left; rwa [h1, h4]
  · right; right; left; rwa [h2, h5]
  · right; right; right; left
    rw [h3, h6, h7]
    exact key _ _ h
  · right; right; right; right
    rw [h3, h6, h7]
    exact key _ _ h

theorem unit_ok (pf : Nat) (hpf : 0 < pf) (a b : Act) (h1 : a.dp = b.dp) (h2 : a.dr = b.dr)
    (h3 : a.doff = b.doff * pf * 8) (h4 : a.sp = b.sp) (h5 : a.sr = b.sr) (h6 : a.soff = b.soff * pf * 8)
    (h7 : a.n = b.n * pf * 8) (ha : a.Ok 8) : b.Ok 1 := by
  refine ⟨one_dvd _, one_dvd _, one_dvd _, ?_⟩
  have key : ∀ x y : Nat, x * pf * 8 + b.n * pf * 8 ≤ y * pf * 8 → x + b.n ≤ y := by
    intro x y h
    rw [← Nat.add_mul, ← Nat.add_mul] at h
    exact Nat.le_of_mul_le_mul_right (Nat.le_of_mul_le_mul_right h (by decide)) hpf
  rcases ha.2.2.2 with h | h | h | h | h
  · left
    rw [h7] at h
    rcases Nat.mul_eq_zero.mp h with h | h
    · rcases Nat.mul_eq_zero.mp h with h | h
      · exact h
      · omega
    · omega
  · right; left; rwa [← h1, ← h4]
  · right; right; left; rwa [← h2, ← h5]
  · right; right; right; left
    rw [h3, h6, h7] at h
    exact key _ _ h
  · right; right; right; right
    rw [h3, h6, h7] at h
    exact key _ _ h

end ExtMpi.Blocking
