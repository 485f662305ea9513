import Verif.Lemmas.Blocking
import Verif.Spec.Partition
import Verif.Props.Numeric
/-!
# C31, C32, C47, C48: blocking collectives
-/
namespace ExtMpi.Blocking

/-! ### C31 -/

theorem pick_main (ccount : Nat) (caps : List Nat) (i : Nat) (hne : caps ≠ []) :
    i ≤ pick ccount caps i ∧ pick ccount caps i < i + caps.length ∧
    (∀ k, i ≤ k → k < pick ccount caps i → ∀ x, caps[k - i]? = some x → x < ccount) ∧
    ((∃ x ∈ caps, ccount ≤ x) → ∃ x, caps[pick ccount caps i - i]? = some x ∧ ccount ≤ x) := by
  induction caps generalizing i with
  | nil => exact absurd rfl hne
  | cons c cs ih =>
    cases cs with
    | nil =>
      simp only [pick, List.length_singleton]
      refine ⟨by omega, by omega, fun k h1 h2 => by omega, ?_⟩
      rintro ⟨x, hx, hle⟩
      rw [List.mem_singleton] at hx
      subst hx
      exact ⟨x, by simp, hle⟩
    | cons c' cs =>
      by_cases h : c < ccount
      · have e : pick ccount (c :: c' :: cs) i = pick ccount (c' :: cs) (i + 1) := if_pos h
        obtain ⟨h1, h2, h3, h4⟩ := ih (i + 1) (by simp)
        rw [e]
        refine ⟨by omega, by simp only [List.length_cons] at h2 ⊢; omega, ?_, ?_⟩
        · intro k hk hk' x hx
          rcases Nat.eq_or_lt_of_le hk with rfl | hlt
          · rw [Nat.sub_self, List.getElem?_cons_zero, Option.some.injEq] at hx
            omega
          · rw [show k - i = k - (i + 1) + 1 by omega, List.getElem?_cons_succ] at hx
            exact h3 k hlt hk' x hx
        · rintro ⟨x, hx, hle⟩
          rcases List.mem_cons.mp hx with rfl | hx
          · omega
          · obtain ⟨y, hy, hle⟩ := h4 ⟨x, hx, hle⟩
            refine ⟨y, ?_, hle⟩
            rw [show pick ccount (c' :: cs) (i + 1) - i = pick ccount (c' :: cs) (i + 1) - (i + 1) + 1 by omega,
              List.getElem?_cons_succ, hy]
      · have e : pick ccount (c :: c' :: cs) i = i := if_neg h
        rw [e]
        refine ⟨by omega, by simp, fun k h1 h2 => by omega, fun _ => ⟨c, by simp, by omega⟩⟩

/-- **C31.** With capacities in increasing order, the program chosen is the smallest one that is large enough
when there is one, and otherwise the last, largest one. -/
theorem pick_spec (ccount : Nat) (caps : List Nat) (hne : caps ≠ []) (hs : caps.Pairwise (· ≤ ·)) :
    ∃ x, caps[pick ccount caps 0]? = some x ∧
      ((∃ y ∈ caps, ccount ≤ y) → ccount ≤ x ∧ ∀ y ∈ caps, ccount ≤ y → x ≤ y) ∧
      ((∀ y ∈ caps, y < ccount) → ∀ y ∈ caps, y ≤ x) := by
  obtain ⟨_, h2, h3, h4⟩ := pick_main ccount caps 0 hne
  rw [Nat.zero_add] at h2
  refine ⟨caps[pick ccount caps 0], List.getElem?_eq_getElem h2, ?_, ?_⟩
  · intro hex
    obtain ⟨x, hx, hle⟩ := h4 hex
    rw [Nat.sub_zero, List.getElem?_eq_getElem h2, Option.some.injEq] at hx
    rw [hx]
    refine ⟨hle, ?_⟩
    intro y hy hley
    obtain ⟨k, hk, rfl⟩ := List.getElem_of_mem hy
    by_contra hlt
    have : pick ccount caps 0 ≤ k := by
      by_contra hc
      have := h3 k (by omega) (by omega) caps[k] (by rw [Nat.sub_zero]; exact List.getElem?_eq_getElem hk)
      omega
    rcases Nat.eq_or_lt_of_le this with he | hl
    · subst he; omega
    · have := List.pairwise_iff_getElem.mp hs _ _ h2 hk hl
      omega
  · intro hall y hy
    obtain ⟨k, hk, rfl⟩ := List.getElem_of_mem hy
    rcases Nat.lt_trichotomy k (pick ccount caps 0) with h | h | h
    · exact List.pairwise_iff_getElem.mp hs _ _ hk h2 h
    · subst h; exact Nat.le_refl _
    · exfalso
      -- the search goes on while the capacity is too small
      have hl : ∀ (caps : List Nat) (i : Nat), caps ≠ [] → (∀ y ∈ caps, y < ccount) →
          pick ccount caps i + 1 = i + caps.length := by
        intro caps
        induction caps with
        | nil => intro i h; exact absurd rfl h
        | cons c cs ih =>
          intro i _ hh
          cases cs with
          | nil => rfl
          | cons c' cs =>
            have e : pick ccount (c :: c' :: cs) i = pick ccount (c' :: cs) (i + 1) := if_pos (hh c (by simp))
            rw [e, ih (i + 1) (by simp) fun y hy => hh y (by simp [hy])]
            simp only [List.length_cons]
            omega
      have := hl caps 0 hne hall
      omega

/-- The capacities prepared by `init_blocking_comm_allreduce` (`src/mpi/ext_mpi_blocking.c:39`), in bytes. -/
def preparedCaps : List Nat := [1, 4, 16, 64, 256, 2048, 16384, 131072].map (· * 8)

example : preparedCaps.Pairwise (· ≤ ·) ∧ preparedCaps ≠ [] := by decide
example : pick 128 preparedCaps 0 = 2 ∧ pick 129 preparedCaps 0 = 3 ∧ pick 99999999 preparedCaps 0 = 7 := by decide

/-! ### C32 -/

/-- Accesses to the user's buffers stay inside. -/
theorem inside (ts count sizeIo : Nat) (it : Item) (a : Act) (h : blockAct ts count sizeIo it = some a) (hn : a.n ≠ 0) :
    (isIo a.dr = true → a.doff + a.n ≤ sizeIo) ∧ (isIo a.sr = true → a.soff + a.n ≤ sizeIo) := by
  have hr : ∀ p size, recalc count sizeIo p size = (regionOf (p / seg), p % seg * count,
      clipSize (isIo (regionOf (p / seg))) sizeIo (p % seg * count) size) := by
    intro p size
    unfold recalc
    cases regionOf (p / seg) <;> rfl
  have hc : ∀ (io : Bool) (off size : Nat), io = true → clipSize io sizeIo off size ≠ 0 →
      off + clipSize io sizeIo off size ≤ sizeIo := by
    intro io off size hio hne
    unfold clipSize at *
    simp only [hio, if_true] at *
    split <;> rename_i hx
    · rw [if_pos hx] at hne; omega
    · omega
  have two : ∀ (io1 io2 : Bool) (o1 o2 size n : Nat), n ≤ clipSize io2 sizeIo o2 (clipSize io1 sizeIo o1 size) → n ≠ 0 →
      (io1 = true → o1 + n ≤ sizeIo) ∧ (io2 = true → o2 + n ≤ sizeIo) := by
    intro io1 io2 o1 o2 size n hn hne
    have h2 := clipSize_le io2 sizeIo o2 (clipSize io1 sizeIo o1 size)
    constructor
    · intro hio
      have := hc io1 o1 size hio (by omega)
      omega
    · intro hio
      have := hc io2 o2 (clipSize io1 sizeIo o1 size) hio (by omega)
      omega
  cases it with
  | copy p d s n =>
    simp only [blockAct, hr, Option.some.injEq] at h
    subst h
    exact two _ _ _ _ _ _ (Nat.le_refl _) hn
  | reduce p d s n =>
    simp only [blockAct, hr, Option.some.injEq] at h
    subst h
    exact two _ _ _ _ _ _ (Nat.div_mul_le_self _ _) hn
  | message p d rn q s sn seen =>
    have hle2 : (if seen = true then clipSize (isIo (regionOf (d / seg))) sizeIo (d % seg * count)
        (clipSize (isIo (regionOf (s / seg))) sizeIo (s % seg * count) (sn * count))
        else clipSize (isIo (regionOf (s / seg))) sizeIo (s % seg * count) (sn * count)) ≤
        clipSize (isIo (regionOf (s / seg))) sizeIo (s % seg * count) (sn * count) := by
      split
      · exact clipSize_le _ _ _ _
      · exact Nat.le_refl _
    simp only [blockAct, hr] at h
    revert hle2 h
    generalize (if seen = true then clipSize (isIo (regionOf (d / seg))) sizeIo (d % seg * count)
        (clipSize (isIo (regionOf (s / seg))) sizeIo (s % seg * count) (sn * count))
        else clipSize (isIo (regionOf (s / seg))) sizeIo (s % seg * count) (sn * count)) = len
    intro hle2 h
    split at h
    · cases h
    · rename_i hle
      simp only [Option.some.injEq] at h
      subst h
      simp only at hn hle ⊢
      constructor
      · intro hio
        have := hc _ (d % seg * count) (rn * count) hio (by omega)
        omega
      · intro hio
        have := hc _ (s % seg * count) (sn * count) hio (by omega)
        omega

theorem unitOf_pos (c units ts : Nat) (hc : 0 < c) (hu : 0 < units) :
    unitOf c units ts = ((c - 1) / units + 1) * ts ∧ c ≤ units * ((c - 1) / units + 1) := by
  constructor
  · unfold unitOf
    have : ((c : Int) - 1) = ((c - 1 : Nat) : Int) := by omega
    rw [this]
    have : ((c - 1 : Nat) : Int).tdiv (units : Int) = (((c - 1) / units : Nat) : Int) := by
      rw [Int.ofNat_tdiv]
    rw [this]
    rfl
  · have := Nat.lt_mul_div_succ (c - 1) hu
    omega

/-- **C32**, pieces of the user's buffers: pieces that divide the prepared vector of `j` elements, relocated to a
vector of `c` elements of `ts` bytes, divide that vector. `D` is the unit of the prepared program; what is missing are
programs with pieces that are not multiples of it, see `tiling_violated`. -/
theorem tiling_partial (buf : Nat) (hbuf : buf = 8 ∨ buf = 9) (j pf D n : Nat) (off len : Nat → Nat)
    (hD : D = 8 * pf) (hpf : 0 < pf) (hj : j * 8 < seg) (hpart : Spec.ExactPartition (j * 8) n off len)
    (hoff : ∀ r, r < n → D ∣ off r ∧ D ∣ len r ∧ off r < seg) (hdj : pf ∣ j) (hj0 : 0 < j)
    (c ts : Nat) (hc : 0 < c) (hts : 0 < ts) :
    Spec.ExactPartition (c * ts) n
      (fun r => (recalc (unitOf c (j / pf) ts) (c * ts) (normAddr D (buf * seg + off r)) (len r / D * unitOf c (j / pf) ts)).2.1)
      (fun r => (recalc (unitOf c (j / pf) ts) (c * ts) (normAddr D (buf * seg + off r)) (len r / D * unitOf c (j / pf) ts)).2.2) := by
  have hD0 : 0 < D := by omega
  have hU0 : 0 < j / pf := Nat.div_pos (Nat.le_of_dvd hj0 hdj) hpf
  obtain ⟨hu, hcov⟩ := unitOf_pos c (j / pf) ts hc hU0
  rw [hu]
  obtain ⟨u, hudef⟩ : ∃ u, u = ((c - 1) / (j / pf) + 1) * ts := ⟨_, rfl⟩
  rw [← hudef]
  have hu0 : 0 < u := by rw [hudef]; exact Nat.mul_pos (Nat.succ_pos _) hts
  have hcov' : c * ts ≤ j / pf * u := by
    rw [hudef, ← Nat.mul_assoc]
    exact Nat.mul_le_mul_right ts hcov
  have hio : isIo (regionOf buf) = true := by rcases hbuf with rfl | rfl <;> rfl
  have hrec : ∀ r, r < n → recalc u (c * ts) (normAddr D (buf * seg + off r)) (len r / D * u) =
      (regionOf buf, off r / D * u, clipSize true (c * ts) (off r / D * u) (len r / D * u)) := by
    intro r hr
    have h1 : (buf * seg + off r) % seg = off r := by
      rw [Nat.mul_comm, Nat.mul_add_mod, Nat.mod_eq_of_lt (hoff r hr).2.2]
    have h2 : (buf * seg + off r) / seg = buf := by
      rw [Nat.mul_comm, Nat.mul_add_div (by decide : 0 < seg), Nat.div_eq_of_lt (hoff r hr).2.2, Nat.add_zero]
    rw [recalc_norm, h1, h2, hio]
  -- membership of a byte
  have hmem : ∀ r, r < n → ∀ x, x < c * ts →
      ((off r / D * u ≤ x ∧ x < off r / D * u + clipSize true (c * ts) (off r / D * u) (len r / D * u)) ↔
        (off r ≤ x / u * D ∧ x / u * D < off r + len r)) := by
    intro r hr x hx
    obtain ⟨⟨o, ho⟩, ⟨l, hl⟩, _⟩ := hoff r hr
    rw [ho, hl, Nat.mul_div_cancel_left _ hD0, Nat.mul_div_cancel_left _ hD0]
    have hx1 : x / u * u + x % u = x := Nat.div_add_mod' x u
    have hx2 : x % u < u := Nat.mod_lt _ hu0
    have key := unit_lt o (x / u) u (x % u) l hx2
    rw [hx1] at key
    have hcl := lt_clipSize true (c * ts) (o * u) (l * u) (x - o * u)
    have e1 : D * o ≤ x / u * D ↔ o ≤ x / u := by
      rw [Nat.mul_comm D o]; exact ⟨fun h => Nat.le_of_mul_le_mul_right h hD0, fun h => Nat.mul_le_mul_right D h⟩
    have e2 : x / u * D < D * o + D * l ↔ x / u < o + l := by
      rw [← Nat.mul_add, Nat.mul_comm D]; exact Nat.mul_lt_mul_right hD0
    rw [e1, e2, ← key]
    constructor
    · rintro ⟨h1, h2⟩
      have := (hcl.mp (by omega)).1
      exact ⟨h1, by omega⟩
    · rintro ⟨h1, h2⟩
      have := hcl.mpr ⟨by omega, fun _ => by omega⟩
      exact ⟨h1, by omega⟩
  have hbyte : ∀ x, x < c * ts → x / u * D < j * 8 := by
    intro x hx
    have : x / u < j / pf := by
      rw [Nat.div_lt_iff_lt_mul hu0]; omega
    obtain ⟨k, hk⟩ := hdj
    rw [hk, Nat.mul_div_cancel_left _ hpf] at this
    rw [hk, hD, Nat.mul_comm pf k, Nat.mul_assoc, Nat.mul_comm pf 8]
    exact Nat.mul_lt_mul_of_pos_right this (by omega)
  constructor
  · intro r hr hne
    simp only at hne ⊢
    rw [hrec r hr] at hne ⊢
    simp only at hne ⊢
    have := (lt_clipSize true (c * ts) (off r / D * u) (len r / D * u) (clipSize true (c * ts) (off r / D * u) (len r / D * u) - 1)).mp (by omega)
    have := this.2 rfl
    omega
  · intro x hx
    obtain ⟨r, hr, hin, huniq⟩ := hpart.2 (x / u * D) (hbyte x hx)
    refine ⟨r, hr, ?_, ?_⟩
    · simp only
      rw [hrec r hr]
      exact (hmem r hr x hx).mpr hin
    · intro r' hr' hin'
      simp only at hin'
      rw [hrec r' hr'] at hin'
      exact huniq r' hr' ((hmem r' hr' x hx).mp hin')

/-! ### Correctness for every count -/

theorem count_eq_sum (l : Loc) (W : List Loc) : W.count l = (W.map fun x => if x = l then 1 else 0).sum := by
  induction W with
  | nil => rfl
  | cons x W ih =>
    rw [List.count_cons, List.map_cons, List.sum_cons, ih, Nat.add_comm]
    congr 1
    by_cases h : x = l <;> simp [h]

theorem perm_of_sums (V W : List Loc) (h : ∀ m : Loc → Nat, (V.map m).sum = (W.map m).sum) : V.Perm W := by
  rw [List.perm_iff_count]
  intro l
  rw [count_eq_sum, count_eq_sum]
  exact h _

def unitUpdates (D : Nat) (T : List Item) : List (Bool × (Loc → Option Loc)) :=
  T.map fun it => ((unitAct D it).add, (unitAct D it).upd 1)

def clipUpdates (bad : Loc → Prop) [DecidablePred bad] (us : List (Bool × (Loc → Option Loc))) :
    List (Bool × (Loc → Option Loc)) := us.map fun u => (u.1, clip bad u.2)

theorem prep_pulls (pf D r : Nat) (hD : D = 8 * pf) (hr : r < pf) (T : List Item) (hal : ∀ it ∈ T, Aligned D it)
    (as : List Act) (has : T.map prepAct = as.map some) (W : List Loc) :
    pulls (updates 8 as) (W.map (emb pf r)) = (pulls (unitUpdates D T) W).map (emb pf r) := by
  induction T generalizing as with
  | nil =>
    cases as with
    | nil => rfl
    | cons a as => cases has
  | cons it T ih =>
    cases as with
    | nil => cases has
    | cons a as =>
      rw [List.map_cons, List.map_cons] at has
      obtain ⟨h1, h2⟩ := List.cons.inj has
      obtain ⟨g1, g2, g3, g4, g5, g6, g7, g8⟩ := prep_unit pf D hD it (hal it (by simp)) a h1
      show pull a.add (a.upd 8) (pulls (updates 8 as) _) = _
      rw [ih (fun it h => hal it (by simp [h])) as h2, g1]
      exact pull_map _ _ _ _ (upd_emb_full 8 pf r (by decide) hr a _ g2 g3 g4 g5 g6 g7 g8) _

theorem block_pulls (ts q r c D : Nat) (hts : 0 < ts) (hr : r < q) (T : List Item) (hseen : ∀ it ∈ T, Seen it)
    (hp : ∀ it ∈ T, prepAct it ≠ none) (hok : ∀ it ∈ T, (unitAct D it).Ok 1) :
    ∃ as : List Act, T.map (fun it => blockAct ts (q * ts) (c * ts) (normItem D it)) = as.map some ∧
      (∀ a ∈ as, a.Ok ts) ∧ ∀ r, r < q → ∀ W, pulls (updates ts as) (W.map (emb q r)) =
        (pulls (clipUpdates (beyond q r c) (unitUpdates D T)) W).map (emb q r) := by
  induction T with
  | nil => exact ⟨[], rfl, by simp, fun _ _ _ => rfl⟩
  | cons it T ih =>
    obtain ⟨as, h1, h2, h3⟩ := ih (fun it h => hseen it (by simp [h])) (fun it h => hp it (by simp [h]))
      fun it h => hok it (by simp [h])
    obtain ⟨a, n, g0, g1, g2, g3, g4, g5, g6, g7, g8, g9⟩ := block_unit ts q c D hts it (hseen it (by simp)) (hp it (by simp))
    refine ⟨a :: as, ?_, ?_, ?_⟩
    · rw [List.map_cons, List.map_cons, g0, h1]
    · intro x hx
      rcases List.mem_cons.mp hx with rfl | hx
      · refine ok_of_unit ts q n x _ g2 g3 g4 g5 g6 g7 g8 ?_ (hok it (by simp))
        by_contra hlt
        have := ((g9 ((unitAct D it).n * q)).mp (by omega)).1
        omega
      · exact h2 x hx
    · intro r hr W
      show pull a.add (a.upd ts) (pulls (updates ts as) _) = _
      rw [h3 r hr, g1]
      exact pull_map _ _ _ _ (upd_emb ts q r c hts hr a _ g2 g3 g4 g5 g6 g7 n g8 g9) _

/-- Elements that nothing writes to stay in the data flow. -/
theorem mem_pulls (us : List (Bool × (Loc → Option Loc))) (l : Loc) (h : ∀ u ∈ us, u.2 l = none) (W : List Loc)
    (hl : l ∈ W) : l ∈ pulls us W := by
  induction us with
  | nil => exact hl
  | cons u us ih =>
    exact mem_pull_of_none _ _ _ _ (h u (by simp)) (ih fun u hu => h u (by simp [hu]))

/-- Cutting updates that do not matter does not change the data flow. -/
theorem pulls_clip (bad : Loc → Prop) [DecidablePred bad] (us : List (Bool × (Loc → Option Loc))) (W : List Loc)
    (h : ∀ pre suf, us = pre ++ suf → ∀ l ∈ pulls suf W, ¬ bad l) : pulls (clipUpdates bad us) W = pulls us W := by
  induction us with
  | nil => rfl
  | cons u us ih =>
    show pull u.1 (clip bad u.2) (pulls (clipUpdates bad us) W) = pull u.1 u.2 (pulls us W)
    rw [ih fun pre suf e => h (u :: pre) suf (by rw [e]; rfl)]
    apply pull_congr
    intro d hd
    unfold clip
    rw [if_neg (h [u] us rfl d hd)]
    cases hs : u.2 d with
    | none => rfl
    | some s =>
      have : ¬ bad s := h [] (u :: us) rfl s (mem_pull_src _ _ _ d s hs hd)
      rw [Option.filter_some, if_pos (by simpa using this)]

/-- **C49.** An execution of a prepared program that is correct for `j` natural numbers is, relocated,
correct for any number `c` of elements of any type. `pf` is the factor of `paddingOf`, `T` the steps of
all processes in some order. -/
theorem blocking_allreduce_partial (procs : List Nat) (T : List Item) (j pf D : Nat) (hD : D = 8 * pf) (hpf : 0 < pf)
    (hj : pf ≤ j) (hprep : Allreduces Nat procs j 8 (T.map prepAct)) (hsend : SendKept (T.map prepAct))
    (hpos : InPosition procs j 8 (T.map prepAct)) (hal : ∀ it ∈ T, Aligned D it) (hseen : ∀ it ∈ T, Seen it)
    (α : Type) [AddCommMonoid α] (c ts : Nat) (hc : 0 < c) (hts : 0 < ts) :
    Allreduces α procs c ts (T.map fun it => blockAct ts (unitOf c (j / pf) ts) (c * ts) (normItem D it)) := by
  have hU0 : 0 < j / pf := Nat.div_pos hj hpf
  obtain ⟨hu, hcov⟩ := unitOf_pos c (j / pf) ts hc hU0
  obtain ⟨q, hq⟩ : ∃ q, q = (c - 1) / (j / pf) + 1 := ⟨_, rfl⟩
  rw [← hq] at hu hcov
  have hq0 : 0 < q := by rw [hq]; exact Nat.succ_pos _
  rw [hu]
  -- the prepared steps
  obtain ⟨m0, hm0, _⟩ := hprep fun _ => 0
  obtain ⟨as, has, hok⟩ := exec_ok 8 _ _ _ hm0
  have hp : ∀ it ∈ T, ∃ a ∈ as, prepAct it = some a := by
    intro it hit
    have : prepAct it ∈ as.map some := by rw [← has]; exact List.mem_map_of_mem hit
    obtain ⟨a, ha, he⟩ := List.mem_map.mp this
    exact ⟨a, ha, he.symm⟩
  have hunit : ∀ it ∈ T, (unitAct D it).Ok 1 := by
    intro it hit
    obtain ⟨a, ha, he⟩ := hp it hit
    obtain ⟨_, g2, g3, g4, g5, g6, g7, g8⟩ := prep_unit pf D hD it (hal it hit) a he
    exact unit_ok pf hpf a _ g2 g3 g4 g5 g6 g7 g8 (hok a ha)
  -- data flow of the prepared steps
  have hflow : ∀ o ∈ procs, ∀ b, b * pf < j →
      (pulls (unitUpdates D T) [(o, .recv, b)]).Perm (procs.map fun p => (p, Region.send, b)) := by
    intro o ho b hb
    have h1 := prep_pulls pf D 0 hD hpf T hal as has [(o, .recv, b)]
    have h2 : (pulls (updates 8 as) [emb pf 0 (o, .recv, b)]).Perm
        ((procs.map fun p => (p, Region.send, b)).map (emb pf 0)) := by
      apply perm_of_sums
      intro m
      obtain ⟨m', e1, e2⟩ := exec_some 8 as m hok
      obtain ⟨m'', e3, e4⟩ := hprep m
      rw [has, e1, Option.some.injEq] at e3
      subst e3
      rw [← e2]
      have := e4 o ho (b * pf) hb
      simp only [emb, Nat.add_zero, List.map_cons, List.map_nil, List.sum_cons, List.sum_nil, add_zero]
      rw [this, List.map_map, List.map_map]
      rfl
    rw [← List.map_singleton, h1] at h2
    exact (List.map_perm_map_iff (emb_inj pf 0 hpf)).mp h2
  -- elements beyond the end do not matter
  have hbad : ∀ o ∈ procs, ∀ b r, b * pf < j → r < q → b * q + r < c → ∀ pre suf, unitUpdates D T = pre ++ suf →
      ∀ l ∈ pulls suf [(o, .recv, b)], ¬ beyond q r c l := by
    intro o ho b r hb hr hlt pre suf hps l hl ⟨hio, hge⟩
    obtain ⟨T1, T2, hT, hT1, hT2⟩ := List.map_eq_append_iff.mp hps
    obtain ⟨p, R, k⟩ := l
    simp only at hio hge
    have hkb : k ≠ b := by
      rintro rfl
      omega
    cases R with
    | shm i => cases hio
    | send =>
      have : (p, Region.send, k) ∈ pulls (unitUpdates D T) [(o, .recv, b)] := by
        rw [hps]
        have happ : ∀ (xs ys : List (Bool × (Loc → Option Loc))) W, pulls (xs ++ ys) W = pulls xs (pulls ys W) := by
          intro xs ys W
          induction xs with
          | nil => rfl
          | cons x xs ih => rw [List.cons_append, pulls, ih]; rfl
        rw [happ]
        refine mem_pulls pre _ ?_ _ hl
        intro u hu
        rw [← hT1] at hu
        obtain ⟨it, hit, rfl⟩ := List.mem_map.mp hu
        have hitT : it ∈ T := by rw [hT]; simp [hit]
        obtain ⟨a, ha, he⟩ := hp it hitT
        have hdr := hsend a (by rw [← he]; exact List.mem_map_of_mem hitT)
        obtain ⟨_, _, g3, _⟩ := prep_unit pf D hD it (hal it hitT) a he
        simp only [Act.upd]
        rw [if_neg]
        rintro ⟨_, h2, _⟩
        exact hdr (g3.trans h2.symm)
      rw [(hflow o ho b hb).mem_iff, List.mem_map] at this
      obtain ⟨x, _, hx⟩ := this
      simp only [Prod.mk.injEq] at hx
      omega
    | recv =>
      rw [hT, List.map_append] at has
      obtain ⟨as1, as2, has3, has1, has2⟩ := List.append_eq_map_iff.mp has
      have hok2 : ∀ a ∈ as2, a.Ok 8 := fun a ha => hok a (by rw [has3]; simp [ha])
      have hpull := prep_pulls pf D 0 hD hpf T2 (fun it h => hal it (by rw [hT]; simp [h])) as2 has2.symm [(o, .recv, b)]
      have hmem : emb pf 0 (p, Region.recv, k) ∈ pulls (updates 8 as2) [emb pf 0 (o, .recv, b)] := by
        rw [← List.map_singleton, hpull]
        refine List.mem_map_of_mem ?_
        rw [show unitUpdates D T2 = suf from hT2]
        exact hl
      obtain ⟨r1, e1, f1⟩ := exec_some 8 as2 (fun _ => 0) hok2
      obtain ⟨r2, e2, f2⟩ := exec_some 8 as2 (fun l => if l = emb pf 0 (p, Region.recv, k) then 1 else 0) hok2
      have hne : k * pf ≠ b * pf := fun h => hkb (Nat.eq_of_mul_eq_mul_right hpf h)
      have heq := hpos (T1.map prepAct) (T2.map prepAct) (by rw [hT, List.map_append]) (fun _ => 0)
        (fun l => if l = emb pf 0 (p, Region.recv, k) then 1 else 0) r1 r2 p o (b * pf) (k * pf)
        ho hb hne (by
          intro l hl
          rw [if_neg]
          simpa [emb] using hl) (by rw [← has2]; exact e1) (by rw [← has2]; exact e2)
      have f1' := f1 [(o, .recv, b * pf)]
      have f2' := f2 [(o, .recv, b * pf)]
      simp only [List.map_cons, List.map_nil, List.sum_cons, List.sum_nil, add_zero] at f1' f2'
      rw [f1', f2', ← count_eq_sum] at heq
      have hzero : ((pulls (updates 8 as2) [(o, .recv, b * pf)]).map fun _ => 0).sum = 0 := by simp
      rw [hzero] at heq
      have := List.count_pos_iff.mpr hmem
      simp only [emb, Nat.add_zero] at this heq
      omega
  -- the relocated steps
  obtain ⟨bs, hbs, hbok, hbp⟩ := block_pulls ts q 0 c D hts hq0 T hseen
    (fun it hit => by obtain ⟨a, _, he⟩ := hp it hit; rw [he]; simp) hunit
  intro m
  obtain ⟨m', e1, e2⟩ := exec_some ts bs m hbok
  refine ⟨m', by rw [hbs]; exact e1, ?_⟩
  intro o ho i hi
  have hr : i % q < q := Nat.mod_lt _ hq0
  have hi' : i / q * q + i % q = i := Nat.div_add_mod' i q
  have hb : i / q * pf < j := by
    have h1 : i / q < j / pf := by
      rw [Nat.div_lt_iff_lt_mul hq0]; omega
    have h2 : (i / q + 1) * pf ≤ j / pf * pf := Nat.mul_le_mul_right pf h1
    have h3 := Nat.div_mul_le_self j pf
    rw [Nat.add_mul] at h2
    omega
  have h1 := e2 [emb q (i % q) (o, .recv, i / q)]
  rw [← List.map_singleton, hbp (i % q) hr, pulls_clip _ _ _ (hbad o ho (i / q) (i % q) hb hr (by omega))] at h1
  have h2 := ((((hflow o ho (i / q) hb).map (emb q (i % q))).map m).sum_eq)
  rw [h2] at h1
  simp only [List.map_cons, List.map_nil, List.sum_cons, List.sum_nil, add_zero, List.map_map, emb, hi'] at h1
  rw [h1]
  congr 1
  apply List.map_congr_left
  intro p _
  simp only [Function.comp, emb, hi']

/-! ### C47: the unit -/

/-- Sizes of the reductions of a program. -/
def reduceCounts (T : List Item) : List Nat :=
  T.filterMap fun it => match it with | .reduce _ _ _ n => some n | _ => none

theorem mem_paddingNumbers (T : List Item) (n : Nat) (h : n ∈ reduceCounts T) : n ∈ paddingNumbers T := by
  induction T with
  | nil => simp [reduceCounts] at h
  | cons it T ih =>
    cases it with
    | copy p d s k =>
      have := ih h
      simp only [paddingNumbers, List.mem_append]
      exact Or.inr this
    | reduce p d s k =>
      have h' : n = k ∨ n ∈ reduceCounts T := List.mem_cons.mp h
      simp only [paddingNumbers, List.mem_append, List.mem_cons]
      rcases h' with h' | h'
      · exact Or.inl (Or.inl h')
      · exact Or.inr (ih h')
    | message p d rn q s sn b =>
      have := ih h
      simp only [paddingNumbers, List.mem_append]
      exact Or.inr this

theorem paddingNumbers_pos (T : List Item) (h : ∀ n ∈ reduceCounts T, 0 < n) : ∀ n ∈ paddingNumbers T, 0 < n := by
  induction T with
  | nil => intro n hn; cases hn
  | cons it T ih =>
    intro n hn
    cases it with
    | copy p d s k =>
      rcases List.mem_append.mp hn with hn | hn
      · simpa using (List.mem_filter.mp hn).2
      · exact ih h n hn
    | reduce p d s k =>
      have hk : 0 < k := h k List.mem_cons_self
      have ht : ∀ n ∈ reduceCounts T, 0 < n := fun n hn => h n (List.mem_cons_of_mem _ hn)
      rcases List.mem_append.mp hn with hn | hn
      · rcases List.mem_cons.mp hn with rfl | hn
        · exact hk
        · simpa using (List.mem_filter.mp hn).2
      · exact ih ht n hn
    | message p d rn q s sn b =>
      rcases List.mem_append.mp hn with hn | hn
      · simpa using (List.mem_filter.mp hn).2
      · exact ih h n hn

/-- **C47**, part: the unit divides all offsets and sizes of a program whose offsets and sizes are, in elements,
multiples of every common divisor of the sizes of its reductions. -/
theorem unit_partial (T : List Item) (hne : reduceCounts T ≠ []) (hpos : ∀ n ∈ reduceCounts T, 0 < n)
    (h : ∀ d, (∀ n ∈ reduceCounts T, d ∣ n) → ∀ it ∈ T, Aligned (8 * d) it) :
    ∃ pf, paddingOf T = some pf ∧ 0 < pf ∧ ∀ it ∈ T, Aligned (8 * pf) it := by
  have hne' : paddingNumbers T ≠ [] := by
    obtain ⟨n, hn⟩ := List.exists_mem_of_ne_nil _ hne
    exact List.ne_nil_of_mem (mem_paddingNumbers T n hn)
  obtain ⟨pf, h1, h2, _⟩ := Numeric.padding_spec (paddingNumbers T) hne' (paddingNumbers_pos T hpos)
  refine ⟨pf, h1, ?_, h pf fun n hn => h2 n (mem_paddingNumbers T n hn)⟩
  obtain ⟨n, hn⟩ := List.exists_mem_of_ne_nil _ hne
  have := h2 n (mem_paddingNumbers T n hn)
  have := hpos n hn
  exact Nat.pos_of_dvd_of_pos ‹pf ∣ n› this

/-- One reduction of 8 elements, of which the first is copied separately. -/
def uneven : List Item :=
  [.copy 0 0 (8 * seg) 64, .reduce 0 0 64 8, .copy 0 (9 * seg) 0 8, .copy 0 (9 * seg + 8) 8 56]

/-- **C47**, negation: sizes of reductions are counted in elements, other sizes and offsets in bytes. The
common divisor of both, times the size of an element, need not divide the sizes. -/
theorem unit_violated : ∃ (T : List Item) (pf : Nat), paddingOf T = some pf ∧ (∀ a, some a ∈ T.map prepAct → a.Ok 8) ∧
    ∃ it ∈ T, ¬ Aligned (8 * pf) it := by
  refine ⟨uneven, 8, by decide +kernel, ?_, .copy 0 (9 * seg) 0 8, by simp [uneven], by decide⟩
  have : ∀ a ∈ uneven.map prepAct, ∀ b, a = some b → b.Ok 8 := by
    intro a ha b hb
    simp only [uneven, List.map_cons, List.map_nil, List.mem_cons, List.not_mem_nil, or_false] at ha
    rcases ha with rfl | rfl | rfl | rfl <;> (cases hb; decide)
  exact fun a ha => this _ ha a rfl

/-- Consequence for **C32**: with the unit computed for this program the two pieces that make up the receive
buffer do not make up the buffer of a call with 8 elements. -/
theorem tiling_violated : ∃ (off len : Nat → Nat) (pf : Nat), paddingOf uneven = some pf ∧
    Spec.ExactPartition (8 * 8) 2 off len ∧ ¬ Spec.ExactPartition (8 * 8) 2
      (fun r => (recalc (unitOf 8 (8 / pf) 8) (8 * 8) (normAddr (8 * pf) (9 * seg + off r)) (len r / (8 * pf) * unitOf 8 (8 / pf) 8)).2.1)
      (fun r => (recalc (unitOf 8 (8 / pf) 8) (8 * 8) (normAddr (8 * pf) (9 * seg + off r)) (len r / (8 * pf) * unitOf 8 (8 / pf) 8)).2.2) := by
  refine ⟨fun r => if r = 0 then 0 else 8, fun r => if r = 0 then 8 else 56, 8, by decide +kernel, ?_, ?_⟩
  · constructor
    · intro r hr hn
      have : r = 0 ∨ r = 1 := by omega
      rcases this with rfl | rfl <;> decide
    · intro x hx
      by_cases h : x < 8
      · refine ⟨0, by decide, ⟨by simp, by simpa using h⟩, ?_⟩
        intro r' hr' hin
        by_contra hc
        simp only [if_neg hc] at hin
        omega
      · refine ⟨1, by decide, ⟨by simp; omega, by simp; omega⟩, ?_⟩
        intro r' hr' hin
        by_contra hc
        have : r' = 0 := by omega
        subst this
        simp only [if_pos] at hin
        omega
  · rintro ⟨_, h⟩
    obtain ⟨r, hr, hin, _⟩ := h 0 (by decide)
    have : r = 0 ∨ r = 1 := by omega
    rcases this with rfl | rfl <;> revert hin <;> decide

/-! ### C48: lengths of messages -/

theorem seenFlags_all (ptrs : List Nat) (k n : Nat) (h : ∀ i, k ≤ i → i < k + n → ptrs.getD i 0 ≠ 0) :
    seenFlags ptrs k n = List.replicate n true := by
  induction n generalizing k with
  | zero => rfl
  | succ n ih =>
    rw [seenFlags, if_pos (h k (by omega) (by omega)), ih (k + 1) fun i h1 h2 => h i (by omega) (by omega)]
    rfl

/-- **C48**, part: when no receive buffer has the address 0, every sender knows the receive buffer of each of its
messages, and no message is longer than the receive that was posted for it, for every count. -/
theorem messages_partial (ptrs : List Nat) (hptr : ∀ x ∈ ptrs, x ≠ 0) :
    seenFlags ptrs 0 ptrs.length = List.replicate ptrs.length true ∧
    ∀ (p d rn q s sn D ts count sizeIo : Nat), sn ≤ rn →
      ∃ a, blockAct ts count sizeIo (normItem D (.message p d rn q s sn true)) = some a := by
  constructor
  · apply seenFlags_all
    intro i _ hi
    rw [Nat.zero_add] at hi
    rw [List.getD_eq_getElem?_getD, List.getElem?_eq_getElem hi]
    exact hptr _ (List.getElem_mem hi)
  · intro p d rn q s sn D ts count sizeIo hle
    simp only [normItem, blockAct, if_true, recalc_norm]
    rw [if_neg]
    · exact ⟨_, rfl⟩
    · refine Nat.not_lt.mpr (clipSize_mono _ _ _ _ _ ?_)
      exact Nat.le_trans (clipSize_le _ _ _ _) (Nat.mul_le_mul_right count (Nat.div_le_div_right hle))

/-- After a receive buffer with the address 0 the sender knows no further receive buffer. -/
theorem seenFlags_stuck (ptrs : List Nat) (k n : Nat) (h : ptrs.getD k 0 = 0) :
    seenFlags ptrs k n = List.replicate n false := by
  induction n with
  | zero => rfl
  | succ n ih => rw [seenFlags, if_neg (by simpa using h), ih]; rfl

/-! ### Two processes -/

/-- Correctness from data flow. -/
theorem allreduces_of_flow (α : Type) [AddCommMonoid α] (procs : List Nat) (len ts : Nat) (as : List Act)
    (hok : ∀ a ∈ as, a.Ok ts) (h : ∀ q ∈ procs, ∀ i < len,
      (pulls (updates ts as) [(q, .recv, i)]).Perm (procs.map fun p => (p, Region.send, i))) :
    Allreduces α procs len ts (as.map some) := by
  intro m
  obtain ⟨m', e1, e2⟩ := exec_some ts as m hok
  refine ⟨m', e1, ?_⟩
  intro q hq i hi
  have h1 := e2 [(q, .recv, i)]
  rw [((h q hq i hi).map m).sum_eq] at h1
  simp only [List.map_map, List.map_cons, List.map_nil, List.sum_cons, List.sum_nil, add_zero] at h1
  exact h1

theorem inPosition_of_flow (procs : List Nat) (len ts : Nat) (as : List Act) (hok : ∀ a ∈ as, a.Ok ts)
    (h : ∀ n ≤ as.length, ∀ q ∈ procs, ∀ i < len, ∀ l ∈ pulls (updates ts (as.drop n)) [(q, .recv, i)],
      l.2.1 = Region.recv → l.2.2 = i) : InPosition procs len ts (as.map some) := by
  intro pre suf hps m1 m2 r1 r2 p q i k hq hi hk heq h1 h2
  have hsuf : suf = (as.drop pre.length).map some := by
    rw [List.map_drop, hps, List.drop_left]
  have hle : pre.length ≤ as.length := by
    have := congrArg List.length hps
    simp at this
    omega
  have hok2 : ∀ a ∈ as.drop pre.length, a.Ok ts := fun a ha => hok a (List.mem_of_mem_drop ha)
  obtain ⟨s1, e1, f1⟩ := exec_some ts (as.drop pre.length) m1 hok2
  obtain ⟨s2, e2, f2⟩ := exec_some ts (as.drop pre.length) m2 hok2
  rw [hsuf, e1, Option.some.injEq] at h1
  rw [hsuf, e2, Option.some.injEq] at h2
  subst h1
  subst h2
  have g1 := f1 [(q, .recv, i)]
  have g2 := f2 [(q, .recv, i)]
  simp only [List.map_cons, List.map_nil, List.sum_cons, List.sum_nil, add_zero] at g1 g2
  rw [g1, g2]
  congr 1
  apply List.map_congr_left
  intro l hl
  apply heq
  rintro rfl
  exact hk (h pre.length hle q hq i hi _ hl rfl)

/-- Reduce-scatter followed by allgather of two elements on two processes, each receiving first at the beginning of
its shared memory. The flags are those of the sends to these addresses and to the receive buffers. -/
def pair (f0 f1 : List Bool) : List Item :=
  [ .message 0 0 8 1 (8 * seg) 8 (f1.getD 0 false),
    .message 1 0 8 0 (8 * seg + 8) 8 (f0.getD 0 false),
    .copy 0 8 (8 * seg) 8, .copy 1 8 (8 * seg + 8) 8,
    .reduce 0 8 0 1, .reduce 1 8 0 1,
    .copy 0 (9 * seg) 8 8, .copy 1 (9 * seg + 8) 8 8,
    .message 1 (9 * seg) 8 0 8 8 (f0.getD 1 false),
    .message 0 (9 * seg + 8) 8 1 8 8 (f1.getD 1 false) ]

def pairActs : List Act :=
  [ ⟨false, 0, .shm 0, 0, 1, .send, 0, 8⟩, ⟨false, 1, .shm 0, 0, 0, .send, 8, 8⟩,
    ⟨false, 0, .shm 0, 8, 0, .send, 0, 8⟩, ⟨false, 1, .shm 0, 8, 1, .send, 8, 8⟩,
    ⟨true, 0, .shm 0, 8, 0, .shm 0, 0, 8⟩, ⟨true, 1, .shm 0, 8, 1, .shm 0, 0, 8⟩,
    ⟨false, 0, .recv, 0, 0, .shm 0, 8, 8⟩, ⟨false, 1, .recv, 8, 1, .shm 0, 8, 8⟩,
    ⟨false, 1, .recv, 0, 0, .shm 0, 8, 8⟩, ⟨false, 0, .recv, 8, 1, .shm 0, 8, 8⟩ ]

theorem pair_acts (f0 f1 : List Bool) : (pair f0 f1).map prepAct = pairActs.map some := rfl

theorem pair_allreduces (α : Type) [AddCommMonoid α] (f0 f1 : List Bool) :
    Allreduces α [0, 1] 2 8 ((pair f0 f1).map prepAct) := by
  rw [pair_acts]
  exact allreduces_of_flow α _ _ _ _ (by decide) (by decide)

theorem pair_inPosition (f0 f1 : List Bool) : InPosition [0, 1] 2 8 ((pair f0 f1).map prepAct) := by
  rw [pair_acts]
  exact inPosition_of_flow _ _ _ _ (by decide) (by decide)

theorem pair_sendKept (f0 f1 : List Bool) : SendKept ((pair f0 f1).map prepAct) := by
  rw [pair_acts]
  intro a ha
  obtain ⟨b, hb, he⟩ := List.mem_map.mp ha
  rw [Option.some.injEq] at he
  subst he
  have : ∀ b ∈ pairActs, b.dr ≠ Region.send := by decide
  exact this b hb

theorem pair_aligned (f0 f1 : List Bool) : ∀ it ∈ pair f0 f1, Aligned 8 it := by
  intro it hit
  simp only [pair, List.mem_cons, List.not_mem_nil, or_false] at hit
  rcases hit with rfl | rfl | rfl | rfl | rfl | rfl | rfl | rfl | rfl | rfl <;> simp [Aligned, seg]

example : paddingOf (pair [] []) = some 1 := by decide +kernel

example : ∃ pf, paddingOf (pair [] []) = some pf ∧ 0 < pf ∧ ∀ it ∈ pair [] [], Aligned (8 * pf) it :=
  unit_partial (pair [] []) (by decide) (by decide) fun d hd it hit => by
    have : d = 1 := Nat.dvd_one.mp (hd 1 (by decide))
    subst this
    exact pair_aligned [] [] it hit

example : ∃ a, blockAct 8 (unitOf 3 2 8) (3 * 8) (normItem 8 (.copy 0 (9 * seg + 8) 8 8)) = some a ∧ a.n = 8 ∧ a.doff = 16 := by
  exact ⟨_, rfl, by decide, by decide⟩

/-- The theorem applies to this program if all sends know their receive buffers. -/
example (α : Type) [AddCommMonoid α] (c ts : Nat) (hc : 0 < c) (hts : 0 < ts) :
    Allreduces α [0, 1] c ts ((pair [true, true] [true, true]).map fun it =>
      blockAct ts (unitOf c 2 ts) (c * ts) (normItem 8 it)) :=
  blocking_allreduce_partial [0, 1] (pair [true, true] [true, true]) 2 1 8 rfl (by decide) (by decide) (pair_allreduces Nat _ _)
    (pair_sendKept _ _) (pair_inPosition _ _) (pair_aligned _ _)
    (by
      intro it hit
      simp only [pair, List.mem_cons, List.not_mem_nil, or_false] at hit
      rcases hit with rfl | rfl | rfl | rfl | rfl | rfl | rfl | rfl | rfl | rfl <;> simp [Seen])
    α c ts hc hts

/-- **C48**, negation: this program is a correct allreduce. With the flags that result from the addresses of its
receive buffers it fails for one element, because a message is longer than its receive. -/
theorem messages_violated : ∃ f0 f1, f0 = seenFlags [normAddr 8 0, normAddr 8 (9 * seg)] 0 2 ∧
    f1 = seenFlags [normAddr 8 0, normAddr 8 (9 * seg + 8)] 0 2 ∧
    Allreduces Nat [0, 1] 2 8 ((pair f0 f1).map prepAct) ∧ (∀ it ∈ pair f0 f1, Aligned 8 it) ∧
    ∀ m : Loc → Nat, exec 8 ((pair f0 f1).map fun it => blockAct 8 (unitOf 1 2 8) (1 * 8) (normItem 8 it)) m = none := by
  refine ⟨_, _, rfl, rfl, pair_allreduces Nat _ _, pair_aligned _ _, ?_⟩
  have hf0 : seenFlags [normAddr 8 0, normAddr 8 (9 * seg)] 0 2 = [false, false] := seenFlags_stuck _ 0 2 rfl
  have hf1 : seenFlags [normAddr 8 0, normAddr 8 (9 * seg + 8)] 0 2 = [false, false] := seenFlags_stuck _ 0 2 rfl
  rw [hf0, hf1]
  intro m
  have key : ∀ (as : List (Option Act)) (m : Loc → Nat), none ∈ as → exec 8 as m = none := by
    intro as
    induction as with
    | nil => intro m h; cases h
    | cons a as ih =>
      intro m h
      cases a with
      | none => rfl
      | some a =>
        rw [exec]
        split
        · exact ih _ (by simpa using h)
        · rfl
  apply key
  rw [List.mem_map]
  exact ⟨.message 0 (9 * seg + 8) 8 1 8 8 false, by simp [pair], by decide⟩

end ExtMpi.Blocking
