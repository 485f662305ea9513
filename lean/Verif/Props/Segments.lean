import Verif.Spec.Segments
import Mathlib.Data.Nat.Pairing
import Mathlib.Data.Nat.ModEq
import Mathlib.Algebra.BigOperators.Group.Finset.Basic
import Mathlib.Algebra.BigOperators.Ring.Finset
/-! # Shared memory of the processes of a node (C105, C106) -/
namespace ExtMpi.Segments

variable {g : Grid} {machine : Proc → Nat} {get : Proc → Nat → Int}

theorem index_iff {p : Proc} {i k : Nat} (hi : i < g.segs) (hk : k < g.segs) : index g p i = k ↔ k + i ≡ p.1 / g.cores [MOD g.segs] := by
  unfold index
  generalize p.1 / g.cores = S
  have e : g.segs - i + S + i = S + g.segs := by omega
  have e' : g.segs - i + S + i ≡ S [MOD g.segs] := by rw [e]; exact Nat.add_mod_right _ _
  constructor
  · rintro rfl
    exact ((Nat.mod_modEq _ _).add_right i).trans e'
  · intro h
    have := (e'.trans h.symm).add_right_cancel' i
    rw [this, Nat.mod_eq_of_lt hk]

theorem index_lt (hs : 0 < g.segs) (p : Proc) (i : Nat) : index g p i < g.segs := Nat.mod_lt _ hs

theorem index_inj {p : Proc} {i j : Nat} (hi : i < g.segs) (hj : j < g.segs) (h : index g p i = index g p j) : i = j := by
  have h1 := (index_iff hi (index_lt (by omega) p j)).1 h
  have h2 := (index_iff hj (index_lt (by omega) p j)).1 rfl
  have := (h1.trans h2.symm).add_left_cancel' _
  rwa [Nat.ModEq, Nat.mod_eq_of_lt hi, Nat.mod_eq_of_lt hj] at this

theorem index_surj {p : Proc} {k : Nat} (hk : k < g.segs) : ∃ i, i < g.segs ∧ index g p i = k := by
  refine ⟨(p.1 / g.cores + (g.segs - k)) % g.segs, Nat.mod_lt _ (by omega), (index_iff (Nat.mod_lt _ (by omega)) hk).2 ?_⟩
  refine ((Nat.mod_modEq _ _).add_left k).trans ?_
  rw [show k + (p.1 / g.cores + (g.segs - k)) = p.1 / g.cores + g.segs by omega]
  exact Nat.add_mod_right _ _

theorem setup_at {p : Proc} {i : Nat} (hi : i < g.segs) : (setup g machine get).id p (index g p i) = received g get i p ∧
    (setup g machine get).mem p (index g p i) = attach g machine get i p := by
  have key : ∀ n, n ≤ g.segs → ∀ i, i < n → ((List.range n).foldl (iteration g machine get) ⟨fun _ _ => -1, fun _ _ => .none⟩).id p
      (index g p i) = received g get i p ∧ ((List.range n).foldl (iteration g machine get) ⟨fun _ _ => -1, fun _ _ => .none⟩).mem p
      (index g p i) = attach g machine get i p := by
    intro n
    induction n with
    | zero => intro _ i hi; omega
    | succ n ih =>
      intro hn i hi
      rw [List.range_succ, List.foldl_append, List.foldl_cons, List.foldl_nil]
      unfold iteration
      dsimp only
      by_cases e : i = n
      · subst e
        exact ⟨Function.update_self .., Function.update_self ..⟩
      · have hne : index g p i ≠ index g p n := fun h => e (index_inj (by omega) (by omega) h)
        rw [Function.update_of_ne hne, Function.update_of_ne hne]
        exact ih (by omega) i (by omega)
  exact key _ le_rfl i hi

/-- First process of socket `i` of the node of `p`. -/
def home (g : Grid) (p : Proc) (i : Nat) : Proc := inRow g (inColumn g p 0) (i * g.cores)

theorem home_node (hc : 0 < g.cores) (hcc : 0 < g.columns) {i : Nat} (hi : i < g.segs) (p : Proc) : SameNode g (home g p i) p := by
  have : i * g.cores < g.cores * g.segs := by rw [Nat.mul_comm]; exact Nat.mul_lt_mul_of_pos_left hi hc
  constructor
  · simp only [home, inRow, inColumn]
    rw [Nat.mul_comm (p.1 / _), Nat.mul_add_div (by omega), Nat.div_eq_of_lt this, Nat.add_zero]
  · simp only [home, inRow, inColumn, Nat.add_zero]
    rw [Nat.mul_div_cancel _ hcc]

theorem home_creates (hc : 0 < g.cores) {i : Nat} (hi : i < g.segs) (p : Proc) : creates g (home g p i) i = true := by
  have : i * g.cores < g.cores * g.segs := by rw [Nat.mul_comm]; exact Nat.mul_lt_mul_of_pos_left hi hc
  simp only [creates, home, inRow, inColumn, Nat.add_zero, Bool.and_eq_true, beq_iff_eq]
  exact ⟨by rw [Nat.mul_comm (p.1 / _), Nat.mul_add_mod, Nat.mod_eq_of_lt this], Nat.mul_mod_left _ _⟩

theorem received_eq (hc : 0 < g.cores) (h1 : single g = false) {i : Nat} (hi : i < g.segs) (p : Proc) :
    received g get i p = get (home g p i) i := by
  have : received g get i p = created g get i (home g p i) := rfl
  rw [this, created, home_creates hc hi, h1]
  rfl

theorem home_same {p q : Proc} (h : SameNode g p q) (i : Nat) : home g p i = home g q i := by
  simp only [home, inRow, inColumn]
  rw [h.1, h.2]

theorem home_inj (hc : 0 < g.cores) {p q : Proc} {i j : Nat} (h : home g p i = home g q j) (hcc : 0 < g.columns) (hi : i < g.segs)
    (hj : j < g.segs) : SameNode g p q := by
  have h1 := home_node hc hcc hi p
  have h2 := home_node hc hcc hj q
  rw [← h] at h2
  exact ⟨h1.1.symm.trans h2.1, h1.2.symm.trans h2.2⟩

theorem socket_modEq (p : Proc) : socket g p ≡ p.1 / g.cores [MOD g.segs] := Nat.mod_modEq _ _

theorem setup_seg (hc : 0 < g.cores) (h1 : single g = false) {p : Proc} {k : Nat} (hk : k < g.segs) : ∃ i, i < g.segs ∧
    k + i ≡ socket g p [MOD g.segs] ∧ (setup g machine get).mem p k = .shm (machine p) (get (home g p i) i) (socket g p == i) := by
  obtain ⟨i, hi, rfl⟩ := index_surj (p := p) hk
  refine ⟨i, hi, ((index_iff hi hk).1 rfl).trans (socket_modEq p).symm, ?_⟩
  rw [(setup_at hi).2, attach, h1, received_eq hc h1 hi]
  simp only [Bool.false_eq_true, if_false, socket, Nat.mod_mul_right_div_self]

theorem single_one (h : single g = true) : g.cores = 1 ∧ g.columns = 1 ∧ g.segs = 1 := by
  simp only [single, Bool.and_eq_true, beq_iff_eq] at h
  exact ⟨Nat.eq_one_of_mul_eq_one_right h.1, Nat.eq_one_of_mul_eq_one_left h.1, h.2⟩

theorem setup_single (h1 : single g = true) (p : Proc) : (setup g machine get).mem p 0 = .heap p := by
  have h := (single_one h1).2.2
  obtain ⟨i, hi, e⟩ := index_surj (g := g) (p := p) (k := 0) (by omega)
  rw [← e, (setup_at hi).2, attach, h1]
  rfl

/-- C105: what the segments of the processes of a node are. Segment `k` of a process in socket `s` is that of socket `s - k`,
counted modulo the number of sockets. -/
theorem same_segment (hc : 0 < g.cores) (hcc : 0 < g.columns) (hM : ∀ p q, SameNode g p q → machine p = machine q)
    (hF : Fresh machine get) {p q : Proc} (hpq : SameNode g p q) {k k' : Nat} (hk : k < g.segs) (hk' : k' < g.segs) :
    SameMemory ((setup g machine get).mem p k) ((setup g machine get).mem q k') ↔
      socket g p + k' ≡ socket g q + k [MOD g.segs] := by
  cases h1 : single g with
  | true =>
    obtain ⟨e1, e2, e3⟩ := single_one h1
    obtain rfl : k = 0 := by omega
    obtain rfl : k' = 0 := by omega
    rw [setup_single h1, setup_single h1, e3]
    refine ⟨fun _ => Nat.modEq_one, fun _ => ?_⟩
    obtain ⟨h, h'⟩ := hpq
    rw [e1, e3, Nat.mul_one, Nat.div_one, Nat.div_one] at h
    rw [e2, Nat.div_one, Nat.div_one] at h'
    exact Prod.ext h h'
  | false =>
    obtain ⟨i, hi, a1, a2⟩ := setup_seg (machine := machine) (get := get) hc h1 (p := p) hk
    obtain ⟨j, hj, b1, b2⟩ := setup_seg (machine := machine) (get := get) hc h1 (p := q) hk'
    rw [a2, b2]
    have hh : machine (home g p i) = machine (home g q j) :=
      (hM _ _ (home_node hc hcc hi p)).trans ((hM _ _ hpq).trans (hM _ _ (home_node hc hcc hj q)).symm)
    have e : i = j ↔ socket g p + k' ≡ socket g q + k [MOD g.segs] := by
      constructor
      · rintro rfl
        refine (a1.symm.add_right k').trans (Nat.ModEq.trans ?_ (b1.add_right k))
        rw [show k + i + k' = k' + i + k by omega]
      · intro h
        have := ((a1.add_right k').trans (h.trans (b1.symm.add_right k)))
        rw [show k + i + k' = (k + k') + i by omega, show k' + j + k = (k + k') + j by omega] at this
        have := this.add_left_cancel' _
        rwa [Nat.ModEq, Nat.mod_eq_of_lt hi, Nat.mod_eq_of_lt hj] at this
    rw [← e]
    constructor
    · rintro ⟨_, h⟩
      exact (hF _ _ _ _ hh h).2
    · rintro rfl
      exact ⟨hM _ _ hpq, by rw [home_same hpq]⟩

/-- C105: processes of different nodes have no segment in common. -/
theorem other_node (hc : 0 < g.cores) (hcc : 0 < g.columns) (hM : ∀ p q, SameNode g p q → machine p = machine q)
    (hF : Fresh machine get) {p q : Proc} (hpq : ¬SameNode g p q) {k k' : Nat} (hk : k < g.segs) (hk' : k' < g.segs) :
    ¬SameMemory ((setup g machine get).mem p k) ((setup g machine get).mem q k') := by
  cases h1 : single g with
  | true =>
    obtain ⟨e1, e2, e3⟩ := single_one h1
    obtain rfl : k = 0 := by omega
    obtain rfl : k' = 0 := by omega
    rw [setup_single h1, setup_single h1]
    rintro rfl
    exact hpq ⟨rfl, rfl⟩
  | false =>
    obtain ⟨i, hi, a1, a2⟩ := setup_seg (machine := machine) (get := get) hc h1 (p := p) hk
    obtain ⟨j, hj, b1, b2⟩ := setup_seg (machine := machine) (get := get) hc h1 (p := q) hk'
    rw [a2, b2]
    rintro ⟨h, h'⟩
    have hh : machine (home g p i) = machine (home g q j) :=
      (hM _ _ (home_node hc hcc hi p)).trans (h.trans (hM _ _ (home_node hc hcc hj q)).symm)
    exact hpq (home_inj hc (hF _ _ _ _ hh h').1 hcc hi hj)

/-- C105: a process can write to the segment of its own socket only. -/
theorem writable_iff (hc : 0 < g.cores) {p : Proc} {k : Nat} (hk : k < g.segs) : Writable ((setup g machine get).mem p k) ↔ k = 0 := by
  cases h1 : single g with
  | true =>
    obtain ⟨e1, e2, e3⟩ := single_one h1
    obtain rfl : k = 0 := by omega
    rw [setup_single h1]
    exact ⟨fun _ => rfl, fun _ => trivial⟩
  | false =>
    obtain ⟨i, hi, a1, a2⟩ := setup_seg (machine := machine) (get := get) hc h1 (p := p) hk
    rw [a2]
    have hs : socket g p < g.segs := Nat.mod_lt _ (by omega)
    simp only [Writable, beq_iff_eq]
    constructor
    · intro e
      rw [e] at a1
      have : k + i ≡ 0 + i [MOD g.segs] := by rwa [Nat.zero_add]
      have := this.add_right_cancel' _
      rwa [Nat.ModEq, Nat.mod_eq_of_lt hk, Nat.zero_mod] at this
    · rintro rfl
      rw [Nat.zero_add, Nat.ModEq, Nat.mod_eq_of_lt hi, Nat.mod_eq_of_lt hs] at a1
      exact a1.symm

/-- C105: a message between two sockets of a node is copied from the segment that the sender writes to. -/
theorem message_segment (hc : 0 < g.cores) (hcc : 0 < g.columns) (hM : ∀ p q, SameNode g p q → machine p = machine q)
    (hF : Fresh machine get) (hs : 0 < g.segs) {p q : Proc} (hpq : SameNode g p q) :
    ∃ k, k < g.segs ∧ messageSegment g.segs (q.1 / g.cores) (p.1 / g.cores) = k ∧
      SameMemory ((setup g machine get).mem p k) ((setup g machine get).mem q 0) := by
  have hq : q.1 / g.cores < p.1 / g.cores + g.segs := by
    have h := hpq.1
    rw [← Nat.div_div_eq_div_mul, ← Nat.div_div_eq_div_mul] at h
    have h1 := Nat.div_add_mod (p.1 / g.cores) g.segs
    have h2 := Nat.div_add_mod (q.1 / g.cores) g.segs
    have h3 := Nat.mod_lt (q.1 / g.cores) hs
    rw [h] at h1
    omega
  have e : (g.segs : Int) - (q.1 / g.cores : Nat) + (p.1 / g.cores : Nat) = ((p.1 / g.cores + g.segs - q.1 / g.cores : Nat) : Int) := by omega
  refine ⟨(p.1 / g.cores + g.segs - q.1 / g.cores) % g.segs, Nat.mod_lt _ hs, ?_, ?_⟩
  · unfold messageSegment
    rw [e]
    exact (Int.ofNat_tmod _ _).symm
  · refine (same_segment hc hcc hM hF hpq (Nat.mod_lt _ hs) hs).2 ?_
    rw [Nat.add_zero]
    refine (socket_modEq p).trans (Nat.ModEq.symm ?_)
    refine ((socket_modEq q).add (Nat.mod_modEq _ _)).trans ?_
    rw [show q.1 / g.cores + (p.1 / g.cores + g.segs - q.1 / g.cores) = p.1 / g.cores + g.segs by omega]
    exact Nat.add_mod_right _ _

/-- C105: all processes use the same size, so that the flags at the end of a segment are at the same place for all of them. It is
sufficient for every process and a multiple of a cache line. -/
theorem size_agrees {rows columns line : Nat} (hl : 0 < line) (size : Proc → Nat) {p q : Proc} (hp : p.1 < rows ∧ p.2 < columns) :
    sharedSize rows columns line size p = sharedSize rows columns line size q ∧ size p ≤ sharedSize rows columns line size p ∧
      line ∣ sharedSize rows columns line size p := by
  refine ⟨rfl, ?_, ?_⟩
  · have h : size p ≤ (Finset.range columns).sup fun c => (Finset.range rows).sup fun r => size (r, c) :=
      (Finset.le_sup (f := fun r => size (r, p.2)) (Finset.mem_range.2 hp.1)).trans
        (Finset.le_sup (f := fun c => (Finset.range rows).sup fun r => size (r, c)) (Finset.mem_range.2 hp.2))
    unfold sharedSize
    dsimp only
    generalize ((Finset.range columns).sup fun c => (Finset.range rows).sup fun r => size (r, c)) = s at h
    split
    · have := Nat.div_add_mod (s - 1) line
      have := Nat.mod_lt (s - 1) hl
      rw [Nat.mul_comm line] at *
      rw [Nat.add_mul, Nat.one_mul]
      omega
    · omega
  · unfold sharedSize
    dsimp only
    split
    · exact Nat.dvd_mul_left _ _
    · rename_i h
      rw [Nat.eq_zero_of_not_pos h]
      exact Nat.dvd_zero _

/-! ## Placement of the processes -/

theorem tasksLoop_dvd {l : List Nat} {n j : Nat} (h : Numeric.tasksLoop l n = some j) : 0 < j ∧ ∀ c ∈ l, j ∣ c := by
  induction n with
  | zero => cases h
  | succ n ih =>
    unfold Numeric.tasksLoop at h
    split at h
    · rename_i hc
      obtain rfl := Option.some.inj h
      exact ⟨by omega, fun c hc' => Nat.dvd_of_mod_eq_zero (by simpa using List.all_eq_true.1 hc c hc')⟩
    · exact ih h

/-- A place where the machine changes. -/
theorem boundary_dvd {n j b : Nat} {m : Nat → Nat} (hm : Consecutive n m) (hj : ∀ c ∈ machineSizes n m, j ∣ c) (hb : b < n)
    (h : ∀ r, r < b → m r ≠ m b) : j ∣ b := by
  have key : ∀ r, r < b → ∀ s, s < n → m s = m r → s < b := fun r hr s hs e => by
    by_contra hsb
    exact h r hr (hm r b s (by omega) (by omega) hs e.symm).symm
  rw [← Finset.card_range b, Finset.card_eq_sum_card_image m (Finset.range b)]
  refine Finset.dvd_sum fun x hx => ?_
  obtain ⟨r, hr, rfl⟩ := Finset.mem_image.1 hx
  have hr := Finset.mem_range.1 hr
  have e : ((Finset.range b).filter fun s => m s = m r) = (Finset.range n).filter fun s => m s = m r := by
    ext s
    simp only [Finset.mem_filter, Finset.mem_range]
    exact ⟨fun ⟨h1, h2⟩ => ⟨by omega, h2⟩, fun ⟨h1, h2⟩ => ⟨key r hr s h1 h2, h2⟩⟩
  rw [e]
  exact hj _ (List.mem_map.2 ⟨r, List.mem_range.2 (by omega), rfl⟩)

theorem same_group {n j : Nat} {m : Nat → Nat} (hm : Consecutive n m) (hj : ∀ c ∈ machineSizes n m, j ∣ c) (h0 : 0 < j) {p q : Nat}
    (hq : q < n) (hpq : p ≤ q) (h : p / j = q / j) : m p = m q := by
  induction q with
  | zero => rw [Nat.le_zero.1 hpq]
  | succ q ih =>
    by_cases e : p = q + 1
    · rw [e]
    · have h1 : p / j = q / j := Nat.le_antisymm (Nat.div_le_div_right (by omega)) (h ▸ Nat.div_le_div_right (by omega))
      rw [ih (by omega) (by omega) h1]
      by_contra hne
      have hd := boundary_dvd hm hj hq fun r hr e => hne ((hm r q (q + 1) (by omega) (by omega) hq e).trans e)
      have h2 := Nat.div_mul_cancel hd
      have h3 := Nat.div_mul_le_self q j
      rw [← h1, h, h2] at h3
      omega

/-- C106: processes that share memory are on the same machine if the ranks of a machine are consecutive and the number of sockets
divides the number of processes on each of them. -/
theorem one_machine_partial {n sockets : Nat} {m : Nat → Nat} (hm : Consecutive n m)
    (hs : ∀ j, Numeric.tasksPerSocket (machineSizes n m) 1 = some j → sockets ∣ j) : OneMachine n m sockets := by
  intro p q c hp hq h1 h2
  unfold sharing at h1 h2
  obtain ⟨t, ht, h1⟩ := Option.map_eq_some_iff.1 h1
  rw [ht] at h2
  have h2 := Option.some.inj h2
  dsimp only at h2
  cases hl : machineSizes n m with
  | nil => rw [hl] at ht; cases ht
  | cons c0 l =>
    rw [hl] at ht
    obtain ⟨j, hj, rfl⟩ := Option.map_eq_some_iff.1 ht
    have hd := hs j (by rw [hl]; simp only [Numeric.tasksPerSocket, hj, Option.map_some, Nat.div_one])
    obtain ⟨hj0, hjd⟩ := tasksLoop_dvd hj
    rw [Nat.div_mul_cancel hd] at h1 h2
    rw [← hl] at hjd
    rcases Nat.le_total p q with h | h
    · exact same_group hm hjd hj0 hq h (h1.trans h2.symm)
    · exact (same_group hm hjd hj0 hp h (h2.trans h1.symm)).symm

/-- C106: ranks that are dealt out to the machines in turn: the library lets processes of different machines share memory. For every
number of machines and of processes on each of them, above one. -/
theorem one_machine_violated {a b : Nat} (ha : 1 < a) (hb : 1 < b) : ¬OneMachine (a * b) (fun r => r % a) 1 := by
  have hsz : ∀ r, ((Finset.range (a * b)).filter fun s => s % a = r % a).card = b := fun r => by
    have : ((Finset.range (a * b)).filter fun s => s % a = r % a) = (Finset.range b).image fun k => k * a + r % a := by
      ext s
      simp only [Finset.mem_filter, Finset.mem_range, Finset.mem_image]
      constructor
      · rintro ⟨h1, h2⟩
        exact ⟨s / a, Nat.div_lt_of_lt_mul h1, by rw [← h2]; exact Nat.div_add_mod' s a⟩
      · rintro ⟨k, hk, rfl⟩
        have hr : r % a < a := Nat.mod_lt _ (by omega)
        refine ⟨?_, by rw [Nat.mul_comm, Nat.mul_add_mod, Nat.mod_mod]⟩
        calc k * a + r % a < k * a + a := by omega
          _ = a * (k + 1) := by rw [Nat.mul_add, Nat.mul_one, Nat.mul_comm]
          _ ≤ a * b := Nat.mul_le_mul_left _ hk
    rw [this, Finset.card_image_of_injective _ fun x y h => ?_, Finset.card_range]
    exact Nat.eq_of_mul_eq_mul_right (show 0 < a by omega) (Nat.add_right_cancel h)
  have hab : 1 < a * b := by
    calc 1 < a := ha
      _ = a * 1 := (Nat.mul_one a).symm
      _ ≤ a * b := Nat.mul_le_mul_left _ (by omega)
  have hl : machineSizes (a * b) (fun r => r % a) = List.replicate (a * b) b := by
    unfold machineSizes
    rw [List.map_congr_left fun r _ => hsz r, List.map_const', List.length_range]
  have ht : Numeric.tasksPerSocket (machineSizes (a * b) fun r => r % a) 1 = some b := by
    rw [hl]
    obtain ⟨k, hk⟩ : ∃ k, a * b = k + 1 := ⟨a * b - 1, by omega⟩
    obtain ⟨b', rfl⟩ : ∃ b', b = b' + 1 := ⟨b - 1, by omega⟩
    rw [hk, List.replicate_succ]
    simp only [Numeric.tasksPerSocket]
    unfold Numeric.tasksLoop
    rw [if_pos (List.all_eq_true.2 fun c hc => ?_)]
    · simp
    · rw [← List.replicate_succ] at hc
      rw [List.eq_of_mem_replicate hc]
      simp
  intro h
  have hsh : ∀ r, r < b → sharing (a * b) (fun r => r % a) 1 r = some 0 := fun r hr => by
    unfold sharing
    rw [ht, Option.map_some, Nat.mul_one, Nat.div_eq_of_lt hr]
  have := h 0 1 0 (by omega) hab (hsh 0 (by omega)) (hsh 1 hb)
  simp only [Nat.zero_mod, Nat.mod_eq_of_lt ha] at this
  omega

/-- C106: consecutive ranks, three processes on each of two machines, two sockets: processes 2 and 3 share memory. -/
theorem sockets_violated : Consecutive 6 (fun r => r / 3) ∧ ¬OneMachine 6 (fun r => r / 3) 2 := by
  constructor
  · intro r s t h1 h2 h3 h4
    have := Nat.div_le_div_right (c := 3) h1
    have := Nat.div_le_div_right (c := 3) h2
    dsimp only at h4 ⊢
    omega
  · intro h
    have := h 2 3 1 (by decide) (by decide) (by decide +kernel) (by decide +kernel)
    revert this
    decide

/-! ## Examples -/

/-- Identifiers for examples. -/
def exampleGet (p : Proc) (i : Nat) : Int := Nat.pair (Nat.pair p.1 p.2) i

example (machine : Proc → Nat) : Fresh machine exampleGet := fun p q i j _ h => by
  obtain ⟨h1, h2⟩ := Nat.pair_eq_pair.1 (Int.ofNat.inj h)
  obtain ⟨h3, h4⟩ := Nat.pair_eq_pair.1 h1
  exact ⟨Prod.ext h3 h4, h2⟩

/-- Two nodes with two sockets of three processes: processes 6 to 8 and 9 to 11 are those of the second node. Segment 0 of
processes 7 and 8 was created by process 6 and is segment 1 of process 10. -/
example : ((setup ⟨3, 1, 2⟩ (fun p => p.1 / 6) exampleGet).mem (7, 0) 0 = .shm 1 (exampleGet (6, 0) 0) true ∧
    (setup ⟨3, 1, 2⟩ (fun p => p.1 / 6) exampleGet).mem (8, 0) 0 = .shm 1 (exampleGet (6, 0) 0) true) ∧
    (setup ⟨3, 1, 2⟩ (fun p => p.1 / 6) exampleGet).mem (7, 0) 1 = .shm 1 (exampleGet (9, 0) 1) false ∧
    (setup ⟨3, 1, 2⟩ (fun p => p.1 / 6) exampleGet).mem (10, 0) 1 = .shm 1 (exampleGet (6, 0) 0) false := by decide +kernel

/-- The hypotheses of the theorems. -/
example : ∀ p q : Proc, SameNode ⟨3, 1, 2⟩ p q → (fun p : Proc => p.1 / 6) p = (fun p : Proc => p.1 / 6) q := fun _ _ h => h.1

/-- Three machines of four processes, two sockets. -/
example : OneMachine 12 (fun r => r / 4) 2 := one_machine_partial (fun r s t h1 h2 h3 h4 => by
  have := Nat.div_le_div_right (c := 4) h1
  have := Nat.div_le_div_right (c := 4) h2
  omega) fun j hj => by
  have : Numeric.tasksPerSocket (machineSizes 12 fun r => r / 4) 1 = some 4 := by decide +kernel
  rw [this] at hj
  obtain rfl := Option.some.inj hj
  decide

end ExtMpi.Segments
