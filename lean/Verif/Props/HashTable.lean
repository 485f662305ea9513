import Verif.Lemmas.HashTable

/-!
# Properties C06, C07: the request table
-/
namespace ExtMpi.HashTable
open Spec

/-- **C06.** For every history that registers only unregistered non-null requests and registers
fewer than 256 of them in total, every operation terminates within 256 loop iterations and
the table behaves like a finite map: all values returned are those of the map. -/
theorem table_refines_map (nullKey : Key) (ops : List Op) (hwf : WellFormed nullKey empty ops)
    (hins : inserts ops < SIZE) (fuel : Nat) (hf : SIZE ≤ fuel) :
    ∃ t, runOps nullKey fuel init ops = some (t, (run empty ops).2) := by
  obtain ⟨t, h, _⟩ := run_correct fuel hf ops init empty R_init hwf (by rw [numNull_init]; exact hins)
  exact ⟨t, h⟩

/-- non-vacuity: colliding keys, a deletion in the middle of the probe sequence, a foreign key -/
example : WellFormed [0, 0] empty [.insert [1, 2] 10, .insert [2, 1] 12, .insert [3, 0] 14,
      .delete [2, 1], .search [3, 0], .search [2, 1], .search [0, 3]] ∧
    (run empty [.insert [1, 2] 10, .insert [2, 1] 12, .insert [3, 0] 14,
      .delete [2, 1], .search [3, 0], .search [2, 1], .search [0, 3]]).2 =
      [0, 0, 0, 12, 14, -1, -1] := by
  refine ⟨?_, by decide⟩
  simp [WellFormed, Spec.step, empty]

/-- **C06, one step from any state that refines a map**: also beyond 256 registrations, as long
as one slot was never used. -/
theorem table_search_any_state (nullKey : Key) (t : Table) (m : Map) (h : R nullKey t m)
    (hnull : ∃ q, q < SIZE ∧ t q = .null) (k : Key) (fuel : Nat) (hf : SIZE ≤ fuel) :
    search nullKey t k fuel = some (lookup m k) :=
  search_correct h k fuel hf (Or.inr hnull)

/-- **C07, full statement**: after every well-formed history with fewer than 256 live
registrations at any time every search terminates. -/
def SearchTerminates (nullKey : Key) : Prop :=
  ∀ ops t outs fuel, WellFormed nullKey empty ops →
    (∀ pre post, ops = pre ++ post → ∃ live : List Key, live.length < SIZE ∧
      ∀ k, (run empty pre).1 k ≠ none → k ∈ live) →
    runOps nullKey fuel init ops = some (t, outs) →
    ∀ k, ∃ fuel', search nullKey t k fuel' ≠ none

/-- A request with four bytes, the first one `j`. -/
def wkey (j : Nat) : Key := [BitVec.ofNat 8 j, 0, 0, 0]

/-- `j` times: create a collective, then free it. -/
def churn : Nat → List Op
  | 0 => []
  | j + 1 => churn j ++ [.insert (wkey j) j, .delete (wkey j)]

/-- The table after `j` create/free cycles: `j` tombstones. -/
def churned (j : Nat) : Table := fun p => if p < j then .dummy else .null

theorem hash_wkey (j : Nat) (hj : j < 256) : hashCode (wkey j) = j := by
  simp [hashCode, wkey, BitVec.toNat_ofNat]; omega

theorem runOps_append (nullKey : Key) (fuel : Nat) (a b : List Op) : ∀ (t t1 t2 : Table) (o1 o2 : List Int),
    runOps nullKey fuel t a = some (t1, o1) → runOps nullKey fuel t1 b = some (t2, o2) →
    runOps nullKey fuel t (a ++ b) = some (t2, o1 ++ o2) := by
  induction a with
  | nil => intro t t1 t2 o1 o2 h1 h2; simp [runOps] at h1; obtain ⟨rfl, rfl⟩ := h1; simpa using h2
  | cons op a ih =>
    intro t t1 t2 o1 o2 h1 h2
    simp only [runOps, List.cons_append] at h1 ⊢
    cases hs : stepOp nullKey fuel t op with
    | none => rw [hs] at h1; simp at h1
    | some p =>
      obtain ⟨t', o⟩ := p
      rw [hs] at h1
      simp only [Option.map_eq_some_iff, Prod.exists, Prod.mk.injEq] at h1
      obtain ⟨a1, b1, hr, rfl, rfl⟩ := h1
      simp only [ih _ _ _ _ _ hr h2, Option.map_some, List.cons_append]

theorem churn_run (nullKey : Key) (j : Nat) (hj : j ≤ 256) (hne : ∀ i, i < 256 → wkey i ≠ nullKey) :
    ∃ outs, runOps nullKey 1 init (churn j) = some (churned j, outs) := by
  induction j with
  | zero => exact ⟨[], by simp only [churn, runOps]; congr 2⟩
  | succ j ih =>
    obtain ⟨outs, h⟩ := ih (by omega)
    have h2 : runOps nullKey 1 (churned j) [.insert (wkey j) j, .delete (wkey j)] =
        some (churned (j + 1), [0, (j : Int)]) := by
      have e1 : churned j j = .null := by simp [churned]
      have e2 : set (churned j) j (.item (wkey j) j) j = .item (wkey j) j := by simp [set]
      have e3 : set (set (churned j) j (.item (wkey j) j)) j .dummy = churned (j + 1) := by
        funext p
        simp only [set, churned]
        by_cases hp : p = j
        · subst hp; simp
        · simp only [hp, if_false]
          by_cases h1 : p < j
          · rw [if_pos h1, if_pos (by omega)]
          · rw [if_neg h1, if_neg (by omega)]
      simp [runOps, stepOp, insert, insertLoop, delete, deleteLoop, hash_wkey j (by omega), e1, e2, e3]
    exact ⟨_, runOps_append _ _ _ _ _ _ _ _ _ h h2⟩

theorem full_diverges (nullKey k : Key) (hk : k ≠ nullKey) (fuel : Nat) : ∀ i, i < 256 →
    searchLoop nullKey (churned 256) k fuel i = none := by
  induction fuel with
  | zero => intro i _; rfl
  | succ f ih =>
    intro i hi
    have : churned 256 i = .dummy := by simp [churned, hi]
    simp only [searchLoop, this, if_neg (fun e => hk (Eq.symm e) : ¬ nullKey = k)]
    exact ih _ (by unfold SIZE; omega)

theorem run_append (m : Map) (a b : List Op) :
    run m (a ++ b) = ((run (run m a).1 b).1, (run m a).2 ++ (run (run m a).1 b).2) := by
  induction a generalizing m with
  | nil => simp [run]
  | cons op a ih => simp [run, ih]

theorem wf_append (nullKey : Key) (m : Map) (a b : List Op) :
    WellFormed nullKey m (a ++ b) ↔ WellFormed nullKey m a ∧ WellFormed nullKey (run m a).1 b := by
  induction a generalizing m with
  | nil => simp [WellFormed, run]
  | cons op a ih => simp only [List.cons_append, WellFormed, ih, run, and_assoc]

theorem churn_spec (nullKey : Key) (j : Nat) (hj : j ≤ 256) (hne : ∀ i, i < 256 → wkey i ≠ nullKey) :
    WellFormed nullKey empty (churn j) ∧ (run empty (churn j)).1 = empty := by
  induction j with
  | zero => simp [churn, WellFormed, run]
  | succ j ih =>
    obtain ⟨h1, h2⟩ := ih (by omega)
    constructor
    · rw [churn, wf_append]
      refine ⟨h1, ?_⟩
      rw [h2]
      simp [WellFormed, hne j (by omega), empty]
    · rw [churn, run_append, h2]
      funext k
      by_cases hk : k = wkey j <;> simp [run, Spec.step, empty, hk]

/-- the number of live requests during the churn never exceeds one -/
theorem churn_live (j : Nat) : ∀ pre post, churn j = pre ++ post →
    ∃ live : List Key, live.length ≤ 1 ∧ ∀ k, (run empty pre).1 k ≠ none → k ∈ live := by
  have hempty : ∀ j, (run empty (churn j)).1 = empty := by
    intro j
    induction j with
    | zero => simp [churn, run]
    | succ j ih =>
      rw [churn, run_append, ih]
      funext k
      by_cases hk : k = wkey j <;> simp [run, Spec.step, empty, hk]
  induction j with
  | zero =>
    intro pre post h
    simp [churn] at h
    exact ⟨[], by simp, by simp [h.1, run, empty]⟩
  | succ j ih =>
    intro pre post h
    rw [churn] at h
    rcases List.append_eq_append_iff.1 h with ⟨as, hpre, htail⟩ | ⟨as, hpre, _⟩
    · subst hpre
      rw [run_append, hempty]
      rcases as with _ | ⟨a, as⟩
      · exact ⟨[], by simp, by simp [run, empty]⟩
      · simp only [List.cons_append, List.cons.injEq] at htail
        obtain ⟨rfl, htail⟩ := htail
        rcases as with _ | ⟨b, as⟩
        · refine ⟨[wkey j], by simp, ?_⟩
          intro k hk
          by_cases e : k = wkey j
          · simp [e]
          · simp [run, Spec.step, e, empty] at hk
        · simp only [List.cons_append, List.cons.injEq] at htail
          obtain ⟨rfl, htail⟩ := htail
          rcases as with _ | ⟨c, as⟩
          · refine ⟨[], by simp, ?_⟩
            intro k hk
            by_cases e : k = wkey j <;> simp [run, Spec.step, e, empty] at hk
          · simp at htail
    · exact ih pre as hpre

/-- **C07 is violated by the code.** 256 create/free cycles with one live request at a time
turn every slot into a tombstone; afterwards the lookup of any request that is not in the
table (for instance of an ordinary point-to-point request passed to `MPI_Start` or
`MPI_Wait`) never returns. -/
theorem search_may_diverge (nullKey : Key) (hne : ∀ i, i < 256 → wkey i ≠ nullKey) :
    (∃ outs, runOps nullKey 1 init (churn 256) = some (churned 256, outs)) ∧
    ∀ k, k ≠ nullKey → ∀ fuel, search nullKey (churned 256) k fuel = none :=
  ⟨churn_run nullKey 256 (le_refl _) hne, fun k hk fuel =>
    full_diverges nullKey k hk fuel _ (hashCode_lt k)⟩

/-- `MPI_REQUEST_NULL` of MPICH, for instance (0x2c000000 as little-endian bytes). -/
def mpichNull : Key := [0, 0, 0, 0x2c]

theorem mpichNull_ne : ∀ i, i < 256 → wkey i ≠ mpichNull := by
  intro i _ h; simp [wkey, mpichNull] at h

/-- **C07, negation.** -/
theorem search_terminates_violated : ¬ SearchTerminates mpichNull := by
  intro h
  obtain ⟨⟨outs, hr⟩, hdiv⟩ := search_may_diverge mpichNull mpichNull_ne
  obtain ⟨n, hn⟩ : ∃ n, n = 256 := ⟨_, rfl⟩
  rw [← hn] at hr hdiv
  obtain ⟨fuel', hf⟩ := h (churn n) (churned n) outs 1
    (churn_spec mpichNull n (by omega) mpichNull_ne).1
    (fun pre post hp => by
      obtain ⟨live, hl, hk⟩ := churn_live n pre post hp
      exact ⟨live, by unfold SIZE; omega, hk⟩) hr [1, 1, 1, 1]
  exact hf (hdiv _ (by decide) fuel')

/-- **C07, the part that holds (1).** Histories with fewer than 256 registrations in total:
every search, registration and release terminates (within 256 iterations).
Missing: histories with more registrations. -/
theorem search_terminates_partial (nullKey : Key) (ops : List Op)
    (hwf : WellFormed nullKey empty ops) (hins : inserts ops < SIZE) (k : Key) :
    ∃ t outs, runOps nullKey SIZE init ops = some (t, outs) ∧ search nullKey t k SIZE ≠ none := by
  have hwf' : WellFormed nullKey empty (ops ++ [.search k]) := by
    rw [wf_append]; exact ⟨hwf, by simp [WellFormed]⟩
  have hins' : inserts (ops ++ [.search k]) < SIZE := by
    have : inserts (ops ++ [.search k]) = inserts ops := by
      clear hwf hins hwf'
      induction ops with
      | nil => rfl
      | cons op ops ih => cases op <;> simp [inserts, ih]
    omega
  obtain ⟨t, h, hR⟩ := run_correct (nullKey := nullKey) SIZE (le_refl _) ops init empty R_init hwf
    (by rw [numNull_init]; exact hins)
  refine ⟨t, _, h, ?_⟩
  obtain ⟨t2, h2⟩ := table_refines_map nullKey _ hwf' hins' SIZE (le_refl _)
  intro hn
  have h3 : runOps nullKey SIZE init (ops ++ [.search k]) = none := by
    have : ∀ (a : List Op) (t0 t1 : Table) (o : List Int),
        runOps nullKey SIZE t0 a = some (t1, o) → search nullKey t1 k SIZE = none →
        runOps nullKey SIZE t0 (a ++ [.search k]) = none := by
      intro a
      induction a with
      | nil => intro t0 t1 o h hs; simp [runOps] at h; obtain ⟨rfl, _⟩ := h; simp [runOps, stepOp, hs]
      | cons op a ih =>
        intro t0 t1 o h hs
        simp only [runOps, List.cons_append] at h ⊢
        cases hst : stepOp nullKey SIZE t0 op with
        | none => rfl
        | some p =>
          rw [hst] at h
          simp only [Option.map_eq_some_iff, Prod.exists, Prod.mk.injEq] at h
          obtain ⟨a1, b1, hr, rfl, rfl⟩ := h
          simp only [ih _ _ _ hr hs, Option.map_none]
    exact this ops _ _ _ h hn
  rw [h3] at h2; simp at h2

/-- **C07, the part that holds (2).** Looking up or releasing a *registered* request always
terminates with its handle, however the table was used before. -/
theorem live_lookup_terminates_partial (nullKey : Key) (t : Table) (m : Map) (h : R nullKey t m)
    (k : Key) (d : Int) (hk : m k = some d) :
    search nullKey t k SIZE = some d ∧ ∃ t', delete nullKey t k SIZE = some (.ok d t') := by
  have hl : lookup m k = d := by simp [lookup, hk]
  refine ⟨?_, ?_⟩
  · rw [search_correct h k SIZE (le_refl _) (Or.inl (by simp [hk])), hl]
  · obtain ⟨t', ht, _⟩ := delete_correct h k (h.live k d hk).1 SIZE (le_refl _) (Or.inl (by simp [hk]))
    exact ⟨t', by rw [ht, hl]⟩

/-- non-vacuity of the hypotheses of the two state-based theorems -/
example : R [0] (set init 3 (.item [3] 8)) (fun k => if k = [3] then some 8 else none) ∧
    ∃ q, q < SIZE ∧ set init 3 (.item [3] 8) q = .null := by
  obtain ⟨t', h1, h2, _⟩ := insert_correct (nullKey := [0]) R_init [3] 8 (by decide) rfl SIZE
    (le_refl _) ⟨0, by decide, Or.inl rfl⟩
  have : insert [0] init [3] 8 SIZE = some (set init 3 (.item [3] 8)) := by rfl
  rw [this] at h1; injection h1 with h1; subst h1
  exact ⟨h2, 0, by decide, by simp [set, init]⟩

end ExtMpi.HashTable
