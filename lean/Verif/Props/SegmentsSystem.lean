import Verif.Spec.SegmentsSystem
import Verif.Props.Segments
/-! # Shared memory and the operating system (C107 to C109) -/
namespace ExtMpi.Segments

/-! ## Refusal -/

theorem outcome_ne_error {g : Grid} {sys : System} {p : Proc} (h : ∀ i, address g sys i p ≠ 0) (n : Nat) :
    ∀ i, outcome g sys p i n ≠ .error := by
  induction n with
  | zero => intro i h; cases h
  | succ n ih =>
    intro i
    unfold outcome
    rw [if_neg (h i)]
    split
    · intro h; cases h
    · exact ih _

/-- C107: no initialisation on a node with several processes reports that there is no shared memory, whatever the system refuses. -/
theorem refused_violated {g : Grid} (h1 : single g = false) {sys : System} (hp : Posix sys) (p : Proc) :
    outcome g sys p 0 g.segs ≠ .error :=
  outcome_ne_error (fun i => by unfold address; rw [h1]; exact hp _ _) _ _

/-- C107: the first process writes to address -1 if the system refuses the first segment. -/
theorem refused_writes {g : Grid} (hs : 0 < g.segs) (h1 : single g = false) {sys : System} (h : address g sys 0 (0, 0) = -1) :
    outcome g sys (0, 0) 0 g.segs = .undefined := by
  obtain ⟨n, hn⟩ : ∃ n, g.segs = n + 1 := ⟨g.segs - 1, by omega⟩
  rw [hn]
  unfold outcome
  rw [h, if_neg (by decide), if_pos (by simp [creates])]

/-- C107: a process alone on its node reports it. -/
theorem refused_partial {g : Grid} (h1 : single g = true) (sys : System) (p : Proc) :
    outcome g sys p 0 g.segs = .error ↔ Refused g sys p := by
  have e := (single_one h1).2.2
  unfold Refused
  rw [e]
  unfold outcome outcome
  simp only [address, h1, if_true]
  constructor
  · intro h
    by_cases h0 : sys.malloc p = 0
    · exact ⟨0, by omega, h0⟩
    · rw [if_neg h0] at h
      split at h <;> cases h
  · rintro ⟨i, _, h⟩
    exact if_pos h

/-- Two processes on a node; the system has no shared memory. -/
example : ∃ sys : System, Posix sys ∧ Refused ⟨2, 1, 1⟩ sys (0, 0) ∧ outcome ⟨2, 1, 1⟩ sys (0, 0) 0 1 = .undefined ∧
    outcome ⟨2, 1, 1⟩ sys (1, 0) 0 1 = .ok :=
  ⟨⟨fun _ => 1, fun _ _ => -1, fun _ _ => -1⟩, fun _ _ h => absurd h (by decide : (-1 : Int) ≠ 0), ⟨0, by decide, rfl⟩, by decide, by decide⟩

/-! ## Names -/

/-- The state after initialisations. -/
def afterAll (size : Nat) (hist : List (List Nat)) (s : Names) : Names := hist.foldl (fun s c => (openSegment size c s).2) s

theorem openAll_get (size : Nat) (hist : List (List Nat)) : ∀ (s : Names) (k : Nat), (openAll size hist s)[k]? =
    hist[k]?.map fun c => (openSegment size c (afterAll size (hist.take k) s)).1 := by
  induction hist with
  | nil => intro s k; rfl
  | cons c cs ih =>
    intro s k
    cases k with
    | zero => rfl
    | succ k =>
      simp only [openAll, List.getElem?_cons_succ]
      rw [ih]
      rfl

theorem afterAll_next (size : Nat) (p : Nat) (hist : List (List Nat)) : ∀ s : Names,
    (afterAll size hist s).next p = s.next p + hist.countP fun c => decide (p ∈ c) := by
  induction hist with
  | nil => intro s; rfl
  | cons c cs ih =>
    intro s
    have : afterAll size (c :: cs) s = afterAll size cs (openSegment size c s).2 := rfl
    rw [this, ih, List.countP_cons]
    simp only [openSegment, decide_eq_true_eq]
    split <;> omega

theorem min_mem {c : List Nat} (h : c ≠ []) : c.min?.getD 0 ∈ c := by
  cases hm : c.min? with
  | none => exact absurd (List.min?_eq_none_iff.1 hm) h
  | some m => exact List.min?_mem hm

/-- What a process opens. -/
theorem open_some {size : Nat} {c : List Nat} {s : Names} {t : Nat} (hc : c ≠ []) (ht : ∀ p, p ∈ c → s.next p = t) {p : Nat} (hp : p ∈ c) :
    (openSegment size c s).1 p = some (c.min?.getD 0 + size * t) := by
  obtain ⟨a, l, rfl⟩ := List.exists_cons_of_ne_nil hc
  have e : ∀ q, q ∈ a :: l → nameOf size (a :: l) s q = (a :: l).min?.getD 0 + size * t := fun q hq => by rw [nameOf, ht q hq]
  unfold openSegment
  dsimp only
  rw [if_pos, e p hp]
  rw [e p hp, List.head?_cons, Option.any_some, e a List.mem_cons_self, beq_self_eq_true, Bool.or_true]

/-- C108: with communicators of which any two are equal or have no process in common the processes of every initialisation open
the same object, different from those of the others. -/
theorem names_partial {size : Nat} {hist : List (List Nat)} {s : Names} (h0 : ∀ p, s.next p = 0) (hne : ∀ c, c ∈ hist → c ≠ [])
    (hlt : ∀ c, c ∈ hist → ∀ p, p ∈ c → p < size)
    (hd : ∀ c, c ∈ hist → ∀ c', c' ∈ hist → c' = c ∨ ∀ p, p ∈ c → p ∉ c') : Named hist (openAll size hist s) := by
  refine ⟨fun k => ((hist[k]?.getD []).min?.getD 0) + size * (hist.take k).count (hist[k]?.getD []), fun k c o hc ho p hp => ?_,
    fun j k hjk hk e => ?_⟩
  · have hcm := List.mem_of_getElem? hc
    rw [openAll_get, hc, Option.map_some] at ho
    obtain rfl := Option.some.inj ho
    dsimp only
    rw [hc]
    refine open_some (hne c hcm) (fun q hq => ?_) hp
    rw [afterAll_next, h0, Nat.zero_add, List.count]
    refine List.countP_congr fun c' hc' => ?_
    simp only [decide_eq_true_eq, beq_iff_eq, Option.getD_some]
    rcases hd c hcm c' (List.mem_of_mem_take hc') with rfl | h
    · exact ⟨fun _ => rfl, fun _ => hq⟩
    · exact ⟨fun h' => absurd h' (h q hq), fun e => e ▸ hq⟩
  · have hj : j < hist.length := by omega
    dsimp only at e
    rw [List.getElem?_eq_getElem hj, List.getElem?_eq_getElem hk, Option.getD_some, Option.getD_some] at e
    have mj := List.getElem_mem hj
    have mk := List.getElem_mem hk
    have a1 := hlt _ mj _ (min_mem (hne _ mj))
    have a2 := hlt _ mk _ (min_mem (hne _ mk))
    have e1 : hist[j].min?.getD 0 = hist[k].min?.getD 0 := by
      have := congrArg (· % size) e
      simpa only [Nat.add_mul_mod_self_left, Nat.mod_eq_of_lt a1, Nat.mod_eq_of_lt a2] using this
    have e2 : hist[j] = hist[k] := (hd _ mk _ mj).resolve_right fun h =>
      h _ (min_mem (hne _ mk)) (e1 ▸ min_mem (hne _ mj))
    rw [e1, e2] at e
    have e3 := Nat.eq_of_mul_eq_mul_left (by omega) (Nat.add_left_cancel e)
    have h4 : (hist.take (j + 1)).count hist[k] ≤ (hist.take k).count hist[k] :=
      (List.take_sublist_take_left (by omega)).count_le _
    rw [List.take_succ_eq_append_getElem hj, List.count_append, e2, List.count_singleton_self] at h4
    omega

/-- C108: processes that have taken part in different numbers of initialisations open different objects. -/
theorem names_differ {size : Nat} (hs : 0 < size) {c : List Nat} {s : Names} {p q : Nat} (h : s.next p ≠ s.next q) :
    (openSegment size c s).1 p = none ∨ (openSegment size c s).1 q = none ∨ (openSegment size c s).1 p ≠ (openSegment size c s).1 q := by
  by_cases e : (openSegment size c s).1 p = (openSegment size c s).1 q
  · simp only [openSegment] at e ⊢
    split at e
    · rename_i h1
      split at e
      · exact absurd (Nat.eq_of_mul_eq_mul_left hs (Nat.add_left_cancel (Option.some.inj e))) h
      · cases e
    · rename_i h1
      exact .inl (if_neg h1)
  · exact .inr (.inr e)

/-- C108: two processes; process 0 initialises a collective of its own, then both one together. Process 1 opens the object of the
first collective. -/
theorem names_violated : (openAll 2 [[0], [0, 1]] ⟨fun _ => 0, fun _ => false⟩).map (fun o => [0, 1].map o) =
    [[some 0, some 0], [some 2, some 0]] ∧ ¬Named [[0], [0, 1]] (openAll 2 [[0], [0, 1]] ⟨fun _ => 0, fun _ => false⟩) := by
  refine ⟨by decide, ?_⟩
  rintro ⟨name, h, _⟩
  have h1 := h 1 [0, 1] _ rfl rfl 0 (by decide)
  have h2 := h 1 [0, 1] _ rfl rfl 1 (by decide)
  rw [← h2] at h1
  revert h1
  decide

/-- Four processes, communicators of two of them and of the others. -/
example : Named [[0, 2], [1, 3], [0, 2]] (openAll 4 [[0, 2], [1, 3], [0, 2]] ⟨fun _ => 0, fun _ => true⟩) :=
  names_partial (fun _ => rfl) (by decide) (by decide) (by decide)

/-! ## Release -/

theorem mem_release {c : Call} (n : Nat) : ∀ k, c ∈ releaseCalls k n → ∃ i, k ≤ i ∧ (c = .detach i ∨ c = .remove i) := by
  induction n with
  | zero => intro k h; cases h
  | succ n ih =>
    intro k h
    rcases List.mem_cons.1 h with rfl | h
    · exact ⟨k, le_rfl, .inl rfl⟩
    rcases List.mem_cons.1 h with rfl | h
    · exact ⟨k, le_rfl, .inr rfl⟩
    obtain ⟨i, h1, h2⟩ := ih (k + 1) h
    exact ⟨i, by omega, h2⟩

theorem release_mem {n : Nat} : ∀ k i, k ≤ i → i < k + n → .detach i ∈ releaseCalls k n ∧ .remove i ∈ releaseCalls k n := by
  induction n with
  | zero => intro k i _ _; omega
  | succ n ih =>
    intro k i h1 h2
    by_cases e : i = k
    · subst e
      exact ⟨List.mem_cons_self, List.mem_cons_of_mem _ List.mem_cons_self⟩
    · obtain ⟨a, b⟩ := ih (k + 1) i (by omega) (by omega)
      exact ⟨List.mem_cons_of_mem _ (List.mem_cons_of_mem _ a), List.mem_cons_of_mem _ (List.mem_cons_of_mem _ b)⟩

theorem release_nodup (n : Nat) : ∀ k, (releaseCalls k n).Nodup := by
  induction n with
  | zero => intro k; exact List.nodup_nil
  | succ n ih =>
    intro k
    refine List.nodup_cons.2 ⟨fun h => ?_, List.nodup_cons.2 ⟨fun h => ?_, ih _⟩⟩
    · rcases List.mem_cons.1 h with h | h
      · cases h
      · obtain ⟨i, h1, h2 | h2⟩ := mem_release n _ h
        · cases h2; omega
        · cases h2
    · obtain ⟨i, h1, h2 | h2⟩ := mem_release n _ h
      · cases h2
      · cases h2; omega

theorem release_length (n : Nat) : ∀ k, (releaseCalls k n).length = 2 * n := by
  induction n with
  | zero => intro k; rfl
  | succ n ih => intro k; simp only [releaseCalls, List.length_cons, ih]; omega

/-- Invariant. -/
structure Inv (n segs : Nat) (t : (Nat → List Call) × Shared) : Prop where
  nodup : ∀ p, (t.1 p).Nodup
  held : ∀ p k, p < n → .detach k ∈ t.1 p → t.2.attached k p = true
  freed : ∀ p k, p < n → k < segs → .detach k ∈ t.1 p ∨ t.2.attached k p = false
  marked : ∀ p k, p < n → k < segs → .remove k ∈ t.1 p ∨ t.2.removed k = true

theorem inv_step {n segs : Nat} {t t' : (Nat → List Call) × Shared} (h : Inv n segs t) (hs : Release n t t') : Inv n segs t' := by
  cases hs with
  | @call rest s p c r hp e =>
    have hnd := h.nodup p
    dsimp only at hnd
    rw [e] at hnd
    obtain ⟨hn1, hn2⟩ := List.nodup_cons.1 hnd
    refine ⟨fun q => ?_, fun q k hq hk => ?_, fun q k hq hk => ?_, fun q k hq hk => ?_⟩
    · dsimp only
      by_cases eq : q = p
      · subst eq; rw [Function.update_self]; exact hn2
      · rw [Function.update_of_ne eq]; exact h.nodup q
    · dsimp only at hk ⊢
      have hmem : .detach k ∈ rest q ∧ ¬(q = p ∧ c = .detach k) := by
        by_cases eq : q = p
        · subst eq
          rw [Function.update_self] at hk
          exact ⟨e ▸ List.mem_cons_of_mem _ hk, fun h => hn1 (h.2 ▸ hk)⟩
        · rw [Function.update_of_ne eq] at hk
          exact ⟨hk, fun h => eq h.1⟩
      have := h.held q k hq hmem.1
      cases c with
      | detach j =>
        simp only [Call.run]
        rw [if_neg fun h => hmem.2 ⟨h.2, by rw [h.1]⟩]
        exact this
      | remove j => exact this
    · dsimp only
      rcases h.freed q k hq hk with h1 | h1
      · by_cases eq : q = p
        · subst eq
          dsimp only at h1
          rw [e] at h1
          rw [Function.update_self]
          rcases List.mem_cons.1 h1 with h1 | h1
          · subst h1
            exact .inr (if_pos ⟨rfl, rfl⟩)
          · exact .inl h1
        · rw [Function.update_of_ne eq]; exact .inl h1
      · right
        dsimp only at h1
        cases c with
        | detach j => simp only [Call.run]; split <;> [rfl; exact h1]
        | remove j => exact h1
    · dsimp only
      rcases h.marked q k hq hk with h1 | h1
      · by_cases eq : q = p
        · subst eq
          dsimp only at h1
          rw [e] at h1
          rw [Function.update_self]
          rcases List.mem_cons.1 h1 with h1 | h1
          · subst h1
            exact .inr (if_pos rfl)
          · exact .inl h1
        · rw [Function.update_of_ne eq]; exact .inl h1
      · right
        dsimp only at h1
        cases c with
        | detach j => exact h1
        | remove j => simp only [Call.run]; split <;> [rfl; exact h1]

theorem inv_releasing {n segs : Nat} {s : Shared} (ha : ∀ k p, k < segs → p < n → s.attached k p = true) {m : Nat}
    {t : (Nat → List Call) × Shared} (h : Releasing n segs s m t) : Inv n segs t := by
  obtain ⟨f, h0, rfl, hf⟩ := h
  have hstart : Inv n segs (f 0) := by
    rw [h0]
    refine ⟨fun p => release_nodup _ _, fun p k hp hk => ha k p ?_ hp, fun p k _ hk => .inl (release_mem 0 k (by omega) (by omega)).1,
      fun p k _ hk => .inl (release_mem 0 k (by omega) (by omega)).2⟩
    clear ha hf h0
    have key : ∀ m i, Call.detach k ∈ releaseCalls i m → k < i + m := by
      intro m
      induction m with
      | zero => intro i h; cases h
      | succ m ih =>
        intro i h
        rcases List.mem_cons.1 h with h | h
        · cases h; omega
        rcases List.mem_cons.1 h with h | h
        · cases h
        have := ih _ h
        omega
    have := key _ _ hk
    omega
  have : ∀ i, i ≤ m → Inv n segs (f i) := by
    intro i
    induction i with
    | zero => intro _; exact hstart
    | succ i ih => intro hi; exact inv_step (ih (by omega)) (hf i (by omega))
  exact this m le_rfl

/-- C109: a segment exists as long as some process has not detached it, and at the end no segment is left. The release ends after two
calls for each segment of each process. -/
theorem release {n segs : Nat} (hn : 0 < n) {s : Shared} (ha : ∀ k p, k < segs → p < n → s.attached k p = true) {m : Nat}
    {t : (Nat → List Call) × Shared} (h : Releasing n segs s m t) :
    m ≤ n * (2 * segs) ∧ (∀ p k, p < n → .detach k ∈ t.1 p → ¬gone n t.2 k) ∧
      ((∀ t', ¬Release n t t') → ∀ k, k < segs → gone n t.2 k) := by
  have hI := inv_releasing ha h
  refine ⟨?_, fun p k hp hk hg => ?_, fun hend k hk => ?_⟩
  · obtain ⟨f, h0, rfl, hf⟩ := h
    have : ∀ i, i ≤ m → i + ((Finset.range n).sum fun p => ((f i).1 p).length) = n * (2 * segs) := by
      intro i
      induction i with
      | zero =>
        intro _
        rw [h0]
        simp only [release_length, Finset.sum_const, Finset.card_range, Nat.zero_add]
        exact Nat.nsmul_eq_mul _ _
      | succ i ih =>
        intro hi
        have h1 := ih (by omega)
        have h2 := hf i (by omega)
        generalize f i = a at h1 h2
        generalize f (i + 1) = b at h2
        cases h2 with
        | @call rest s p c r hp e =>
          dsimp only at h1 ⊢
          rw [← Finset.add_sum_erase _ _ (Finset.mem_range.2 hp)] at h1 ⊢
          rw [Function.update_self]
          rw [e, List.length_cons] at h1
          rw [Finset.sum_congr rfl fun q hq => by rw [Function.update_of_ne (Finset.ne_of_mem_erase hq)]]
          omega
    have := this m le_rfl
    omega
  · have h1 := hI.held p k hp hk
    rw [hg.2 p hp] at h1
    cases h1
  · have hr : ∀ p, p < n → t.1 p = [] := fun p hp => by
      cases e : t.1 p with
      | nil => rfl
      | cons c r =>
        obtain ⟨rest, s'⟩ := t
        exact absurd (.call hp e) (hend _)
    refine ⟨(hI.marked 0 k hn hk).resolve_left fun h => ?_, fun p hp => (hI.freed p k hp hk).resolve_left fun h => ?_⟩
    · rw [hr 0 hn] at h; cases h
    · rw [hr p hp] at h; cases h

/-- An execution: two processes, one segment, the calls of process 0 first. -/
def exampleRelease : Nat → (Nat → List Call) × Shared
  | 0 => (fun _ => releaseCalls 0 1, ⟨fun _ _ => true, fun _ => false⟩)
  | i + 1 =>
    match (exampleRelease i).1 0 with
    | c :: r => (Function.update (exampleRelease i).1 0 r, c.run 0 (exampleRelease i).2)
    | [] => exampleRelease i

/-- The segment exists until process 1 detaches it. -/
example : Releasing 2 1 ⟨fun _ _ => true, fun _ => false⟩ 2 (exampleRelease 2) ∧ (exampleRelease 2).2.removed 0 = true ∧
    ¬gone 2 (exampleRelease 2).2 0 := by
  refine ⟨⟨exampleRelease, rfl, rfl, fun i hi => ?_⟩, rfl, fun h => ?_⟩
  · obtain rfl | rfl : i = 0 ∨ i = 1 := by omega
    · exact .call (p := 0) (by decide) rfl
    · exact .call (p := 0) (by decide) rfl
  · have := h.2 1 (by decide)
    revert this
    decide

end ExtMpi.Segments
