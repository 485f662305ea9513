import Verif.Spec.Settings
import Verif.Props.Numeric
import Mathlib.Tactic.Ring
/-!
# Settings

C85: all processes have the settings of the environment of process 0. C86: `EXT_MPI_DEBUG=0` switches the self-test off, on all processes. C90: lists
of the environment are stored in bounds. C91: the library can be initialised and finalised repeatedly. C92: look-up of
parameters. C93: number of processes per socket.
-/
namespace ExtMpi.Settings

theorem takeWhile_all {l : List Int} (h : ∀ x ∈ l, x ≠ 0) : l.takeWhile (· ≠ 0) = l := by
  induction l with
  | nil => rfl
  | cons a l ih =>
    have ha : a ≠ 0 := h a (by simp)
    simp only [List.takeWhile_cons, decide_eq_true_eq, ha, ne_eq, not_false_eq_true, if_true, decide_true]
    rw [ih fun x hx => h x (by simp [hx])]

theorem lengthWith0_all {l : List Int} (h : ∀ x ∈ l, x ≠ 0) : lengthWith0 l = l.length + 1 := by
  unfold lengthWith0
  rw [takeWhile_all h]

/-! ## C85, C90 -/

/-- The scalars after `read_env`, on every process. -/
theorem readScalars_initial (env : Env) (r : Nat) :
    readScalars env initial r =
      { wanted env with debug := if r = 0 then debugOf 1 env.debug else 1, ports := none, copyinMethod := -1, copyin := none } := by
  have h1 : number (-1) env.sockets = (wanted env).sockets := by
    unfold number wanted
    rfl
  have h2 : number (-1) env.tasks = (wanted env).tasks := by
    unfold number wanted
    rfl
  have h3 : (if env.notRecursive then (1 : Int) else -1) = (wanted env).notRecursive := rfl
  have h4 : (if env.verbose then (1 : Int) else 0) = (wanted env).verbose := rfl
  have h5 : alternatingOf (-1) env.alternating = (wanted env).alternating := by
    unfold wanted
    cases hal : env.alternating with
    | none => rfl
    | some c =>
      unfold alternatingOf
      by_cases h1 : c = '1'
      · subst h1; rfl
      · by_cases h0 : c = '0'
        · subst h0; rfl
        · simp only [h1, h0, if_false]
          split
          · rename_i h; injection h with h; exact absurd h h0
          · rename_i h; injection h with h; exact absurd h h1
          · rfl
  unfold readScalars initial bcast at0
  by_cases hr : r = 0
  · subst hr
    simp only [if_true, h1, h2, h3, h4, h5]
  · simp only [if_true, if_neg hr, h1, h2, h3, h4, h5]

/-- Overflow exactly if there is more than one process and a list is longer than the arrays. -/
theorem readEnv_none_iff (size : Nat) (env : Env) (hw : env.Wf) (s : Nat → Settings) :
    readEnv size env s = none ↔ 1 < size ∧ ¬ env.ShortLists (capacity size - 1) := by
  have hc : 0 < capacity size := by unfold capacity; omega
  unfold readEnv readPorts Env.ShortLists
  cases hp : env.ports with
  | none =>
    simp only [Option.bind_some, readCopyin]
    cases hco : env.copyin with
    | none => simp
    | some ml =>
      obtain ⟨m, l⟩ := ml
      simp only [lengthWith0_all (hw.2 m l hco)]
      by_cases h : 1 < size ∧ capacity size < l.length + 1
      · rw [if_pos h]
        refine ⟨fun _ => ⟨h.1, fun hs => ?_⟩, fun _ => rfl⟩
        have := hs.2 m l rfl
        omega
      · rw [if_neg h]
        refine ⟨fun h => (by cases h), fun ⟨h1, h2⟩ => absurd ⟨(by intro p g h; cases h), fun m' l' he => ?_⟩ h2⟩
        injection he with he
        injection he with e1 e2
        subst e2
        by_contra hc'
        exact h ⟨h1, by omega⟩
  | some pg =>
    obtain ⟨p, g⟩ := pg
    simp only [lengthWith0_all (hw.1 p g hp).1]
    by_cases h : 1 < size ∧ capacity size < p.length + 1
    · rw [if_pos h]
      refine ⟨fun _ => ⟨h.1, fun hs => ?_⟩, fun _ => rfl⟩
      have := hs.1 p g rfl
      omega
    · rw [if_neg h]
      simp only [Option.bind_some, readCopyin]
      cases hco : env.copyin with
      | none =>
        refine ⟨fun h => (by cases h), fun ⟨h1, h2⟩ => absurd ⟨fun p' g' he => ?_, (by intro m l h; cases h)⟩ h2⟩
        injection he with he
        injection he with e1 e2
        subst e1
        by_contra hc'
        exact h ⟨h1, by omega⟩
      | some ml =>
        obtain ⟨m, l⟩ := ml
        simp only [lengthWith0_all (hw.2 m l hco)]
        by_cases h' : 1 < size ∧ capacity size < l.length + 1
        · rw [if_pos h']
          refine ⟨fun _ => ⟨h'.1, fun hs => ?_⟩, fun _ => rfl⟩
          have := hs.2 m l rfl
          omega
        · rw [if_neg h']
          refine ⟨fun h => (by cases h), fun ⟨h1, h2⟩ => absurd ⟨fun p' g' he => ?_, fun m' l' he => ?_⟩ h2⟩
          · injection he with he
            injection he with e1 e2
            subst e1
            by_contra hc'
            exact h ⟨h1, by omega⟩
          · injection he with he
            injection he with e1 e2
            subst e2
            by_contra hc'
            exact h' ⟨h1, by omega⟩

/-- **C85**: apart from the self-test all processes have the settings of the environment of process 0, for every environment and every number of
processes. -/
theorem readEnv_partial (size : Nat) (env : Env) (hw : env.Wf) (s : Nat → Settings) (h : readEnv size env initial = some s) (r : Nat) :
    s r = { wanted env with debug := if r = 0 then debugOf 1 env.debug else 1 } := by
  have hs := readScalars_initial env
  unfold readEnv readPorts at h
  cases hp : env.ports with
  | none =>
    rw [hp] at h
    simp only [Option.bind_some, readCopyin] at h
    cases hco : env.copyin with
    | none =>
      rw [hco] at h
      injection h with h
      rw [← h, hs]
      simp [wanted, hp, hco]
    | some ml =>
      obtain ⟨m, l⟩ := ml
      rw [hco] at h
      simp only [lengthWith0_all (hw.2 m l hco)] at h
      split at h
      · cases h
      · injection h with h
        rw [← h]
        simp only [hs]
        simp [wanted, hp, hco]
  | some pg =>
    obtain ⟨p, g⟩ := pg
    rw [hp] at h
    have hg := (hw.1 p g hp).2
    simp only [lengthWith0_all (hw.1 p g hp).1] at h
    split at h
    · cases h
    · simp only [Option.bind_some, readCopyin] at h
      cases hco : env.copyin with
      | none =>
        rw [hco] at h
        injection h with h
        rw [← h]
        simp only [hs]
        simp only [wanted, hp, hco, Nat.add_sub_cancel, List.take_length, ← hg]
        rw [show p.take g.length = p by rw [hg, List.take_length]]
        simp
      | some ml =>
        obtain ⟨m, l⟩ := ml
        rw [hco] at h
        simp only [lengthWith0_all (hw.2 m l hco)] at h
        split at h
        · cases h
        · injection h with h
          rw [← h]
          simp only [hs]
          simp only [wanted, hp, hco, Nat.add_sub_cancel, List.take_length, ← hg]
          rw [show p.take g.length = p by rw [hg, List.take_length]]
          simp

/-- C85: the same on all processes. -/
theorem same_partial (size : Nat) (env : Env) (hw : env.Wf) (s : Nat → Settings) (h : readEnv size env initial = some s) : SameBut size s := by
  intro r _
  rw [readEnv_partial size env hw s h r, readEnv_partial size env hw s h 0]

/-- C85, violated: a value of `EXT_MPI_DEBUG` that is no number switches the test off on process 0 only. -/
theorem same_violated (size : Nat) (hs : 1 < size) (env : Env) (hw : env.Wf) (hd : env.debug = some .noMatch) (s : Nat → Settings)
    (h : readEnv size env initial = some s) : ¬ Same size s := by
  intro hc
  have := congrArg Settings.debug (hc 1 hs)
  rw [readEnv_partial size env hw s h 1, readEnv_partial size env hw s h 0] at this
  simp [hd, debugOf] at this

/-- Without this all is the same. -/
theorem same_number (size : Nat) (env : Env) (hw : env.Wf) (hd : env.debug ≠ some .noMatch) (s : Nat → Settings)
    (h : readEnv size env initial = some s) : ∀ r, s r = wanted env := by
  intro r
  rw [readEnv_partial size env hw s h r]
  have : debugOf 1 env.debug = 1 := by
    unfold debugOf
    split
    · rename_i he; exact absurd he hd
    · rfl
  rw [this]
  simp [wanted]

/-! ## C86 -/

/-- **C86, violated**: no number, 0 included, switches the test off. -/
theorem debug_zero_violated (size : Nat) (env : Env) (hw : env.Wf) (v : Int) (hd : env.debug = some (.value v)) (s : Nat → Settings)
    (h : readEnv size env initial = some s) : ∀ r, (s r).debug = 1 := by
  intro r
  rw [same_number size env hw (by rw [hd]; intro h; cases h) s h r]
  rfl

/-- **C86, violated**: with a value that is no number process 0 does not make the same collective calls as the other processes, for every collective
and whatever the calls are. -/
theorem debug_calls_violated {α : Type} (size : Nat) (hs : 1 < size) (env : Env) (hw : env.Wf) (hd : env.debug = some .noMatch) (s : Nat → Settings)
    (h : readEnv size env initial = some s) (ref : α) (general : List α) :
    calls (s 0).debug ref general ≠ calls (s 1).debug ref general := by
  rw [readEnv_partial size env hw s h 1, readEnv_partial size env hw s h 0]
  simp only [hd, debugOf, if_true]
  unfold calls
  intro hc
  have := congrArg List.length hc
  simp at this
  omega

/-- C86: otherwise all processes make the same calls. -/
theorem calls_partial {α : Type} (size : Nat) (env : Env) (hw : env.Wf) (hd : env.debug ≠ some .noMatch) (s : Nat → Settings)
    (h : readEnv size env initial = some s) (ref : α) (general : List α) (r : Nat) :
    calls (s r).debug ref general = calls (s 0).debug ref general := by
  rw [same_number size env hw hd s h r, same_number size env hw hd s h 0]

/-- 4 processes with several variables. -/
def sample : Env :=
  { sockets := some (.value 1), debug := some (.value 0), alternating := some '1', ports := some ([1, 1], [2, -4]), copyin := some (2, [4]) }

theorem sample_wf : sample.Wf := by
  refine ⟨fun p g h => ?_, fun m l h => ?_⟩
  · injection h with h
    injection h with h1 h2
    subst h1; subst h2
    exact ⟨by decide, rfl⟩
  · injection h with h
    injection h with h1 h2
    subst h2
    decide

example : ∃ s, readEnv 4 sample initial = some s ∧ (s 3).ports = some ([1, 1], [2, -4]) ∧ (s 3).alternating = 1 ∧ (s 3).debug = 1 := by
  cases h : readEnv 4 sample initial with
  | none => exact absurd h (by
      rw [readEnv_none_iff 4 sample sample_wf]
      rintro ⟨_, h⟩
      apply h
      refine ⟨fun p g h => ?_, fun m l h => ?_⟩
      · injection h with h
        injection h with h1 h2
        subst h1
        decide
      · injection h with h
        injection h with h1 h2
        subst h2
        decide)
  | some s =>
    refine ⟨s, rfl, ?_⟩
    rw [same_number 4 sample sample_wf (by decide) s h 3]
    decide

/-! ## C90 -/

theorem levels_le (size fuel i j : Nat) : j ≤ levels size fuel i j := by
  induction fuel generalizing i j with
  | zero => exact Nat.le_refl _
  | succ f ih =>
    unfold levels
    split
    · exact Nat.le_trans (Nat.le_succ _) (ih _ _)
    · exact Nat.le_refl _

/-- The number of steps is the logarithm. -/
theorem levels_log (size fuel i j : Nat) (hi : 0 < i) (h : size ≤ i * 2 ^ fuel) :
    size ≤ i * 2 ^ (levels size fuel i j - j) := by
  induction fuel generalizing i j with
  | zero => simpa [levels] using h
  | succ f ih =>
    unfold levels
    split
    · have := ih (2 * i) (j + 1) (by omega) (by rw [Nat.pow_succ] at h; calc size ≤ _ := h
                                                 _ = _ := by ring)
      have hl := levels_le size f (2 * i) (j + 1)
      calc size ≤ _ := this
        _ = i * 2 ^ (levels size f (2 * i) (j + 1) - (j + 1) + 1) := by rw [Nat.pow_succ]; ring
        _ = _ := by congr 2; omega
    · rename_i hc
      simp only [Nat.sub_self, Nat.pow_zero, Nat.mul_one]
      omega

/-- **C90**: lists with up to twice as many entries as steps of a recursive algorithm with one port (and four more) are stored. -/
theorem lists_partial (size : Nat) (env : Env) (hw : env.Wf) (n : Nat) (hn : env.ShortLists (2 * n + 4)) (hs : 2 ^ n < 2 * size ∨ n = 0) (s : Nat → Settings) :
    readEnv size env s ≠ none := by
  intro hc
  rw [readEnv_none_iff size env hw] at hc
  refine hc.2 ?_
  have hcap : 2 * n + 4 ≤ capacity size - 1 := by
    have h1 : size ≤ 1 * 2 ^ (levels size size 1 2 - 2) := levels_log size size 1 2 (by omega) (by rw [Nat.one_mul]; exact Nat.le_of_lt (Nat.lt_two_pow_self))
    have h2 := levels_le size size 1 2
    rw [Nat.one_mul] at h1
    unfold capacity
    rcases hs with hs | hs
    · have h3 : 2 ^ n < 2 ^ (levels size size 1 2 - 2 + 1) := by rw [Nat.pow_succ]; omega
      have := (Nat.pow_lt_pow_iff_right (by decide : 1 < 2)).1 h3
      omega
    · omega
  exact ⟨fun p g h => Nat.le_trans (hn.1 p g h) hcap, fun m l h => Nat.le_trans (hn.2 m l h) hcap⟩

/-- **C90, violated**: 2 processes and a list of 7 numbers of ports. -/
theorem lists_violated : ∃ env : Env, env.Wf ∧ ∀ s, readEnv 2 env s = none := by
  refine ⟨{ ports := some ([1, 1, 1, 1, 1, 1, 1], [1, 1, 1, 1, 1, 1, 1]) }, ?_, fun s => ?_⟩
  · refine ⟨fun p g h => ?_, fun m l h => by cases h⟩
    injection h with h
    injection h with h1 h2
    subst h1; subst h2
    exact ⟨by decide, rfl⟩
  · unfold readEnv readPorts
    simp only
    rw [if_pos (by decide)]
    rfl

/-- C90: copy of a list in an initialisation; right if the communicator has at least as many processes as the list has entries. -/
theorem copyFixed_partial (commSize : Nat) (l : List Int) (h0 : ∀ x ∈ l, x ≠ 0) (h : l.length ≤ commSize) :
    copyFixed (capGather commSize) l = some (l ++ [0]) ∧ copyFixed (capReduce commSize) l = some (l ++ [0]) := by
  unfold copyFixed capGather capReduce
  rw [lengthWith0_all h0, takeWhile_all h0, if_pos (by omega), if_pos (by omega)]
  exact ⟨rfl, rfl⟩

/-- **C90, violated**: a list with more entries than the communicator has processes is written behind the end of the array. -/
theorem copyFixed_violated (commSize : Nat) (l : List Int) (h0 : ∀ x ∈ l, x ≠ 0) (h : commSize < l.length) :
    copyFixed (capGather commSize) l = none := by
  unfold copyFixed capGather
  rw [lengthWith0_all h0, if_neg (by omega)]

/-- A list right for 4 processes, used for a communicator with one process. -/
example : copyFixed (capGather 4) [1, 1] = some [1, 1, 0] ∧ copyFixed (capGather 1) [1, 1] = none :=
  ⟨(copyFixed_partial 4 [1, 1] (by decide) (by decide)).1, copyFixed_violated 1 [1, 1] (by decide) (by decide)⟩

/-! ## C91 -/

/-- **C91**, without `EXT_MPI_NUM_PORTS`: any number of times. -/
theorem cycles_partial (n : Nat) : cycles (List.replicate n false) {} = some {} := by
  induction n with
  | zero => rfl
  | succ n ih => rw [List.replicate_succ]; exact ih

/-- Once with `EXT_MPI_NUM_PORTS`, after any number of times without. -/
theorem cycles_once_partial (n : Nat) : cycles (List.replicate n false ++ [true]) {} = some ⟨.freed, .freed⟩ := by
  induction n with
  | zero => rfl
  | succ n ih => rw [List.replicate_succ]; exact ih

/-- After memory is freed every further pair fails. -/
theorem cycles_freed (b : Bool) (bs : List Bool) : cycles (b :: bs) ⟨.freed, .freed⟩ = none := by
  cases b <;> rfl

/-- **C91, violated**: initialised with `EXT_MPI_NUM_PORTS` and finalised, the library frees memory twice in the next pair, with or without the
variable, whatever happened before and happens later. -/
theorem cycles_violated (n : Nat) (b : Bool) (bs : List Bool) : cycles (List.replicate n false ++ true :: b :: bs) {} = none := by
  induction n with
  | zero => cases b <;> rfl
  | succ n ih => rw [List.replicate_succ]; exact ih

example : cycles [false, true] {} = some ⟨.freed, .freed⟩ ∧ cycles [true, true] {} = none := ⟨rfl, rfl⟩

/-! ## C92 -/

/-- **C92**: if the value in the info object is a number (or there is none) the result is that of the look-up. -/
theorem getParam_partial (param : Int) (info : Option Scan) (de : Int) (h : param ≥ 0 ∨ info = none ∨ ∃ v, info = some (.value v)) :
    ∃ v, getParam param info de = some v ∧ Lookup param info de v ∧ ∀ w, Lookup param info de w → w = v := by
  unfold getParam
  by_cases hp : param ≥ 0
  · rw [if_pos hp]
    refine ⟨_, rfl, .env _ _ _ hp, fun w hw => ?_⟩
    cases hw <;> omega
  · rw [if_neg hp]
    rcases h with h | h | ⟨v, h⟩
    · exact absurd h hp
    · subst h
      refine ⟨_, rfl, .default _ _ (by omega), fun w hw => ?_⟩
      cases hw <;> omega
    · subst h
      refine ⟨_, rfl, .info _ _ _ (by omega), fun w hw => ?_⟩
      cases hw <;> omega

/-- C92, violated: a value that is no number gives an uninitialised variable. -/
theorem getParam_violated (param de : Int) (h : param < 0) : getParam param (some .noMatch) de = none ∧ getParam param (some .eof) de = none := by
  have hp : ¬ param ≥ 0 := by omega
  exact ⟨if_neg hp, if_neg hp⟩

example : getParam 3 (some (.value 5)) 7 = some 3 ∧ getParam (-1) (some (.value 5)) 7 = some 5 ∧ getParam (-1) none 7 = some 7 := by decide

/-! ## C93 -/

/-- **C93**: the default number of processes per socket divides the nodes evenly exactly if some number does so with this number of sockets, that
is if the number of sockets divides the number of processes of every node. -/
theorem tasksPerSocket_iff (tasks : Int) (ht : tasks ≤ 0) (c : Nat) (cores : List Nat) (sockets : Nat) (hs : 0 < sockets) (hc : 0 < c) :
    ∃ t, tasksPerSocket tasks (c :: cores) sockets = some t ∧ (Even (c :: cores) sockets t ↔ ∀ x ∈ c :: cores, sockets ∣ x) := by
  obtain ⟨j, h1, h2, h3, h4⟩ := Numeric.tasksPerSocket_spec c cores hc sockets
  refine ⟨j / sockets, ?_, ?_⟩
  · unfold tasksPerSocket
    rw [if_neg (by omega), if_neg (by omega), h1]
  constructor
  · rintro ⟨_, h⟩ x hx
    exact Nat.dvd_trans (Nat.dvd_mul_left _ _) (h x hx)
  · intro h
    have hl : ∀ x ∈ c :: cores, Nat.lcm j sockets ∣ x := fun x hx => Nat.lcm_dvd (h3 x hx) (h x hx)
    have h5 := h4 _ hl
    have h6 : j ≤ Nat.lcm j sockets := Nat.le_of_dvd (Nat.lcm_pos h2 hs) (Nat.dvd_lcm_left _ _)
    have h7 : sockets ∣ j := by
      have := Nat.dvd_lcm_right j sockets
      rwa [Nat.le_antisymm h5 h6] at this
    refine ⟨Nat.div_pos (Nat.le_of_dvd h2 h7) hs, fun x hx => ?_⟩
    rw [Nat.div_mul_cancel h7]
    exact h3 x hx

/-- C93: with one socket per node, the default, it always does. -/
theorem tasksPerSocket_one_partial (c : Nat) (cores : List Nat) (hc : 0 < c) : ∃ t, tasksPerSocket (-1) (c :: cores) 1 = some t ∧ Even (c :: cores) 1 t := by
  obtain ⟨t, h1, h2⟩ := tasksPerSocket_iff (-1) (by omega) c cores 1 (by omega) hc
  exact ⟨t, h1, h2.2 fun x _ => Nat.one_dvd x⟩

/-- **C93, violated**: with more sockets than processes on a node the result is 0, by which is divided later (`src/mpi/ext_mpi.c:274`). -/
theorem tasksPerSocket_violated (c : Nat) (cores : List Nat) (sockets : Nat) (hc : 0 < c) (hs : c < sockets) :
    tasksPerSocket (-1) (c :: cores) sockets = some 0 := by
  obtain ⟨j, h1, h2, h3, _⟩ := Numeric.tasksPerSocket_spec c cores hc sockets
  unfold tasksPerSocket
  rw [if_neg (by omega), if_neg (by omega), h1, Nat.div_eq_of_lt]
  have := Nat.le_of_dvd hc (h3 c (by simp))
  omega

example : tasksPerSocket (-1) [4, 4, 4, 4, 6, 6, 6, 6, 6, 6] 1 = some 2 ∧ tasksPerSocket (-1) [4, 4, 4, 4] 2 = some 2 ∧
    tasksPerSocket (-1) [1, 1] 2 = some 0 := by decide

end ExtMpi.Settings
