import Verif.Spec.Cluster
/-! Barriers of one round, as flags and as in `Model/TasksRun.lean`. -/
namespace ExtMpi.Cluster
open RawCode
open TasksNode (Users put Task TState TStep TSteps startT WCorrect TFinal TUnbuffered NoRace TSafe Conflict Clear taskAfter)

/-- The actions of a program of process `rank` of a node that has entered `c` barriers and waits in its `k`-th barrier for
process `part k` of the node. -/
def toC (part : Nat → Nat) (rank : Nat) : Nat → List Instr → List CInstr
  | _, [] => []
  | c, .barrier :: r => .set (rank : Nat) :: .wait (part (c + 1) : Nat) :: toC part rank (c + 1) r
  | c, .copy red d s n :: r => .op (.copy red d s n) :: toC part rank c r
  | c, .irecv a n q :: r => .op (.irecv a n q) :: toC part rank c r
  | c, .isend a n q :: r => .op (.isend a n q) :: toC part rank c r
  | c, .waitall :: r => .op .waitall :: toC part rank c r

theorem toC_op (part : Nat → Nat) (rank c : Nat) {i : Instr} (hi : i ≠ .barrier) (r : List Instr) :
    toC part rank c (i :: r) = .op i :: toC part rank c r := by
  cases i <;> first | rfl | exact absurd rfl hi

/-- A process with flags. -/
def absT (part : Nat → Nat) (rank : Nat) (t : Task) : CTask :=
  ⟨if t.waiting then (toC part rank (t.entered - 1) t.rest).tail else toC part rank t.entered t.rest,
    t.recvs, t.sends, t.entered + if t.waiting then 0 else 1⟩

/-- All processes with flags. -/
def abs {X : Type} (ns : Nat) (part : Nat → Nat → Nat) (s : TState X) : CState X :=
  ⟨fun p => absT (part p) (p % ns) (s.task p), fun a r => if r < ns then (s.task (a * ns + r)).entered else 0, s.mem, s.chan⟩

/-- Processes inside a barrier. -/
def Inside {X : Type} (s : TState X) : Prop :=
  ∀ p, (s.task p).waiting = true → 0 < (s.task p).entered ∧ ∃ r, (s.task p).rest = .barrier :: r

/-- Process `p` waits for one process only. -/
def single (ns : Nat) (part : Nat → Nat → Nat) (p k p' : Nat) : Prop := p' % ns = part p k

theorem put_same {Y : Type} (f : Nat → Y) (k : Nat) (y : Y) : put f k y k = y := by simp [put]
theorem put_other {Y : Type} (f : Nat → Y) {k j : Nat} (y : Y) (h : j ≠ k) : put f k y j = f j := by simp [put, h]

theorem put_comp {Y Z : Type} (g : Nat → Y → Z) (f : Nat → Y) (k : Nat) (y : Y) :
    (fun j => g j (put f k y j)) = put (fun j => g j (f j)) k (g k y) := by
  funext j
  by_cases h : j = k
  · subst h; rw [put_same, put_same]
  · rw [put_other _ _ h, put_other _ _ h]

/-- Steps that enter no barrier leave the flags. -/
theorem flag_same {ns : Nat} {f : Nat → Task} {p : Nat} {t : Task} (h : t.entered = (f p).entered) :
    (fun a r => if r < ns then (put f p t (a * ns + r)).entered else 0) =
      fun a r => if r < ns then (f (a * ns + r)).entered else 0 := by
  funext a r
  by_cases h1 : a * ns + r = p
  · rw [h1, put_same, h]
  · rw [put_other _ _ h1]

theorem flag_set {ns : Nat} (hns : 0 < ns) {f : Nat → Task} {p : Nat} {t : Task} {k : Nat} (h : t.entered = k) :
    (fun a r => if r < ns then (put f p t (a * ns + r)).entered else 0) =
      put (fun a r => if r < ns then (f (a * ns + r)).entered else 0) (p / ns)
        (put (fun r => if r < ns then (f (p / ns * ns + r)).entered else 0) (p % ns) k) := by
  funext a r
  have hp : p / ns * ns + p % ns = p := by rw [Nat.mul_comm]; exact Nat.div_add_mod p ns
  by_cases ha : a = p / ns
  · subst ha
    rw [put_same]
    by_cases hr : r = p % ns
    · subst hr
      rw [put_same, hp, put_same, if_pos (Nat.mod_lt _ hns), h]
    · rw [put_other _ _ hr, put_other]
      intro hc
      omega
  · rw [put_other _ _ ha]
    by_cases hr : r < ns
    · rw [put_other]
      intro hc
      apply ha
      rw [← hc, Nat.mul_comm, Nat.mul_add_div hns, Nat.div_eq_of_lt hr, Nat.add_zero]
    · simp [hr]

section
variable {X : Type} [Add X] {N ns : Nat} {part : Nat → Nat → Nat}

theorem absT_op {part : Nat → Nat} {rank : Nat} {t : Task} {i : Instr} {r : List CInstr}
    (hi : t.waiting = true → ∃ r, t.rest = .barrier :: r)
    (h : (absT part rank t).rest = .op i :: r) :
    t.waiting = false ∧ i ≠ .barrier ∧ ∃ r', t.rest = i :: r' ∧ r = toC part rank t.entered r' := by
  unfold absT at h
  cases hw : t.waiting with
  | true =>
    obtain ⟨r', hr⟩ := hi hw
    rw [hw, hr] at h
    simp [toC] at h
  | false =>
    rw [hw] at h
    simp only [Bool.false_eq_true, if_false] at h
    refine ⟨rfl, ?_⟩
    cases hr : t.rest with
    | nil => rw [hr] at h; simp [toC] at h
    | cons j r' =>
      rw [hr] at h
      by_cases hj : j = .barrier
      · subst hj; simp [toC] at h
      · rw [toC_op _ _ _ hj] at h
        simp only [List.cons.injEq, CInstr.op.injEq] at h
        exact ⟨by rw [← h.1]; exact hj, r', by rw [h.1], h.2.symm⟩

theorem absT_of {part : Nat → Nat} {rank : Nat} {t : Task} {i : Instr} {r' : List Instr}
    (hw : t.waiting = false) (hi : i ≠ .barrier) (h : t.rest = i :: r') :
    (absT part rank t).rest = .op i :: toC part rank t.entered r' := by
  unfold absT
  simp only [hw, h, toC_op _ _ _ hi]
  rfl

theorem absT_set {part : Nat → Nat} {rank : Nat} {t : Task} {x : Nat} {r : List CInstr}
    (hi : t.waiting = true → ∃ r, t.rest = .barrier :: r)
    (h : (absT part rank t).rest = .set x :: r) :
    t.waiting = false ∧ x = rank ∧ ∃ r', t.rest = .barrier :: r' ∧
      r = .wait (part (t.entered + 1) : Nat) :: toC part rank (t.entered + 1) r' := by
  unfold absT at h
  cases hw : t.waiting with
  | true =>
    obtain ⟨r', hr⟩ := hi hw
    rw [hw, hr] at h
    simp [toC] at h
  | false =>
    rw [hw] at h
    simp only [Bool.false_eq_true, if_false] at h
    refine ⟨rfl, ?_⟩
    cases hr : t.rest with
    | nil => rw [hr] at h; simp [toC] at h
    | cons j r' =>
      rw [hr] at h
      by_cases hj : j = .barrier
      · subst hj
        simp only [toC, List.cons.injEq, CInstr.set.injEq] at h
        exact ⟨by exact_mod_cast h.1.symm, r', rfl, h.2.symm⟩
      · rw [toC_op _ _ _ hj] at h
        simp at h

theorem absT_wait {part : Nat → Nat} {rank : Nat} {t : Task} {x : Nat} {r : List CInstr}
    (hi : t.waiting = true → 0 < t.entered ∧ ∃ r, t.rest = .barrier :: r)
    (h : (absT part rank t).rest = .wait x :: r) :
    t.waiting = true ∧ x = part t.entered ∧ ∃ r', t.rest = .barrier :: r' ∧ r = toC part rank t.entered r' := by
  unfold absT at h
  cases hw : t.waiting with
  | true =>
    obtain ⟨h0, r', hr⟩ := hi hw
    rw [hw, hr] at h
    simp only [toC, if_true, List.tail_cons, List.cons.injEq, CInstr.wait.injEq] at h
    rw [Nat.sub_add_cancel h0] at h
    exact ⟨rfl, by exact_mod_cast h.1.symm, r', hr, h.2.symm⟩
  | false =>
    rw [hw] at h
    simp only [Bool.false_eq_true, if_false] at h
    cases hr : t.rest with
    | nil => rw [hr] at h; simp [toC] at h
    | cons j r' =>
      rw [hr] at h
      by_cases hj : j = .barrier
      · subst hj; simp [toC] at h
      · rw [toC_op _ _ _ hj] at h
        simp at h

theorem absT_after {part : Nat → Nat} {rank : Nat} {t : Task} {i : Instr} {r' : List Instr}
    (hw : t.waiting = false) :
    absT part rank (taskAfter i r' t) = cAfter i (toC part rank t.entered r') (absT part rank t) := by
  cases i <;> simp [absT, taskAfter, cAfter, hw]

theorem taskAfter_entered (i : Instr) (r : List Instr) (t : Task) : (taskAfter i r t).entered = t.entered := by
  cases i <;> rfl

theorem taskAfter_waiting (i : Instr) (r : List Instr) (t : Task) : (taskAfter i r t).waiting = t.waiting := by
  cases i <;> rfl

theorem Inside.step {W : Nat → Nat → Nat → Prop} {l : Lab} {s s' : TState X} (h : Inside s) (hs : TStep N ns W l s s') :
    Inside s' := by
  have key : ∀ (p : Nat) (t : Task) m c, (t.waiting = true → 0 < t.entered ∧ ∃ r, t.rest = .barrier :: r) →
      Inside (⟨put s.task p t, m, c⟩ : TState X) := by
    intro p t m c ht q hq
    by_cases hqp : q = p
    · subst hqp
      simp only [put_same] at hq ⊢
      exact ht hq
    · simp only [put_other _ _ hqp] at hq ⊢
      exact h q hq
  cases hs with
  | @instr _ p i rest hp hr hi hc hwa =>
    apply key
    intro hw
    rw [taskAfter_waiting] at hw
    obtain ⟨_, r, hr'⟩ := h p hw
    rw [hr] at hr'
    simp only [List.cons.injEq] at hr'
    exact absurd hr'.1 hi
  | @enter _ p rest hp hr hw => exact key _ _ _ _ fun _ => ⟨Nat.succ_pos _, rest, hr⟩
  | leave hp hr hw hc => exact key _ _ _ _ fun h => absurd h (by simp)
  | @depart _ q t a n r hq ht hqt hsend => exact key _ _ _ _ fun hw => h q hw
  | @arrive _ q t a n r msg ms hq ht hqt hc hrecv hl => exact key _ _ _ _ fun hw => h t hw

theorem lt_of_div {p' p : Nat} (hns : 0 < ns) (hp : p < N * ns) (h : p' / ns = p / ns) : p' < N * ns := by
  have h1 := (Nat.div_lt_iff_lt_mul hns).2 hp
  exact (Nat.div_lt_iff_lt_mul hns).1 (h ▸ h1)

theorem wait_iff (hns : 0 < ns) (hpart : ∀ p k, part p k < ns) (s : TState X) {p : Nat} (hp : p < N * ns) (k : Nat) :
    (∀ p', p' < N * ns → p' / ns = p / ns → single ns part p k p' → k ≤ (s.task p').entered) ↔
      k ≤ (s.task (p / ns * ns + part p k)).entered := by
  have hd : (p / ns * ns + part p k) / ns = p / ns := by
    rw [Nat.mul_comm, Nat.mul_add_div hns, Nat.div_eq_of_lt (hpart p k), Nat.add_zero]
  constructor
  · intro h
    refine h _ (lt_of_div hns hp hd) hd ?_
    unfold single
    rw [Nat.mul_comm, Nat.mul_add_mod, Nat.mod_eq_of_lt (hpart p k)]
  · intro h p' _ h2 h3
    have : p' = p / ns * ns + part p k := by
      rw [← h2, ← h3, Nat.mul_comm]; exact (Nat.div_add_mod p' ns).symm
    rw [this]; exact h

theorem abs_put (s : TState X) (p : Nat) (t : Task) (m : Nat → Mem X) (c : Nat → Nat → List (List X))
    (h : t.entered = (s.task p).entered) :
    abs ns part ⟨put s.task p t, m, c⟩ =
      { abs ns part s with task := put (abs ns part s).task p (absT (part p) (p % ns) t), mem := m, chan := c } := by
  unfold abs
  simp only [CState.mk.injEq, and_true]
  exact ⟨put_comp (fun p t => absT (part p) (p % ns) t) _ _ _, flag_same h⟩

/-- Every step with barriers is a step with flags. -/
theorem step_abs (hns : 0 < ns) (hpart : ∀ p k, part p k < ns) {l : Lab} {s s' : TState X} (hI : Inside s)
    (hs : TStep N ns (single ns part) l s s') : CStep N ns l (abs ns part s) (abs ns part s') := by
  cases hs with
  | @instr _ p i rest hp hr hi hc hwa =>
    have hw : (s.task p).waiting = false := by
      by_contra hcon
      obtain ⟨_, r, hr'⟩ := hI p (by simpa using hcon)
      rw [hr] at hr'
      simp only [List.cons.injEq] at hr'
      exact hi hr'.1
    rw [abs_put _ _ _ _ _ (taskAfter_entered _ _ _), absT_after hw]
    exact CStep.op (s := abs ns part s) hp (absT_of hw hi hr) hi hc hwa
  | @enter _ p rest hp hr hw =>
    have h0 : ((abs ns part s).task p).rest =
        .set ((p % ns : Nat) : Int) :: .wait (part p ((s.task p).entered + 1) : Nat) ::
          toC (part p) (p % ns) ((s.task p).entered + 1) rest := by
      simp [abs, absT, hw, hr, toC]
    have h1 := CStep.set (N := N) (ns := ns) (s := abs ns part s) hp h0
    have h2 : abs ns part ⟨put s.task p { s.task p with entered := (s.task p).entered + 1, waiting := true }, s.mem, s.chan⟩ =
        { abs ns part s with
          task := put (abs ns part s).task p { (abs ns part s).task p with
            rest := (CInstr.wait (part p ((s.task p).entered + 1) : Nat)) ::
              (toC (part p) (p % ns) ((s.task p).entered + 1) rest) },
          flag := put (abs ns part s).flag (p / ns) (put ((abs ns part s).flag (p / ns)) (p % ns) ((abs ns part s).task p).count) } := by
      unfold abs
      simp only [CState.mk.injEq, and_true]
      refine ⟨?_, ?_⟩
      · rw [put_comp (fun p t => absT (part p) (p % ns) t)]
        congr 1
        simp [absT, hw, hr, toC]
      · refine flag_set hns ?_
        simp [absT, hw]
    rw [h2]
    exact h1
  | @leave _ p rest hp hr hw hc =>
    obtain ⟨h0, _⟩ := hI p hw
    have h1 : ((abs ns part s).task p).rest =
        .wait ((part p (s.task p).entered : Nat) : Int) :: toC (part p) (p % ns) (s.task p).entered rest := by
      simp [abs, absT, hw, hr, toC, Nat.sub_add_cancel h0]
    have h2 := CStep.wait (N := N) (ns := ns) (s := abs ns part s) hp h1 (by
      have := (wait_iff hns hpart s hp _).1 hc
      simpa [abs, absT, hw, hpart p (s.task p).entered] using this)
    rw [abs_put _ _ _ _ _ (by rfl)]
    have h3 : absT (part p) (p % ns) { s.task p with rest := rest, waiting := false } =
        { (abs ns part s).task p with
          rest := toC (part p) (p % ns) (s.task p).entered rest,
          count := ((abs ns part s).task p).count + 1 } := by
      simp [abs, absT, hw]
    rw [h3]
    exact h2
  | @depart _ q t a n r hq ht hqt hsend =>
    rw [abs_put _ _ _ _ _ (by rfl)]
    exact CStep.depart (s := abs ns part s) hq ht hqt hsend
  | @arrive _ q t a n r msg ms hq ht hqt hc hrecv hl =>
    rw [abs_put _ _ _ _ _ (by rfl)]
    exact CStep.arrive (s := abs ns part s) hq ht hqt hc hrecv hl

/-- Every step with flags is a step with barriers. -/
theorem abs_step (hns : 0 < ns) (hpart : ∀ p k, part p k < ns) {l : Lab} {s : TState X} {c : CState X} (hI : Inside s)
    (hs : CStep N ns l (abs ns part s) c) : ∃ s', TStep N ns (single ns part) l s s' ∧ c = abs ns part s' := by
  generalize hA : abs ns part s = A at hs
  cases hs with
  | @op _ p i rest hp hr hi hc hwa =>
    subst hA
    obtain ⟨hw, _, r', hr', hrest⟩ := absT_op (fun h => (hI p h).2) hr
    refine ⟨_, .instr hp hr' hi hc hwa, ?_⟩
    rw [abs_put _ _ _ _ _ (taskAfter_entered _ _ _), absT_after hw, hrest]
    rfl
  | @set _ p rest r hp hr =>
    subst hA
    obtain ⟨hw, hx, r', hr', hrest⟩ := absT_set (fun h => (hI p h).2) hr
    subst hx
    have hT : TStep N ns (single ns part) (.loc p) s _ := .enter hp hr' hw
    refine ⟨_, hT, ?_⟩
    unfold abs
    simp only [CState.mk.injEq, and_true]
    refine ⟨?_, ?_⟩
    · rw [put_comp (fun p t => absT (part p) (p % ns) t)]
      congr 1
      rw [hrest]
      simp [absT, hw, hr', toC]
    · refine (flag_set hns ?_).symm
      simp [absT, hw]
  | @wait _ p rest r hp hr hle =>
    subst hA
    obtain ⟨hw, hx, r', hr', hrest⟩ := absT_wait (hI p) hr
    subst hx
    have hle' : (s.task p).entered ≤ (s.task (p / ns * ns + part p (s.task p).entered)).entered := by
      simpa [abs, absT, hw, hpart p (s.task p).entered] using hle
    have hT : TStep N ns (single ns part) (.loc p) s _ := .leave hp hr' hw ((wait_iff hns hpart s hp _).2 hle')
    refine ⟨_, hT, ?_⟩
    rw [abs_put _ _ _ _ _ (by rfl)]
    have h3 : absT (part p) (p % ns) { s.task p with rest := r', waiting := false } =
        { (abs ns part s).task p with rest := rest, count := ((abs ns part s).task p).count + 1 } := by
      rw [hrest]
      simp [abs, absT, hw]
    rw [h3]
    rfl
  | @depart _ q t a n r hq ht hqt hsend =>
    subst hA
    have hT : TStep N ns (single ns part) (.depart q t) s _ := .depart hq ht hqt hsend
    refine ⟨_, hT, ?_⟩
    rw [abs_put _ _ _ _ _ (by rfl)]
    rfl
  | @arrive _ q t a n r msg ms hq ht hqt hc hrecv hl =>
    subst hA
    have hT : TStep N ns (single ns part) (.arrive q t) s _ := .arrive hq ht hqt hc hrecv hl
    refine ⟨_, hT, ?_⟩
    rw [abs_put _ _ _ _ _ (by rfl)]
    rfl

theorem steps_abs (hns : 0 < ns) (hpart : ∀ p k, part p k < ns) {k : Nat} {s s' : TState X} (hI : Inside s)
    (hs : TSteps N ns (single ns part) k s s') : CSteps N ns k (abs ns part s) (abs ns part s') ∧ Inside s' := by
  induction hs with
  | refl => exact ⟨.refl, hI⟩
  | step h _ ih =>
    obtain ⟨h1, h2⟩ := ih (hI.step h)
    exact ⟨.step (step_abs hns hpart hI h) h1, h2⟩

theorem abs_steps (hns : 0 < ns) (hpart : ∀ p k, part p k < ns) {k : Nat} {c c' : CState X}
    (hs : CSteps N ns k c c') : ∀ {s : TState X}, Inside s → c = abs ns part s →
      ∃ s', TSteps N ns (single ns part) k s s' ∧ c' = abs ns part s' ∧ Inside s' := by
  induction hs with
  | refl => intro s hI hc; exact ⟨s, .refl, hc, hI⟩
  | step h _ ih =>
    intro s hI hc
    subst hc
    obtain ⟨s1, h1, h2⟩ := abs_step hns hpart hI h
    obtain ⟨s2, h3, h4, h5⟩ := ih (hI.step h1) h2
    exact ⟨s2, .step h1 h3, h4, h5⟩

theorem abs_start (prog : Nat → List Instr) (m : Nat → Mem X) :
    abs ns part (startT prog m) = startC (fun p => toC (part p) (p % ns) 0 (prog p)) m := by
  simp [abs, startT, startC, absT]

theorem inside_start (prog : Nat → List Instr) (m : Nat → Mem X) : Inside (startT prog m) :=
  fun p h => absurd h (by simp [startT])

omit [Add X] in
theorem abs_nil {s : TState X} (hI : Inside s) (p : Nat) : ((abs ns part s).task p).rest = [] ↔ (s.task p).rest = [] := by
  show (absT (part p) (p % ns) (s.task p)).rest = [] ↔ _
  cases hw : (s.task p).waiting with
  | true =>
    obtain ⟨h0, r, hr⟩ := hI p hw
    simp [absT, hw, hr, toC]
  | false =>
    cases hr : (s.task p).rest with
    | nil => simp [absT, hw, hr, toC]
    | cons i r =>
      by_cases hi : i = .barrier
      · subst hi; simp [absT, hw, hr, toC]
      · simp [absT, hw, hr, toC_op _ _ _ hi]

omit [Add X] in
theorem abs_final {s : TState X} (hI : Inside s) : CFinal N ns (abs ns part s) ↔ TFinal N ns s := by
  unfold CFinal TFinal
  exact ⟨fun h p hp => ⟨(abs_nil hI p).1 (h p hp).1, (h p hp).2⟩, fun h p hp => ⟨(abs_nil hI p).2 (h p hp).1, (h p hp).2⟩⟩

omit [Add X] in
theorem abs_unbuffered {s : TState X} (l : Lab) : CUnbuffered l (abs ns part s) ↔ TUnbuffered l s := by
  cases l <;> rfl

omit [Add X] in
theorem abs_race {s : TState X} (hI : Inside s) : CNoRace N ns (abs ns part s) ↔ NoRace N ns s := by
  constructor
  · intro h p p' hp hp' hne hnode i r i' r' hr hr' hc
    have hb : i ≠ .barrier ∧ i' ≠ .barrier := by
      constructor <;> rintro rfl
      · rcases hc with ⟨x, y, hx, _⟩ | ⟨x, y, hx, _⟩ <;> simp [TasksNode.writes, TasksNode.reads] at hx
      · rcases hc with ⟨x, y, _, hy, _⟩ | ⟨x, y, _, hy, _⟩ <;> simp [TasksNode.writes, TasksNode.reads] at hy
    have hw : ∀ q j t, (s.task q).rest = j :: t → j ≠ .barrier → (s.task q).waiting = false := by
      intro q j t hq hj
      by_contra hcon
      obtain ⟨_, t', ht⟩ := hI q (by simpa using hcon)
      rw [hq] at ht
      simp only [List.cons.injEq] at ht
      exact hj ht.1
    exact h p p' hp hp' hne hnode i _ i' _ (absT_of (hw _ _ _ hr hb.1) hb.1 hr) (absT_of (hw _ _ _ hr' hb.2) hb.2 hr') hc
  · intro h p p' hp hp' hne hnode i r i' r' hr hr' hc
    obtain ⟨_, _, t, ht, _⟩ := absT_op (fun h => (hI p h).2) hr
    obtain ⟨_, _, t', ht', _⟩ := absT_op (fun h => (hI p' h).2) hr'
    exact h p p' hp hp' hne hnode i t i' t' ht ht' hc

omit [Add X] in
theorem abs_safe {s : TState X} (hI : Inside s) : CSafe N ns (abs ns part s) ↔ TSafe N ns s := by
  constructor
  · intro h p hp i r hr
    by_cases hi : i = .barrier
    · subst hi
      exact ⟨fun _ _ _ _ _ y hy => absurd hy List.not_mem_nil, fun _ _ _ _ _ y hy => absurd hy List.not_mem_nil,
        fun x hx => absurd hx List.not_mem_nil⟩
    · have hw : (s.task p).waiting = false := by
        by_contra hcon
        obtain ⟨_, t', ht⟩ := hI p (by simpa using hcon)
        rw [hr] at ht
        exact hi (List.cons.inj ht).1
      exact h p hp i _ (absT_of hw hi hr)
  · intro h p hp i r hr
    obtain ⟨_, _, t, ht, _⟩ := absT_op (fun h => (hI p h).2) hr
    exact h p hp i t ht

/-- Programs are correct with flags if and only if they are with barriers that wait for one process. -/
theorem ccorrect_iff (hns : 0 < ns) (hpart : ∀ p k, part p k < ns) (prog : Nat → List Instr) (m : Nat → Mem X)
    (post : (Nat → Mem X) → Prop) :
    CCorrect N ns (fun p => toC (part p) (p % ns) 0 (prog p)) m post ↔ WCorrect N ns (single ns part) prog m post := by
  constructor
  · rintro ⟨bound, h⟩
    refine ⟨bound, fun k s hs => ?_⟩
    obtain ⟨h1, hI⟩ := steps_abs hns hpart (inside_start prog m) hs
    rw [abs_start] at h1
    obtain ⟨h2, h3, h5, h4⟩ := h k _ h1
    refine ⟨h2, (abs_race hI).1 h3, (abs_safe hI).1 h5, ?_⟩
    rcases h4 with ⟨hf, hp⟩ | ⟨l, c, hu, hc⟩
    · exact Or.inl ⟨(abs_final hI).1 hf, hp⟩
    · obtain ⟨s', hs', _⟩ := abs_step hns hpart hI hc
      exact Or.inr ⟨l, s', (abs_unbuffered l).1 hu, hs'⟩
  · rintro ⟨bound, h⟩
    refine ⟨bound, fun k c hc => ?_⟩
    obtain ⟨s, hs, rfl, hI⟩ := abs_steps hns hpart hc (inside_start prog m) (abs_start prog m).symm
    obtain ⟨h2, h3, h5, h4⟩ := h k s hs
    refine ⟨h2, (abs_race hI).2 h3, (abs_safe hI).2 h5, ?_⟩
    rcases h4 with ⟨hf, hp⟩ | ⟨l, s', hu, hs'⟩
    · exact Or.inl ⟨(abs_final hI).2 hf, hp⟩
    · exact Or.inr ⟨l, _, (abs_unbuffered l).2 hu, step_abs hns hpart hI hs'⟩

/-- Processes that do not exist do not matter. -/
theorem ccorrect_congr {prog prog' : Nat → List CInstr} {m : Nat → Mem X} {post : (Nat → Mem X) → Prop}
    (h : CCorrect N ns prog' m post) (he : ∀ p, prog p = prog' p) : CCorrect N ns prog m post := by
  have : prog = prog' := funext he
  rw [this]; exact h

end

end ExtMpi.Cluster
