import Verif.Spec.SelfTest
/-! Execution of lists of accesses. -/
namespace ExtMpi.SelfTest

theorem run_eq (size : Buf → Nat) (ops : List Op) (s : State) :
    run size ops s = if (∀ op ∈ ops, op.inside size = true) then some (ops.foldl exec s) else none := by
  induction ops generalizing s with
  | nil => simp [run]
  | cons op ops ih =>
    rw [run, ih]
    by_cases h : op.inside size = true
    · simp [h]
    · simp [h]

theorem safe_iff (size : Buf → Nat) (ops : List Op) : Safe size ops ↔ ∀ op ∈ ops, op.inside size = true := by
  constructor
  · intro h
    have := h ⟨fun _ _ => 0, false⟩
    rw [run_eq] at this
    by_contra hc
    rw [if_neg hc] at this
    cases this
  · intro h s
    rw [run_eq, if_pos h]
    rfl

theorem unsafe_of {size : Buf → Nat} {ops : List Op} {op : Op} (h1 : op ∈ ops) (h2 : op.inside size = false) (s : State) :
    run size ops s = none := by
  rw [run_eq, if_neg]
  intro h
  rw [h op h1] at h2
  cases h2

theorem run_safe {size : Buf → Nat} {ops : List Op} (h : Safe size ops) (s : State) : run size ops s = some (ops.foldl exec s) := by
  rw [run_eq, if_pos ((safe_iff _ _).1 h)]

theorem accepts_iff {size : Buf → Nat} {ops : List Op} (h : Safe size ops) (mem : Buf → Nat → Nat) :
    Accepts size ops mem ↔ (ops.foldl exec ⟨mem, false⟩).bad = false := by
  unfold Accepts
  rw [run_safe h]
  constructor
  · rintro ⟨s, h1, h2⟩
    injection h1 with h1
    rw [h1]
    exact h2
  · intro h1
    exact ⟨_, rfl, h1⟩

/-- Comparisons. -/
def IsCmp : Op → Prop
  | .cmp _ _ => True
  | _ => False

/-- Accesses that are no comparisons. -/
def NoCmp : Op → Prop
  | .cmp _ _ => False
  | _ => True

theorem noCmp_bad (ops : List Op) (h : ∀ op ∈ ops, NoCmp op) (s : State) : (ops.foldl exec s).bad = s.bad := by
  induction ops generalizing s with
  | nil => rfl
  | cons op ops ih =>
    rw [List.foldl_cons, ih (fun o ho => h o (by simp [ho]))]
    have := h op (by simp)
    cases op <;> first | rfl | exact this.elim

theorem cmp_mem (ops : List Op) (h : ∀ op ∈ ops, IsCmp op) (s : State) : (ops.foldl exec s).mem = s.mem := by
  induction ops generalizing s with
  | nil => rfl
  | cons op ops ih =>
    rw [List.foldl_cons, ih (fun o ho => h o (by simp [ho]))]
    have := h op (by simp)
    cases op <;> first | rfl | exact this.elim

/-- Comparisons find no difference exactly if there is none at the positions compared. -/
theorem cmp_bad (ops : List Op) (h : ∀ op ∈ ops, IsCmp op) (s : State) :
    (ops.foldl exec s).bad = false ↔
      s.bad = false ∧ ∀ lo len, Op.cmp lo len ∈ ops → ∀ x, lo ≤ x → x < lo + len → s.mem .recv x = s.mem .ref x := by
  induction ops generalizing s with
  | nil => simp
  | cons op ops ih =>
    rw [List.foldl_cons, ih (fun o ho => h o (by simp [ho]))]
    have h0 := h op (by simp)
    cases op with
    | cmp lo len =>
      simp only [exec, Bool.or_eq_false_iff, List.any_eq_false, List.mem_range, bne_iff_ne, ne_eq, not_not]
      constructor
      · rintro ⟨⟨a, b⟩, c⟩
        refine ⟨a, fun lo' len' hm x h1 h2 => ?_⟩
        rcases List.mem_cons.1 hm with he | hm
        · injection he with e1 e2
          subst e1; subst e2
          have := b (x - lo') (by omega)
          rwa [Nat.add_sub_cancel' h1] at this
        · exact c lo' len' hm x h1 h2
      · rintro ⟨a, b⟩
        refine ⟨⟨a, fun i hi => b lo len (by simp) (lo + i) (by omega) (by omega)⟩, fun lo' len' hm => b lo' len' (by simp [hm])⟩
    | _ => exact h0.elim

/-- Accesses that do not change the buffer `b`. -/
def Keeps (b : Buf) : Op → Prop
  | .write c _ _ _ => c ≠ b
  | .copy _ c _ => c ≠ b
  | _ => True

theorem keeps_mem {b : Buf} (ops : List Op) (h : ∀ op ∈ ops, Keeps b op) (s : State) : (ops.foldl exec s).mem b = s.mem b := by
  induction ops generalizing s with
  | nil => rfl
  | cons op ops ih =>
    rw [List.foldl_cons, ih (fun o ho => h o (by simp [ho]))]
    have := h op (by simp)
    cases op with
    | write c lo len f =>
      funext x
      simp only [exec]
      rw [if_neg (fun hc => this hc.1.symm)]
    | copy a c len =>
      funext x
      simp only [exec]
      rw [if_neg (fun hc => this hc.1.symm)]
    | read => rfl
    | cmp => rfl

theorem parts_mem (b : Buf) (P ts : Nat) (counts displs f : Nat → Nat) (s : State) (x : Nat) :
    ((Covered P ts counts displs x → ((parts b P ts counts displs f).foldl exec s).mem b x = f x) ∧
      (¬ Covered P ts counts displs x → ((parts b P ts counts displs f).foldl exec s).mem b x = s.mem b x)) := by
  induction P with
  | zero =>
    refine ⟨?_, fun _ => rfl⟩
    rintro ⟨j, hj, _⟩
    omega
  | succ P ih =>
    have e : parts b (P + 1) ts counts displs f = parts b P ts counts displs f ++ [.write b (displs P * ts) (counts P * ts) f] := by
      unfold parts
      rw [List.range_succ, List.map_append]
      rfl
    rw [e, List.foldl_append]
    simp only [List.foldl_cons, List.foldl_nil, exec, true_and]
    constructor
    · rintro ⟨j, hj, h1, h2⟩
      by_cases hc : displs P * ts ≤ x ∧ x < displs P * ts + counts P * ts
      · rw [if_pos hc]
      · rw [if_neg hc]
        have hjP : j ≠ P := by
          rintro rfl
          exact hc ⟨h1, h2⟩
        exact ih.1 ⟨j, by omega, h1, h2⟩
    · intro hn
      rw [if_neg fun hc => hn ⟨P, by omega, hc.1, hc.2⟩]
      exact ih.2 fun ⟨j, hj, h1, h2⟩ => hn ⟨j, by omega, h1, h2⟩

theorem mem_cmpLongs {start n lo len : Nat} : Op.cmp lo len ∈ cmpLongs start n ↔ ∃ i < n, lo = 8 * (start + i) ∧ len = 8 := by
  unfold cmpLongs
  simp only [List.mem_map, List.mem_range, Op.cmp.injEq]
  constructor
  · rintro ⟨i, h1, h2, h3⟩
    exact ⟨i, h1, h2.symm, h3.symm⟩
  · rintro ⟨i, h1, h2, h3⟩
    exact ⟨i, h1, h2.symm, h3.symm⟩

theorem cmpLongs_is (start n : Nat) : ∀ op ∈ cmpLongs start n, IsCmp op := by
  intro op h
  unfold cmpLongs at h
  obtain ⟨i, _, rfl⟩ := List.mem_map.1 h
  trivial

theorem cmpParts_is (P ts : Nat) (counts displs : Nat → Nat) : ∀ op ∈ cmpParts P ts counts displs, IsCmp op := by
  intro op h
  obtain ⟨j, _, h⟩ := List.mem_flatMap.1 h
  exact cmpLongs_is _ _ op h

theorem maxOf_ge (P : Nat) (f : Nat → Nat) : ∀ i < P, f i ≤ maxOf P f := by
  unfold maxOf
  induction P with
  | zero => intro i h; omega
  | succ P ih =>
    intro i h
    rw [List.range_succ, List.foldl_append]
    simp only [List.foldl_cons, List.foldl_nil]
    by_cases hi : i = P
    · subst hi
      split <;> omega
    · have := ih i (by omega)
      split <;> omega

end ExtMpi.SelfTest
