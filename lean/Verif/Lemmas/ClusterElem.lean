import Verif.Lemmas.TasksAssemble
import Verif.Spec.Cluster
/-! Copies element by element, barriers in rounds. -/
namespace ExtMpi.Cluster
open RawCode Schedule
open TasksNode

/-- The elements of an instruction; a barrier has `K` rounds. -/
def elemI (K : Nat) : Instr → List Instr
  | .copy red d s n => (List.range n).map fun e => .copy red (shift d e) (shift s e) 1
  | .barrier => List.replicate K .barrier
  | i => [i]

/-- The elements of a program with the processes. -/
def elemM (K : Nat) (M : Master) : Master := M.flatMap fun x => (elemI K x.2).map fun i => (x.1, i)

theorem elemM_append (K : Nat) (A B : Master) : elemM K (A ++ B) = elemM K A ++ elemM K B := by
  unfold elemM; rw [List.flatMap_append]

theorem elemM_cons (K : Nat) (x : Option Nat × Instr) (M : Master) :
    elemM K (x :: M) = ((elemI K x.2).map fun i => (x.1, i)) ++ elemM K M := rfl

theorem elemM_snd (K : Nat) (M : Master) : (elemM K M).map Prod.snd = (M.map Prod.snd).flatMap (elemI K) := by
  unfold elemM
  rw [List.map_flatMap, List.flatMap_map]
  apply List.flatMap_congr
  intro x _
  rw [List.map_map]
  exact List.map_id _

theorem mem_elemI {K : Nat} {i j : Instr} (h : j ∈ elemI K i) :
    (∃ red d s n e, i = .copy red d s n ∧ e < n ∧ j = .copy red (shift d e) (shift s e) 1) ∨ (j = i ∧ ∀ red d s n, i ≠ .copy red d s n) := by
  cases i with
  | copy red d s n =>
    obtain ⟨e, he, rfl⟩ := List.mem_map.1 h
    exact .inl ⟨red, d, s, n, e, rfl, List.mem_range.1 he, rfl⟩
  | barrier => exact .inr ⟨(List.mem_replicate.1 h).2, fun _ _ _ _ h => by cases h⟩
  | irecv a n q => exact .inr ⟨List.mem_singleton.1 h, fun _ _ _ _ h => by cases h⟩
  | isend a n q => exact .inr ⟨List.mem_singleton.1 h, fun _ _ _ _ h => by cases h⟩
  | waitall => exact .inr ⟨List.mem_singleton.1 h, fun _ _ _ _ h => by cases h⟩

theorem elemM_wf {N ns a K : Nat} {M : Master} (h : ∀ x, x ∈ M → WF N ns a x) : ∀ x, x ∈ elemM K M → WF N ns a x := by
  intro x hx
  obtain ⟨y, hy, hx⟩ := List.mem_flatMap.1 hx
  obtain ⟨j, hj, rfl⟩ := List.mem_map.1 hx
  have := h y hy
  obtain ⟨o, i⟩ := y
  rcases mem_elemI hj with ⟨red, d, s, n, e, rfl, _, rfl⟩ | ⟨rfl, _⟩
  · cases o
    · exact this
    · exact this
  · exact this

theorem sendTags_elem (K q : Nat) (M : Master) : sendTags q (elemM K M) = sendTags q M := by
  induction M with
  | nil => rfl
  | cons x M ih =>
    rw [elemM_cons, sendTags_append, ih, sendTags_cons]
    congr 1
    obtain ⟨o, i⟩ := x
    cases i with
    | copy red d s n =>
      rw [sendTags_none, sendTags_none]
      · intro x hx u n p e
        rw [List.mem_singleton] at hx
        rw [hx] at e
        cases e
      · intro x hx u n p e
        obtain ⟨j, hj, rfl⟩ := List.mem_map.1 hx
        obtain ⟨_, _, rfl⟩ := List.mem_map.1 hj
        cases e
    | barrier =>
      rw [sendTags_none, sendTags_none]
      · intro x hx u n p e
        rw [List.mem_singleton] at hx
        rw [hx] at e
        cases e
      · intro x hx u n p e
        obtain ⟨j, hj, rfl⟩ := List.mem_map.1 hx
        rw [(List.mem_replicate.1 hj).2] at e
        cases e
    | irecv a n q => rfl
    | isend a n q => rfl
    | waitall => rfl

theorem recvTags_elem (K q : Nat) (M : Master) : recvTags q (elemM K M) = recvTags q M := by
  induction M with
  | nil => rfl
  | cons x M ih =>
    rw [elemM_cons, recvTags_append, ih, recvTags_cons]
    congr 1
    obtain ⟨o, i⟩ := x
    cases i with
    | copy red d s n =>
      rw [recvTags_none, recvTags_none]
      · intro x hx u n p e
        rw [List.mem_singleton] at hx
        rw [hx] at e
        cases e
      · intro x hx u n p e
        obtain ⟨j, hj, rfl⟩ := List.mem_map.1 hx
        obtain ⟨_, _, rfl⟩ := List.mem_map.1 hj
        cases e
    | barrier =>
      rw [recvTags_none, recvTags_none]
      · intro x hx u n p e
        rw [List.mem_singleton] at hx
        rw [hx] at e
        cases e
      · intro x hx u n p e
        obtain ⟨j, hj, rfl⟩ := List.mem_map.1 hx
        rw [(List.mem_replicate.1 hj).2] at e
        cases e
    | irecv a n q => rfl
    | isend a n q => rfl
    | waitall => rfl

theorem elemI_toProc (K ns r : Nat) (i : Instr) : elemI K (toProc ns r i) = (elemI K i).map (toProc ns r) := by
  cases i with
  | copy red d s n => simp [toProc, elemI, Function.comp_def]
  | barrier => simp [toProc, elemI]
  | irecv a n q => rfl
  | isend a n q => rfl
  | waitall => rfl

theorem share_elem (K ns r : Nat) (M : Master) : share ns r (elemM K M) = (share ns r M).flatMap (elemI K) := by
  induction M with
  | nil => rfl
  | cons x M ih =>
    rw [elemM_cons, share_append, ih]
    have h1 : share ns r ((elemI K x.2).map fun i => (x.1, i)) =
        if x.1 = none ∨ x.1 = some r then (elemI K x.2).map (toProc ns r) else [] := by
      unfold share
      rw [List.filterMap_map]
      split
      · rename_i h
        rw [← List.filterMap_eq_map]
        congr 1
        funext i
        simp [h]
      · rename_i h
        rw [List.filterMap_eq_nil_iff]
        intro i _
        simp [h]
    have h2 : share ns r (x :: M) = (if x.1 = none ∨ x.1 = some r then [toProc ns r x.2] else []) ++ share ns r M := by
      unfold share
      rw [List.filterMap_cons]
      split <;> simp_all
    rw [h1, h2, List.flatMap_append]
    congr 1
    split
    · rw [List.flatMap_singleton, elemI_toProc]
    · rfl

theorem bars_elem (K : Nat) (M : Master) : bars (elemM K M) = K * bars M := by
  induction M with
  | nil => rfl
  | cons x M ih =>
    rw [elemM_cons, bars_append, ih, bars_cons, Nat.mul_add]
    congr 1
    obtain ⟨o, i⟩ := x
    cases i with
    | copy red d s n => simp [elemI, bars, nb, List.filter_map, Function.comp_def]
    | barrier => simp [elemI, bars, nb]
    | irecv a n q => simp [elemI, bars, nb]
    | isend a n q => simp [elemI, bars, nb]
    | waitall => simp [elemI, bars, nb]

/-! ## Conflicts -/

theorem overlap_shift {d x : Addr} {n m e f : Nat} (he : e < n) (hf : f < m)
    (h : overlap (shift d e) 1 (shift x f) 1) : overlap d n x m := by
  obtain ⟨h1, h2, h3⟩ := h
  simp only [shift] at h1 h2 h3
  exact ⟨h1, by omega, by omega⟩

theorem overlap_shift_left {d x : Addr} {n m e : Nat} (he : e < n)
    (h : overlap (shift d e) 1 x m) : overlap d n x m := by
  obtain ⟨h1, h2, h3⟩ := h
  simp only [shift] at h1 h2 h3
  exact ⟨h1, by omega, by omega⟩

/-- What an element accesses is accessed by the instruction. -/
theorem elem_writes {K : Nat} {i j : Instr} (h : j ∈ elemI K i) {x : Addr × Nat} (hx : x ∈ writes j) :
    ∃ y, y ∈ writes i ∧ ∀ z : Addr × Nat, overlap x.1 x.2 z.1 z.2 → overlap y.1 y.2 z.1 z.2 := by
  rcases mem_elemI h with ⟨red, d, s, n, e, rfl, he, rfl⟩ | ⟨rfl, _⟩
  · rw [List.mem_singleton.1 hx]
    exact ⟨(d, n), List.mem_singleton.2 rfl, fun z hz => overlap_shift_left he hz⟩
  · exact ⟨x, hx, fun _ h => h⟩

theorem elem_reads {K : Nat} {i j : Instr} (h : j ∈ elemI K i) {x : Addr × Nat} (hx : x ∈ reads j) :
    ∃ y, y ∈ reads i ∧ ∀ z : Addr × Nat, overlap x.1 x.2 z.1 z.2 → overlap y.1 y.2 z.1 z.2 := by
  rcases mem_elemI h with ⟨red, d, s, n, e, rfl, he, rfl⟩ | ⟨rfl, _⟩
  · rw [List.mem_singleton.1 hx]
    exact ⟨(s, n), List.mem_singleton.2 rfl, fun z hz => overlap_shift_left he hz⟩
  · exact ⟨x, hx, fun _ h => h⟩

theorem elem_conflict {K : Nat} {i i' j j' : Instr} (h : j ∈ elemI K i) (h' : j' ∈ elemI K i') (hc : Conflict j j') :
    Conflict i i' := by
  rcases hc with ⟨x, y, hx, hy, ho⟩ | ⟨x, y, hx, hy, ho⟩
  · obtain ⟨x', hx', e1⟩ := elem_writes h hx
    rcases List.mem_append.1 hy with hy | hy
    · obtain ⟨y', hy', e2⟩ := elem_writes h' hy
      exact .inl ⟨x', y', hx', List.mem_append_left _ hy', overlap_symm (e2 _ (overlap_symm (e1 _ ho)))⟩
    · obtain ⟨y', hy', e2⟩ := elem_reads h' hy
      exact .inl ⟨x', y', hx', List.mem_append_right _ hy', overlap_symm (e2 _ (overlap_symm (e1 _ ho)))⟩
  · obtain ⟨x', hx', e1⟩ := elem_reads h hx
    obtain ⟨y', hy', e2⟩ := elem_writes h' hy
    exact .inr ⟨x', y', hx', hy', overlap_symm (e2 _ (overlap_symm (e1 _ ho)))⟩

/-- An element of a program. -/
theorem elemM_split {K : Nat} {M A B : Master} {x : Option Nat × Instr} (h : elemM K M = A ++ x :: B) :
    ∃ A' y B' P Q, M = A' ++ y :: B' ∧ A = elemM K A' ++ P ∧ B = Q ++ elemM K B' ∧ x.1 = y.1 ∧ x.2 ∈ elemI K y.2 ∧
      (elemI K y.2).map (fun i => (y.1, i)) = P ++ x :: Q := by
  induction M generalizing A with
  | nil => simp [elemM] at h
  | cons y M ih =>
    rw [elemM_cons] at h
    rcases List.append_eq_append_iff.1 h with ⟨L, h1, h2⟩ | ⟨L, h1, h2⟩
    · obtain ⟨A', z, B', P, Q, e1, e2, e3, e4, e5, e6⟩ := ih h2
      refine ⟨y :: A', z, B', P, Q, by rw [e1]; rfl, ?_, e3, e4, e5, e6⟩
      rw [h1, e2, elemM_cons, List.append_assoc]
    · cases L with
      | nil =>
        rw [List.nil_append] at h2
        obtain ⟨A', z, B', P, Q, e1, e2, e3, e4, e5, e6⟩ := ih (A := []) h2.symm
        refine ⟨y :: A', z, B', P, Q, by rw [e1]; rfl, ?_, e3, e4, e5, e6⟩
        rw [elemM_cons, List.append_assoc, ← e2, List.append_nil, h1, List.append_nil]
      | cons z L =>
        rw [List.cons_append] at h2
        obtain ⟨rfl, h3⟩ := List.cons.inj h2
        have hm : x ∈ (elemI K y.2).map fun i => (y.1, i) := by
          rw [h1]; exact List.mem_append_right _ List.mem_cons_self
        obtain ⟨j, hj, hx⟩ := List.mem_map.1 hm
        refine ⟨[], y, M, A, L, rfl, rfl, h3, by rw [← hx], by rw [← hx]; exact hj, h1⟩

/-! ## Executions -/

variable {X : Type} [Add X]

theorem copyMem_succ {red : Bool} {d s : Addr} {n k : Nat} (hk : k < n) (h : ¬overlap d n s n) (m : Mem X) :
    copyMem red (shift d k) (shift s k) 1 (copyMem red d s k m) = copyMem red d s (k + 1) m := by
  funext r i
  unfold copyMem shift
  dsimp only
  by_cases hr : r = d.reg
  · subst hr
    by_cases h1 : i = d.off + k
    · subst h1
      have c1 : d.reg = d.reg ∧ d.off + k ≤ d.off + k ∧ d.off + k < d.off + k + 1 := ⟨rfl, by omega, by omega⟩
      have c2 : ¬(d.reg = d.reg ∧ d.off ≤ d.off + k ∧ d.off + k < d.off + k) := by omega
      have c3 : d.reg = d.reg ∧ d.off ≤ d.off + k ∧ d.off + k < d.off + (k + 1) := ⟨rfl, by omega, by omega⟩
      have c4 : ¬(s.reg = d.reg ∧ d.off ≤ s.off + k + (d.off + k - (d.off + k)) ∧
          s.off + k + (d.off + k - (d.off + k)) < d.off + k) := by
        rintro ⟨e1, e2, e3⟩
        exact h ⟨e1.symm, by omega, by omega⟩
      have e : s.off + k + (d.off + k - (d.off + k)) = s.off + (d.off + k - d.off) := by omega
      rw [if_pos c1, if_neg c2, if_neg c4, if_pos c3, e]
    · have c1 : ¬(d.reg = d.reg ∧ d.off + k ≤ i ∧ i < d.off + k + 1) := by omega
      rw [if_neg c1]
      by_cases h2 : d.off ≤ i ∧ i < d.off + k
      · have c2 : d.reg = d.reg ∧ d.off ≤ i ∧ i < d.off + (k + 1) := ⟨rfl, h2.1, by omega⟩
        have c3 : d.reg = d.reg ∧ d.off ≤ i ∧ i < d.off + k := ⟨rfl, h2⟩
        rw [if_pos c3, if_pos c2]
      · rw [if_neg (fun c => h2 c.2), if_neg (fun c => h2 ⟨c.2.1, by omega⟩)]
  · rw [if_neg (fun c => hr c.1), if_neg (fun c => hr c.1), if_neg (fun c => hr c.1)]

theorem copyMem_zero (red : Bool) (d s : Addr) (m : Mem X) : copyMem red d s 0 m = m := by
  funext r i
  unfold copyMem
  rw [if_neg (by omega)]

/-- A step of a process in steps of the elements. -/
theorem lstep_elem (K : Nat) {p p' : Proc X} (h : LStep p p') :
    LRun { p with rest := p.rest.flatMap (elemI K) } { p' with rest := p'.rest.flatMap (elemI K) } := by
  cases h with
  | @copy red dst src n rest hr ho h1 h2 h3 =>
    rw [hr, List.flatMap_cons]
    have key : ∀ k, k ≤ n → LRun { p with rest := elemI K (.copy red dst src n) ++ rest.flatMap (elemI K) }
        { p with rest := ((List.range' k (n - k)).map fun e => .copy red (shift dst e) (shift src e) 1) ++ rest.flatMap (elemI K),
                 mem := copyMem red dst src k p.mem } := by
      intro k
      induction k with
      | zero =>
        intro _
        rw [copyMem_zero, Nat.sub_zero, ← List.range_eq_range']
        exact .refl
      | succ k ih =>
        intro hk
        refine (ih (by omega)).trans ?_
        rw [show n - k = (n - (k + 1)) + 1 by omega, List.range'_succ, List.map_cons, List.cons_append,
          ← copyMem_succ (n := n) (by omega) ho]
        refine .step (.copy rfl ?_ ?_ ?_ ?_) .refl
        · exact fun h => ho (overlap_shift (by omega) (by omega) h)
        · exact fun q x hx h => h1 q x hx (overlap_symm (overlap_shift_left (by omega) (overlap_symm h)))
        · exact fun q x hx h => h2 q x hx (overlap_symm (overlap_shift_left (by omega) (overlap_symm h)))
        · exact fun q x hx h => h3 q x hx (overlap_symm (overlap_shift_left (by omega) (overlap_symm h)))
    have := key n (Nat.le_refl _)
    rw [Nat.sub_self] at this
    exact this
  | @irecv buf n q rest hr h1 h2 =>
    rw [hr, List.flatMap_cons]
    exact .step (.irecv rfl h1 h2) .refl
  | @isend buf n q rest hr h1 =>
    rw [hr, List.flatMap_cons]
    exact .step (.isend rfl h1) .refl
  | @waitall rest hr h1 =>
    rw [hr, List.flatMap_cons]
    exact .step (.waitall rfl h1) .refl
  | @barrier rest hr =>
    rw [hr, List.flatMap_cons]
    show LRun { p with rest := List.replicate K .barrier ++ _ } _
    generalize rest.flatMap (elemI K) = R
    induction K with
    | zero => exact .refl
    | succ K ih => exact .step (.barrier rfl) ih

/-- The state of the elements. -/
def elemS (K : Nat) (s : State X) : State X :=
  ⟨fun a => { s.proc a with rest := (s.proc a).rest.flatMap (elemI K) }, s.chan⟩

theorem elemS_put (K : Nat) (f : Nat → Proc X) (t : Nat) (p : Proc X) (c : Nat → Nat → List (List X)) :
    elemS K ⟨setProc f t p, c⟩ = ⟨setProc (elemS K ⟨f, c⟩).proc t { p with rest := p.rest.flatMap (elemI K) }, c⟩ := by
  unfold elemS
  congr 1
  funext a
  by_cases h : a = t
  · subst h; simp only [setProc_same]
  · simp only [setProc_ne _ _ _ _ h]

theorem step_elem (K : Nat) {N : Nat} {l : Lab} {s s' : State X} (hu : Unbuffered l s) (hd : Delayed l s)
    (h : Step N l s s') : Reach N (elemS K s) (elemS K s') := by
  have hw : ∀ t, (∃ r, (s.proc t).rest = .waitall :: r) → ∃ r, ((elemS K s).proc t).rest = .waitall :: r := by
    rintro t ⟨r, hr⟩
    refine ⟨r.flatMap (elemI K), ?_⟩
    show (s.proc t).rest.flatMap _ = _
    rw [hr]
    rfl
  cases h with
  | @loc _ t p ht hl =>
    rw [elemS_put]
    exact (lstep_elem K hl).lift ht (elemS K s) rfl
  | @depart _ q t a n r hq ht hne hs =>
    rw [elemS_put]
    exact Reach.single (l := .depart q t) hu (hw _ hd) (Step.depart (s := elemS K s) hq ht hne hs)
  | @arrive _ q t a n r msg ms hq ht hne hc hr hl =>
    rw [elemS_put]
    exact Reach.single (l := .arrive q t) hu (hw _ hd) (Step.arrive (s := elemS K s) hq ht hne hc hr hl)

theorem run_elem (K : Nat) {N k : Nat} {s s' : State X} (h : URun N k s s') : Reach N (elemS K s) (elemS K s') := by
  induction h with
  | refl => exact .refl _ _
  | step hu hd hs _ ih => exact (step_elem K hu hd hs).trans ih

theorem final_elem (K : Nat) {N : Nat} {s : State X} (h : Final N s) : Final N (elemS K s) := by
  intro t ht
  obtain ⟨h1, h2⟩ := h t ht
  refine ⟨?_, h2⟩
  show (s.proc t).rest.flatMap _ = []
  rw [h1]; rfl

/-- Copies in a complete execution have separate operands. -/
theorem run_apart {N k : Nat} {s e : State X} (h : URun N k s e) (he : Final N e) :
    ∀ a, a < N → ∀ red d s' n, Instr.copy red d s' n ∈ (s.proc a).rest → ¬overlap d n s' n := by
  induction h with
  | refl =>
    intro a ha red d s' n hm
    rw [(he a ha).1] at hm
    exact absurd hm List.not_mem_nil
  | @step k l s s1 s2 hu _ hs _ ih =>
    intro a ha red d s' n hm
    have ih := ih he a ha red d s' n
    have same : ∀ (t : Nat) (p : Proc X), s1.proc = setProc s.proc t p → p.rest = (s.proc t).rest → ¬overlap d n s' n := by
      intro t p h1 h2
      apply ih
      rw [h1]
      unfold setProc
      split
      · rename_i h; rw [h2, ← h]; exact hm
      · exact hm
    cases hs with
    | @loc _ t p ht hl =>
      by_cases e : a = t
      · subst e
        have ih' : Instr.copy red d s' n ∈ p.rest → ¬overlap d n s' n := by
          intro h
          apply ih
          show _ ∈ (setProc s.proc a p a).rest
          rw [setProc_same]
          exact h
        cases hl with
        | copy hr ho _ _ _ =>
          rw [hr] at hm
          rcases List.mem_cons.1 hm with h | h
          · cases h; exact ho
          · exact ih' h
        | irecv hr _ _ => rw [hr] at hm; exact ih' ((List.mem_cons.1 hm).resolve_left (by intro h; cases h))
        | isend hr _ => rw [hr] at hm; exact ih' ((List.mem_cons.1 hm).resolve_left (by intro h; cases h))
        | waitall hr _ => rw [hr] at hm; exact ih' ((List.mem_cons.1 hm).resolve_left (by intro h; cases h))
        | barrier hr => rw [hr] at hm; exact ih' ((List.mem_cons.1 hm).resolve_left (by intro h; cases h))
      · apply ih
        show _ ∈ (setProc s.proc t p a).rest
        unfold setProc
        rw [if_neg e]
        exact hm
    | @depart _ q t a n r hq ht hne hs => exact same _ _ rfl rfl
    | @arrive _ q t a n r msg ms hq ht hne hc hr hl => exact same _ _ rfl rfl

end ExtMpi.Cluster
