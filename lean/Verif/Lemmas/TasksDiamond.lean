import Verif.Spec.TasksRun
import Verif.Lemmas.RawCodeRun
/-! Steps of several processes per node commute. -/
namespace ExtMpi.TasksNode
open RawCode

variable {X : Type} [Add X] {W : Nat → Nat → Nat → Prop}

theorem put_same {Y : Type} (f : Nat → Y) (k : Nat) (y : Y) : put f k y k = y := by simp [put]

theorem put_ne {Y : Type} (f : Nat → Y) (k j : Nat) (y : Y) (h : j ≠ k) : put f k y j = f j := by simp [put, h]

theorem put_comm {Y : Type} (f : Nat → Y) (k j : Nat) (y z : Y) (h : k ≠ j) :
    put (put f k y) j z = put (put f j z) k y := by
  funext i
  unfold put
  split
  · rw [if_neg (by omega)]
  · rfl

theorem put_put {Y : Type} (f : Nat → Y) (k : Nat) (y z : Y) : put (put f k y) k z = put f k z := by
  funext i
  unfold put
  split <;> rfl

theorem put_self {Y : Type} (f : Nat → Y) (k : Nat) : put f k (f k) = f := by
  funext i
  unfold put
  split
  · rename_i h; rw [h]
  · rfl

/-! ## Local steps -/

/-- The next instruction of process `p` is `i`, and it can be executed or a barrier entered or left; the process
becomes `t'`. -/
inductive LocOk (N ns : Nat) (W : Nat → Nat → Nat → Prop) (s : TState X) (p : Nat) : Instr → Task → Prop
  | instr {i rest} : (s.task p).rest = i :: rest → i ≠ .barrier → Clear ns s (p / ns) i →
      (i = .waitall → ∀ q, (s.task p).recvs q = [] ∧ (s.task p).sends q = []) →
      LocOk N ns W s p i (taskAfter i rest (s.task p))
  | enter {rest} : (s.task p).rest = .barrier :: rest → (s.task p).waiting = false →
      LocOk N ns W s p .barrier { s.task p with entered := (s.task p).entered + 1, waiting := true }
  | leave {rest} : (s.task p).rest = .barrier :: rest → (s.task p).waiting = true →
      (∀ p', p' < N * ns → p' / ns = p / ns → W p (s.task p).entered p' → (s.task p).entered ≤ (s.task p').entered) →
      LocOk N ns W s p .barrier { s.task p with rest := rest, waiting := false }

theorem TStep.ofLoc {N ns p : Nat} {s s' : TState X} {i : Instr} {t' : Task} (hp : p < N * ns)
    (h : LocOk N ns W s p i t') (e1 : s'.task = put s.task p t')
    (e2 : s'.mem = put s.mem (p / ns) (memAfter i (s.mem (p / ns)))) (e3 : s'.chan = s.chan) :
    TStep N ns W (.loc p) s s' := by
  cases h with
  | instr h1 h2 h3 h4 =>
    have := TStep.instr (W := W) hp h1 h2 h3 h4
    rw [← e1, ← e2, ← e3] at this
    exact this
  | enter h1 h2 =>
    have := TStep.enter (W := W) hp h1 h2
    dsimp only [memAfter] at e2
    rw [put_self] at e2
    rw [← e1, ← e2, ← e3] at this
    exact this
  | leave h1 h2 h3 =>
    have := TStep.leave (W := W) hp h1 h2 h3
    dsimp only [memAfter] at e2
    rw [put_self] at e2
    rw [← e1, ← e2, ← e3] at this
    exact this

theorem TStep.toLoc {N ns p : Nat} {s s' : TState X} (h : TStep N ns W (.loc p) s s') :
    p < N * ns ∧ ∃ i t', LocOk N ns W s p i t' ∧
      s' = ⟨put s.task p t', put s.mem (p / ns) (memAfter i (s.mem (p / ns))), s.chan⟩ := by
  cases h with
  | instr hp h1 h2 h3 h4 => exact ⟨hp, _, _, .instr h1 h2 h3 h4, rfl⟩
  | enter hp h1 h2 => exact ⟨hp, _, _, .enter h1 h2, by dsimp only [memAfter]; rw [put_self]⟩
  | leave hp h1 h2 h3 => exact ⟨hp, _, _, .leave h1 h2 h3, by dsimp only [memAfter]; rw [put_self]⟩

theorem LocOk.rest {N ns : Nat} {s : TState X} {p : Nat} {i : Instr} {t' : Task} (h : LocOk N ns W s p i t') :
    ∃ r, (s.task p).rest = i :: r := by
  cases h with
  | instr h1 _ _ _ => exact ⟨_, h1⟩
  | enter h1 _ => exact ⟨_, h1⟩
  | leave h1 _ _ => exact ⟨_, h1⟩

theorem clear_barrier (ns : Nat) (s : TState X) (a : Nat) : Clear ns s a .barrier :=
  ⟨fun _ _ _ _ _ _ h => absurd h List.not_mem_nil, fun _ _ _ _ _ _ h => absurd h List.not_mem_nil,
    fun _ h => absurd h List.not_mem_nil⟩

theorem LocOk.clear {N ns : Nat} {s : TState X} {p : Nat} {i : Instr} {t' : Task} (h : LocOk N ns W s p i t') :
    Clear ns s (p / ns) i := by
  cases h with
  | instr _ _ h3 _ => exact h3
  | enter _ _ => exact clear_barrier _ _ _
  | leave _ _ _ => exact clear_barrier _ _ _

theorem LocOk.det {N ns : Nat} {s : TState X} {p : Nat} {i j : Instr} {t1 t2 : Task} (h1 : LocOk N ns W s p i t1)
    (h2 : LocOk N ns W s p j t2) : i = j ∧ t1 = t2 := by
  cases h1 <;> cases h2 <;> simp_all

theorem TStep.det {N ns : Nat} {l : Lab} {s s1 s2 : TState X} (h1 : TStep N ns W l s s1) (h2 : TStep N ns W l s s2) :
    s1 = s2 := by
  cases l with
  | loc p =>
    obtain ⟨_, i, t1, g1, rfl⟩ := h1.toLoc
    obtain ⟨_, j, t2, g2, rfl⟩ := h2.toLoc
    obtain ⟨rfl, rfl⟩ := g1.det g2
    rfl
  | depart q t =>
    cases h1 with
    | depart _ _ _ h =>
      cases h2 with
      | depart _ _ _ h' => rw [h] at h'; simp_all
  | arrive q t =>
    cases h1 with
    | arrive _ _ _ h g _ =>
      cases h2 with
      | arrive _ _ _ h' g' _ => rw [h] at h'; rw [g] at g'; simp_all

theorem after_recvs {i : Instr} {r : List Instr} {t : Task} {q : Nat} {x : Addr × Nat}
    (h : x ∈ (taskAfter i r t).recvs q) : x ∈ t.recvs q ∨ x ∈ writes i ∧ ∃ a n, i = .irecv a n q := by
  cases i with
  | irecv a n q' =>
    rcases mem_push h with h | ⟨rfl, rfl⟩
    · exact .inl h
    · exact .inr ⟨List.mem_singleton.2 rfl, a, n, rfl⟩
  | _ => exact .inl h

theorem after_sends {i : Instr} {r : List Instr} {t : Task} {q : Nat} {x : Addr × Nat}
    (h : x ∈ (taskAfter i r t).sends q) : x ∈ t.sends q ∨ x ∈ reads i ∧ ∃ a n, i = .isend a n q := by
  cases i with
  | isend a n q' =>
    rcases mem_push h with h | ⟨rfl, rfl⟩
    · exact .inl h
    · exact .inr ⟨List.mem_singleton.2 rfl, a, n, rfl⟩
  | _ => exact .inl h

theorem LocOk.recvs {N ns : Nat} {s : TState X} {p : Nat} {i : Instr} {t' : Task} (h : LocOk N ns W s p i t') {q : Nat}
    {x : Addr × Nat} (hx : x ∈ t'.recvs q) : x ∈ (s.task p).recvs q ∨ x ∈ writes i ∧ ∃ a n, i = .irecv a n q := by
  cases h with
  | instr _ _ _ _ => exact after_recvs hx
  | enter _ _ => exact .inl hx
  | leave _ _ _ => exact .inl hx

theorem LocOk.sends {N ns : Nat} {s : TState X} {p : Nat} {i : Instr} {t' : Task} (h : LocOk N ns W s p i t') {q : Nat}
    {x : Addr × Nat} (hx : x ∈ t'.sends q) : x ∈ (s.task p).sends q ∨ x ∈ reads i ∧ ∃ a n, i = .isend a n q := by
  cases h with
  | instr _ _ _ _ => exact after_sends hx
  | enter _ _ => exact .inl hx
  | leave _ _ _ => exact .inl hx

theorem LocOk.entered {N ns : Nat} {s : TState X} {p : Nat} {i : Instr} {t' : Task} (h : LocOk N ns W s p i t') :
    (s.task p).entered ≤ t'.entered := by
  cases h with
  | @instr r _ _ _ _ _ => cases i <;> exact Nat.le_refl _
  | enter _ _ => exact Nat.le_succ _
  | leave _ _ _ => exact Nat.le_refl _

/-- The step does not depend on the other processes. -/
theorem LocOk.transport {N ns : Nat} {s s' : TState X} {p : Nat} {i : Instr} {t' : Task} (h : LocOk N ns W s p i t')
    (e : s'.task p = s.task p) (he : ∀ k, (s.task k).entered ≤ (s'.task k).entered) (hc : Clear ns s' (p / ns) i) :
    LocOk N ns W s' p i t' := by
  cases h with
  | instr h1 h2 h3 h4 => rw [← e] at h1 h4 ⊢; exact .instr h1 h2 hc h4
  | enter h1 h2 => rw [← e] at h1 h2 ⊢; exact .enter h1 h2
  | leave h1 h2 h3 =>
    rw [← e] at h1 h2 h3 ⊢
    exact .leave h1 h2 fun p' hp hn hW => Nat.le_trans (h3 p' hp hn hW) (he p')

theorem Clear.mono {ns a : Nat} {s s' : TState X} {i : Instr} (h : Clear ns s a i)
    (hr : ∀ p q x, x ∈ (s'.task p).recvs q → x ∈ (s.task p).recvs q)
    (hs : ∀ p q x, x ∈ (s'.task p).sends q → x ∈ (s.task p).sends q) : Clear ns s' a i :=
  ⟨fun p hp q x hx => h.1 p hp q x (hr p q x hx), fun p hp q x hx => h.2.1 p hp q x (hs p q x hx), h.2.2⟩

/-! ## Buffers of pending messages -/

/-- Pending receive buffers of a node are disjoint from each other and from the pending send buffers. -/
structure TSep (ns : Nat) (s : TState X) : Prop where
  rs : ∀ p p', p / ns = p' / ns → ∀ q q' x y, x ∈ (s.task p).recvs q → y ∈ (s.task p').sends q' →
    ¬overlap x.1 x.2 y.1 y.2
  rr : ∀ p p', p / ns = p' / ns → ∀ q q' x y, ¬(p = p' ∧ q = q') → x ∈ (s.task p).recvs q →
    y ∈ (s.task p').recvs q' → ¬overlap x.1 x.2 y.1 y.2

theorem put_recvs {f : Nat → Task} {p k q : Nat} {t' : Task} {x : Addr × Nat} (h : x ∈ (put f p t' k).recvs q) :
    k ≠ p ∧ x ∈ (f k).recvs q ∨ k = p ∧ x ∈ t'.recvs q := by
  by_cases e : k = p
  · subst e; rw [put_same] at h; exact .inr ⟨rfl, h⟩
  · rw [put_ne _ _ _ _ e] at h; exact .inl ⟨e, h⟩

theorem put_sends {f : Nat → Task} {p k q : Nat} {t' : Task} {x : Addr × Nat} (h : x ∈ (put f p t' k).sends q) :
    k ≠ p ∧ x ∈ (f k).sends q ∨ k = p ∧ x ∈ t'.sends q := by
  by_cases e : k = p
  · subst e; rw [put_same] at h; exact .inr ⟨rfl, h⟩
  · rw [put_ne _ _ _ _ e] at h; exact .inl ⟨e, h⟩

theorem LocOk.put_recvs {N ns : Nat} {s : TState X} {p : Nat} {i : Instr} {t' : Task} (h : LocOk N ns W s p i t')
    {k q : Nat} {x : Addr × Nat} (hx : x ∈ (put s.task p t' k).recvs q) :
    x ∈ (s.task k).recvs q ∨ k = p ∧ x ∈ writes i ∧ ∃ a n, i = .irecv a n q := by
  rcases TasksNode.put_recvs hx with ⟨_, g⟩ | ⟨e, g⟩
  · exact .inl g
  · rcases h.recvs g with g | g
    · exact .inl (e ▸ g)
    · exact .inr ⟨e, g⟩

theorem LocOk.put_sends {N ns : Nat} {s : TState X} {p : Nat} {i : Instr} {t' : Task} (h : LocOk N ns W s p i t')
    {k q : Nat} {x : Addr × Nat} (hx : x ∈ (put s.task p t' k).sends q) :
    x ∈ (s.task k).sends q ∨ k = p ∧ x ∈ reads i ∧ ∃ a n, i = .isend a n q := by
  rcases TasksNode.put_sends hx with ⟨_, g⟩ | ⟨e, g⟩
  · exact .inl g
  · rcases h.sends g with g | g
    · exact .inl (e ▸ g)
    · exact .inr ⟨e, g⟩

theorem TStep.sep {N ns : Nat} {l : Lab} {s s' : TState X} (h : TStep N ns W l s s') (hs : TSep ns s) : TSep ns s' := by
  cases l with
  | loc p =>
    obtain ⟨hp, i, t', hl, rfl⟩ := h.toLoc
    have hc := hl.clear
    refine ⟨fun k k' hk q q' x y hx hy => ?_, fun k k' hk q q' x y hne hx hy => ?_⟩
    · rcases hl.put_recvs hx with hx | ⟨ek, hx, a, n, ei⟩
      · rcases hl.put_sends hy with hy | ⟨ek', hy, _⟩
        · exact hs.rs k k' hk q q' x y hx hy
        · exact hc.1 k (by rw [hk, ek']) q x hx y (List.mem_append.2 (.inr hy))
      · rcases hl.put_sends hy with hy | ⟨ek', hy, a', n', ei'⟩
        · exact fun h => hc.2.1 k' (by rw [← hk, ek]) q' y hy x hx (overlap_symm h)
        · rw [ei] at ei'; exact absurd ei' (by simp)
    · rcases hl.put_recvs hx with hx | ⟨ek, hx, a, n, ei⟩
      · rcases hl.put_recvs hy with hy | ⟨ek', hy, _⟩
        · exact hs.rr k k' hk q q' x y hne hx hy
        · exact hc.1 k (by rw [hk, ek']) q x hx y (List.mem_append.2 (.inl hy))
      · rcases hl.put_recvs hy with hy | ⟨ek', hy, a', n', ei'⟩
        · exact fun h => hc.1 k' (by rw [← hk, ek]) q' y hy x (List.mem_append.2 (.inl hx)) (overlap_symm h)
        · rw [ei] at ei'
          simp only [Instr.irecv.injEq] at ei'
          exact absurd ⟨ek.trans ek'.symm, ei'.2.2⟩ hne
  | depart q t =>
    cases h with
    | depart _ _ _ h =>
      have h1 : ∀ k j x, x ∈ (put s.task q { s.task q with sends := pop (s.task q).sends t } k).recvs j →
          x ∈ (s.task k).recvs j := fun k j x hx => by
        rcases TasksNode.put_recvs hx with ⟨_, g⟩ | ⟨rfl, g⟩
        · exact g
        · exact g
      have h2 : ∀ k j x, x ∈ (put s.task q { s.task q with sends := pop (s.task q).sends t } k).sends j →
          x ∈ (s.task k).sends j := fun k j x hx => by
        rcases TasksNode.put_sends hx with ⟨_, g⟩ | ⟨rfl, g⟩
        · exact g
        · exact mem_pop g
      exact ⟨fun k k' hk q q' x y hx hy => hs.rs k k' hk q q' x y (h1 _ _ _ hx) (h2 _ _ _ hy),
        fun k k' hk q q' x y hne hx hy => hs.rr k k' hk q q' x y hne (h1 _ _ _ hx) (h1 _ _ _ hy)⟩
  | arrive q t =>
    cases h with
    | arrive _ _ _ _ _ _ =>
      have h1 : ∀ k j x, x ∈ (put s.task t { s.task t with recvs := pop (s.task t).recvs q } k).recvs j →
          x ∈ (s.task k).recvs j := fun k j x hx => by
        rcases TasksNode.put_recvs hx with ⟨_, g⟩ | ⟨rfl, g⟩
        · exact g
        · exact mem_pop g
      have h2 : ∀ k j x, x ∈ (put s.task t { s.task t with recvs := pop (s.task t).recvs q } k).sends j →
          x ∈ (s.task k).sends j := fun k j x hx => by
        rcases TasksNode.put_sends hx with ⟨_, g⟩ | ⟨rfl, g⟩
        · exact g
        · exact g
      exact ⟨fun k k' hk q q' x y hx hy => hs.rs k k' hk q q' x y (h1 _ _ _ hx) (h2 _ _ _ hy),
        fun k k' hk q q' x y hne hx hy => hs.rr k k' hk q q' x y hne (h1 _ _ _ hx) (h1 _ _ _ hy)⟩

/-! ## Memory -/

theorem copyMem_at (red : Bool) (dst src : Addr) (n : Nat) (m : Mem X) (r : Reg) (i : Nat)
    (h : r = dst.reg ∧ dst.off ≤ i ∧ i < dst.off + n) :
    copyMem red dst src n m r i =
      if red then m r i + m src.reg (src.off + (i - dst.off)) else m src.reg (src.off + (i - dst.off)) := by
  unfold copyMem
  rw [if_pos h]

theorem copyMem_comm (r1 r2 : Bool) (d1 s1 d2 s2 : Addr) (n1 n2 : Nat) (m : Mem X) (h1 : ¬overlap d1 n1 d2 n2)
    (h2 : ¬overlap d1 n1 s2 n2) (h3 : ¬overlap s1 n1 d2 n2) :
    copyMem r1 d1 s1 n1 (copyMem r2 d2 s2 n2 m) = copyMem r2 d2 s2 n2 (copyMem r1 d1 s1 n1 m) := by
  funext r i
  by_cases c1 : r = d1.reg ∧ d1.off ≤ i ∧ i < d1.off + n1
  · have c2 : ¬(r = d2.reg ∧ d2.off ≤ i ∧ i < d2.off + n2) := fun c2 =>
      h1 ⟨c1.1.symm.trans c2.1, by omega, by omega⟩
    have c3 : ¬(s1.reg = d2.reg ∧ d2.off ≤ s1.off + (i - d1.off) ∧ s1.off + (i - d1.off) < d2.off + n2) := fun c3 =>
      h3 ⟨c3.1, by omega, by omega⟩
    rw [copyMem_at _ _ _ _ _ _ _ c1, copyMem_out _ _ _ _ _ _ _ c2, copyMem_out _ _ _ _ _ _ _ c3,
      copyMem_out _ _ _ _ _ _ _ c2, copyMem_at _ _ _ _ _ _ _ c1]
  · rw [copyMem_out _ _ _ _ _ _ _ c1]
    by_cases c2 : r = d2.reg ∧ d2.off ≤ i ∧ i < d2.off + n2
    · have c3 : ¬(s2.reg = d1.reg ∧ d1.off ≤ s2.off + (i - d2.off) ∧ s2.off + (i - d2.off) < d1.off + n1) := fun c3 =>
        h2 ⟨c3.1.symm, by omega, by omega⟩
      rw [copyMem_at _ _ _ _ _ _ _ c2, copyMem_at _ _ _ _ _ _ _ c2, copyMem_out _ _ _ _ _ _ _ c1,
        copyMem_out _ _ _ _ _ _ _ c3]
    · rw [copyMem_out _ _ _ _ _ _ _ c2, copyMem_out _ _ _ _ _ _ _ c2, copyMem_out _ _ _ _ _ _ _ c1]

theorem memAfter_comm (i j : Instr) (m : Mem X) (h : ¬Conflict i j) :
    memAfter i (memAfter j m) = memAfter j (memAfter i m) := by
  cases i with
  | copy r1 d1 s1 n1 =>
    cases j with
    | copy r2 d2 s2 n2 =>
      apply copyMem_comm
      · exact fun c => h (.inl ⟨(d1, n1), (d2, n2), List.mem_singleton.2 rfl, List.mem_cons_self, c⟩)
      · exact fun c => h (.inl ⟨(d1, n1), (s2, n2), List.mem_singleton.2 rfl,
          List.mem_append.2 (.inr (List.mem_singleton.2 rfl)), c⟩)
      · exact fun c => h (.inr ⟨(s1, n1), (d2, n2), List.mem_singleton.2 rfl, List.mem_singleton.2 rfl, c⟩)
    | _ => rfl
  | _ => rfl

theorem readMem_memAfter (i : Instr) (m : Mem X) (a : Addr) (n : Nat)
    (h : ∀ y, y ∈ writes i → ¬overlap a n y.1 y.2) : readMem (memAfter i m) a n = readMem m a n := by
  cases i with
  | copy r d s k => exact readMem_copyMem _ _ _ _ _ _ _ (h (d, k) (List.mem_singleton.2 rfl))
  | _ => rfl

theorem Conflict.symm {i j : Instr} (h : Conflict i j) : Conflict j i := by
  rcases h with ⟨x, y, hx, hy, ho⟩ | ⟨x, y, hx, hy, ho⟩
  · rcases List.mem_append.1 hy with hy | hy
    · exact .inl ⟨y, x, hy, List.mem_append.2 (.inl hx), overlap_symm ho⟩
    · exact .inr ⟨y, x, hy, hx, overlap_symm ho⟩
  · exact .inl ⟨y, x, hy, List.mem_append.2 (.inr hx), overlap_symm ho⟩

end ExtMpi.TasksNode
